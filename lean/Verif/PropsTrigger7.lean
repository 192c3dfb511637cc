/-
kqueue and FEN end to end (C67): the non-recursive tree and the watcher together.
-/
import Verif.PropsTrigger6
import Verif.PropsNonRec2
import Verif.PropsFsevents2

namespace Verif
namespace Trg
open Spec.Trg Event WP
open Spec (copies wants wantsBelow)
open NonRec (Hist DHist GoodPath PlainEvent NoFail regOf C11_os_mirror C12_contract C01_delivery_exact C44_coverage
  C44_asked_registered asked)

/-! ### The calls of the tree as calls of the watcher -/

/-- A call of the tree answered by the watcher (watcher_trigger.go:256-295); sockets and dangling links, which the watcher skips
without telling, are not watched by name. -/
inductive Serves (N : Native) (E : Env) (s : St) : Call → Bool → St → Prop
  | watch (p e) : E.opn p ≠ .skip → Serves N E s (.watch p e) (decide ((Watch N E s p e).2 = .ok)) (Watch N E s p e).1
  | rewatch (p old new) : E.opn p ≠ .skip →
      Serves N E s (.rewatch p old new) (decide ((Rewatch N E s p new).2 = .ok)) (Rewatch N E s p new).1
  | unwatch (p) : E.opn p ≠ .skip → Serves N E s (.unwatch p) (decide ((Unwatch N E s p).2 = .ok)) (Unwatch N E s p).1

/-- `Drives N E l s`: starting with a fresh watcher, the calls of the log (newest first) with the recorded outcomes, and
notifications in between that are not about a removal, lead to the watcher state `s`. -/
inductive Drives (N : Native) (E : Env) : Log → St → Prop
  | init : Drives N E [] {}
  | call {l s c ok s'} : Drives N E l s → Serves N E s c ok s' → Drives N E ((c, ok) :: l) s'
  | note {l s} (p : Path) (ge : Event) : Drives N E l s → ge &&& (N.nRemove ||| N.nRename) = 0 →
      Drives N E l (process N E (retrieved N s p) p ge).1

theorem Drives.runs {N : Native} {E : Env} (hE : Steady E) {l : Log} {s : St} (h : Drives N E l s) (hv : ValidLog N.P l) :
    ARuns N E s (osOf l) := by
  induction h with
  | init => exact .init
  | note p ge _ hge ih => exact .note p ge (ih hv) hge
  | @call l s c ok s' _ hs ih =>
    obtain ⟨hc, hv⟩ := hv
    have ih := ih hv
    have hopn : ∀ {p}, E.opn p ≠ .skip → E.stat p ≠ none → E.opn p = .ok := fun h1 h2 => (hE.opn _ h2).resolve_right h1
    have hfun : ∀ {r : Req} {c : Call}, r.Fits E (osOf l) → (osOf ((c, true) :: l)) = r.eff (osOf l) →
        ARuns N E (r.call N E s).1 (osOf ((c, decide ((r.call N E s).2 = .ok)) :: l)) := by
      intro r c hf he
      have hok := ((ih.book hE).call hE hf).1
      rw [hok, decide_eq_true rfl, he]
      exact .step r ih hf
    cases hs with
    | watch p e hsk =>
      by_cases hst : E.stat p = none
      · have : Watch N E s p e = (s, .err true) := by unfold Watch; rw [hst]
        rw [this]
        exact ih
      · refine hfun (r := .watch p e) ⟨hst, hopn hsk hst, hc.1, hc.2.1⟩ ?_
        funext q
        simp only [osOf, Req.eff, upd, eq_comm (a := p)]
    | rewatch p old new hsk =>
      by_cases hst : E.stat p = none
      · have : Rewatch N E s p new = (s, .err true) := by unfold Rewatch; rw [hst]
        rw [this]
        exact ih
      · refine hfun (r := .rewatch p new) ⟨hst, hopn hsk hst, by rw [hc.1]; exact hc.2.1, hc.2.2.1⟩ ?_
        funext q
        simp only [osOf, Req.eff, upd, eq_comm (a := p)]
    | unwatch p hsk =>
      by_cases hst : E.stat p = none
      · have : Unwatch N E s p = (s, .err true) := by unfold Unwatch; rw [hst]
        rw [this]
        exact ih
      · refine hfun (r := .unwatch p) ⟨hst, hopn hsk hst, hc⟩ ?_
        funext q
        simp only [osOf, Req.eff, upd, eq_comm (a := p)]

/-! ### One native flag -/

/-- The flags of the platform and their meaning (from the manual pages). -/
def Means (N : Native) (e f : Event) : Prop := (N = kqueue ∧ (e, f) ∈ kqMeans) ∨ (N = fen ∧ (e, f) ∈ fenMeans)

/-- The kernel reports the flag if the native mask is `m`: it is in the mask or, on FEN, one of those that are always reported. -/
def Reports (N : Native) (m f : Event) : Prop := f ⊑ m ∨ (N = fen ∧ f ∈ fenExceptions)

theorem Means.decode {N : Native} {e f : Event} (h : Means N e f) {w : Event} (hw : e ⊑ w)
    (huniq : ∀ e', Means N e' f → e' ⊑ w → e' = e) : Trg.decode N.nat2not f w = e := by
  have hone : ∀ x ∈ kqMeans ++ fenMeans, ∀ y ∈ kqMeans ++ fenMeans, y.2 ⊑ x.2 → y.2 = x.2 := by
    have : ∀ x ∈ kqMeans ++ fenMeans, ∀ y ∈ kqMeans ++ fenMeans, x.2 &&& y.2 = y.2 → y.2 = x.2 := by decide
    intro x hx y hy hs
    exact this x hx y hy (sub_iff_and.1 hs)
  rw [bext]
  intro i
  apply Bool.eq_iff_iff.2
  rcases h with ⟨rfl, h⟩ | ⟨rfl, h⟩
  · rw [C40_decode_kqueue (List.Perm.refl _)]
    constructor
    · rintro ⟨E, g, h1, h2, h3, h4⟩
      have := hone _ (List.mem_append_left _ h) _ (List.mem_append_left _ h1) h2
      simp only at this
      subst this
      rw [← huniq E (.inl ⟨rfl, h1⟩) h3]
      exact h4
    · intro hb
      exact ⟨e, f, h, Sub.refl _, hw, hb⟩
  · rw [C40_decode_fen (List.Perm.refl _)]
    constructor
    · rintro ⟨E, g, h1, h2, h3, h4⟩
      have := hone _ (List.mem_append_right _ h) _ (List.mem_append_right _ h1) h2
      simp only at this
      subst this
      rw [← huniq E (.inr ⟨rfl, h1⟩) h3]
      exact h4
    · intro hb
      exact ⟨e, f, h, Sub.refl _, hw, hb⟩

set_option maxRecDepth 20000 in
theorem Means.reports {N : Native} {e f : Event} (h : Means N e f) {w : Event} (hw : e ⊑ w) (d : Bool) :
    Reports N (N.encode w d) f := by
  rcases h with ⟨rfl, h⟩ | ⟨rfl, h⟩
  · left
    have key : ∀ x ∈ kqMeans, ∃ j, j < 32 ∧ ∃ k, k < 32 ∧ x.1 = BitVec.twoPow 32 j ∧ x.2 = BitVec.twoPow 32 k ∧
        ((j == k && k < 7) || (k == 1 && j == 10) || (k == 5 && j == 11) || (k == 0 && j == 9)) = true := by decide
    obtain ⟨j, hj, k, hk, h1, h2, h3⟩ := key _ h
    simp only at h1 h2
    subst h1 h2
    rw [Inotify.sub_pow _ hj] at hw
    rw [Inotify.sub_pow _ hk, kq_encode_bit w d hk]
    simp only [Bool.or_eq_true, Bool.and_eq_true, beq_iff_eq, decide_eq_true_eq] at h3
    rcases h3 with ((⟨rfl, h3⟩ | ⟨rfl, rfl⟩) | ⟨rfl, rfl⟩) | ⟨rfl, rfl⟩
    · rw [hw]
      have : (j == 8 || j == 9 || j == 10 || j == 11) = false := by
        simp only [Bool.or_eq_false_iff, beq_eq_false_iff_ne]; omega
      rw [this]; rfl
    · rw [hw]; simp
    · rw [hw]; simp
    · rw [hw]; simp
  · by_cases hx : f ∈ fenExceptions
    · exact .inr ⟨rfl, hx⟩
    · left
      have key : ∀ x ∈ fenMeans, x.2 ∉ fenExceptions → ∃ j, j < 32 ∧ ∃ k, k < 32 ∧ x.1 = BitVec.twoPow 32 j ∧ x.2 = BitVec.twoPow 32 k ∧
          ((j == k && !(k == 8 || k == 10)) || (k == 1 && j == 10)) = true ∧
          (k == 11 || k == 9 || k == 4 || k == 5 || k == 6 || k == 29 || k == 30) = false := by decide
      obtain ⟨j, hj, k, hk, h1, h2, h3, h4⟩ := key _ h hx
      simp only at h1 h2
      subst h1 h2
      rw [Inotify.sub_pow _ hj] at hw
      rw [Inotify.sub_pow _ hk, fen_encode_bit w d hk, h4]
      rw [Bool.or_eq_true] at h3
      rcases h3 with h3 | h3
      · rw [Bool.and_eq_true, beq_iff_eq] at h3
        obtain ⟨rfl, h3⟩ := h3
        rw [hw, h3]; rfl
      · rw [Bool.and_eq_true, beq_iff_eq, beq_iff_eq] at h3
        obtain ⟨rfl, rfl⟩ := h3
        rw [hw]; simp

theorem Means.plain {N : Native} {e f : Event} (h : Means N e f) :
    e ≠ 0 ∧ e &&& N.P.internal = 0 ∧ PlainEvent N.P e ∧ N.P.Facts := by
  rcases h with ⟨rfl, h⟩ | ⟨rfl, h⟩
  · have key : ∀ x ∈ kqMeans, x.1 ≠ 0 ∧ x.1 &&& kqueue.P.internal = 0 := by decide
    exact ⟨(key _ h).1, (key _ h).2, nofun, Platform.kqueue_wf.facts⟩
  · have key : ∀ x ∈ fenMeans, x.1 ≠ 0 ∧ x.1 &&& fen.P.internal = 0 := by decide
    exact ⟨(key _ h).1, (key _ h).2, nofun, Platform.fen_wf.facts⟩

theorem Means.gone {N : Native} {e f : Event} (h : Means N e f) (hf : f = N.nRemove ∨ f = N.nRename) :
    e &^ N.P.write &^ N.nWrite = e ∧ f &&& (N.nRename ||| N.nRemove) ≠ 0 ∧ f &&& (N.nRemove ||| N.nRename) ≠ 0 := by
  rcases h with ⟨rfl, h⟩ | ⟨rfl, h⟩
  · have key : ∀ x ∈ kqMeans, (x.2 = kqueue.nRemove ∨ x.2 = kqueue.nRename) → x.1 &^ kqueue.P.write &^ kqueue.nWrite = x.1 ∧
        x.2 &&& (kqueue.nRename ||| kqueue.nRemove) ≠ 0 ∧ x.2 &&& (kqueue.nRemove ||| kqueue.nRename) ≠ 0 := by decide
    exact key _ h hf
  · have key : ∀ x ∈ fenMeans, (x.2 = fen.nRemove ∨ x.2 = fen.nRename) → x.1 &^ fen.P.write &^ fen.nWrite = x.1 ∧
        x.2 &&& (fen.nRename ||| fen.nRemove) ≠ 0 ∧ x.2 &&& (fen.nRemove ||| fen.nRename) ≠ 0 := by decide
    exact key _ h hf

/-- What is reported for one flag of an entry. -/
theorem Means.process {N : Native} {e f : Event} (h : Means N e f) {s : St} {x : Path} {w : W} (hw : s.lkp.get? x = some w)
    (he : e ⊑ w.all) (huniq : ∀ e', Means N e' f → e' ⊑ w.all → e' = e) (hf : w.isDir = false ∨ f = N.nRemove ∨ f = N.nRename)
    (E' : Env) : ∃ rest, (Trg.process N E' s x f).2 = ⟨x, e, w.isDir⟩ :: rest ∧ ∀ ev ∈ rest, ev.path ≠ x := by
  have hdec := h.decode he huniq
  have h0 := h.plain.1
  unfold Trg.process
  rw [hw]
  simp only [hdec]
  rw [if_neg (fun hh => h0 hh.1)]
  cases hd : w.isDir with
  | false =>
    simp only [Bool.false_eq_true, if_false]
    split <;> exact ⟨[], rfl, nofun⟩
  | true =>
    rcases hf with hf | hf
    · rw [hd] at hf; cases hf
    · obtain ⟨h1, h2, h3⟩ := h.gone hf
      simp only [if_true]
      rw [if_pos h3]
      unfold dir
      rw [if_pos h2]
      simp only [h1]
      refine ⟨_, rfl, ?_⟩
      intro ev hev
      split at hev
      · have := (moved_events N E' x w e _ _ ev hev).2.1
        unfold below at this
        rw [Bool.and_eq_true] at this
        have h4 := this.2
        intro h5
        rw [h5] at h4
        simp at h4
      · cases hev

theorem entry_of {N : Native} {E : Env} (hE : Steady E) {l : Log} {s : St} (hd : Drives N E l s) (hv : ValidLog N.P l)
    {x : Path} (hx : GoodPath x) (hlen : 2 ≤ x.length) {d : Bool} (hst : E.stat x = some d) (hsk : E.opn x ≠ .skip)
    (h0 : osOf l x ||| osOf l x.dropLast ≠ 0) :
    ∃ w, s.lkp.get? x = some w ∧ w.isDir = d ∧ w.all = osOf l x ||| osOf l x.dropLast ∧
      s.nat.get? x = some (N.encode w.all d) := by
  have hp : parent x = some x.dropLast := by
    unfold parent
    rw [if_neg, if_neg]
    · intro hh
      have := congrArg List.length hh
      simp at this
      omega
    · rintro rfl
      simp at hlen
  have hwant : want E.stat (skips E) (osOf l) x = some (d, osOf l x, osOf l x.dropLast) := by
    unfold want indirect
    rw [hst, hp]
    simp only
    rw [if_neg]
    rintro (hh | hh)
    · exact hsk (of_decide_eq_true hh)
    · exact h0 hh
  obtain ⟨h1, h2⟩ := (C66_any_partial hE (hd.runs hE hv) x).resolve_right (by rw [hwant]; exact fun h => nomatch h.1)
  rw [hwant] at h1 h2
  obtain ⟨w, k1, k2, k3, k4⟩ := look_some h1
  have hall : w.all = osOf l x ||| osOf l x.dropLast := by
    unfold W.all
    rw [k3, k4]
  refine ⟨w, k1, k2, hall, ?_⟩
  rw [h2, hall]
  rfl

theorem wants_os {N : Native} {e f : Event} (hm : Means N e f) {ops : List NonRec.Op} {t : Verif.St} (ht : Hist N.P true ops t)
    {c : Nat} (hops : ∀ op ∈ ops, NoFail c op) {q : Path} (hw : wants (regOf N.P ops) c e q = true) : e ⊑ osOf t.world.log q := by
  obtain ⟨_, hi, _, hP⟩ := hm.plain
  have href := NonRec.Hist.refines hP ht hops
  unfold wants at hw
  rcases hx : regOf N.P ops c q with _ | ⟨ev, fl⟩
  · rw [hx] at hw; cases hw
  · rw [hx] at hw
    have hs : e ⊑ ev := by simpa using hw
    intro i hb
    refine ((C11_os_mirror hP ht q).1 i).2 ⟨?_, .inl ⟨c, ev ||| (if fl then N.P.recursive else 0), ?_, ?_⟩⟩
    · have := bext.1 hi i
      rw [BitVec.getLsbD_and, hb] at this
      simpa using this
    · rw [href.ent, hx]; rfl
    · rw [BitVec.getLsbD_or, hs i hb]; rfl

/-- The common part of the two theorems below. -/
theorem reaches {N : Native} {E : Env} (hE : Steady E) {ops : List NonRec.Op} {t : Verif.St} (ht : Hist N.P true ops t)
    {c : Nat} (hops : ∀ op ∈ ops, NoFail c op) {s : St} (hd : Drives N E t.world.log s) {x : Path} (hx : GoodPath x)
    (hlen : 2 ≤ x.length) {d : Bool} (hst : E.stat x = some d) (hsk : E.opn x ≠ .skip) {e f : Event} (hm : Means N e f)
    (hos : e ⊑ osOf t.world.log x ||| osOf t.world.log x.dropLast) (hcop : 0 < copies (regOf N.P ops) c e x)
    (huniq : ∀ e', Means N e' f → e' ⊑ osOf t.world.log x ||| osOf t.world.log x.dropLast → e' = e)
    (hf : d = false ∨ f = N.nRemove ∨ f = N.nRename) :
    (∃ m, s.nat.get? x = some m ∧ Reports N m f) ∧
    (∀ E' : Env, ∃ rest, (process N E' s x f).2 = ⟨x, e, d⟩ :: rest ∧ ∀ ev ∈ rest, ev.path ≠ x) ∧
    ∀ ei : EventInfo, ei.event = e → ei.path = x →
      (NonRec.sends N.P t.root ei).count (.user c) = copies (regOf N.P ops) c e x ∧
      1 ≤ (NonRec.sends N.P t.root ei).count (.user c) := by
  obtain ⟨h0, hi, hpl, hP⟩ := hm.plain
  obtain ⟨w, k1, k2, k3, k4⟩ := entry_of hE hd (C12_contract hP ht).1 hx hlen hst hsk (by
    intro hz; rw [hz] at hos; exact h0 (sub_zero hos))
  refine ⟨⟨_, k4, hm.reports (by rw [k3]; exact hos) d⟩, ?_, ?_⟩
  · subst k2
    exact hm.process k1 (by rw [k3]; exact hos) (fun e' h1 h2 => huniq e' h1 (by rw [← k3]; exact h2)) hf
  · intro ei he hp
    have hc := (C01_delivery_exact hP ht (ei := ei) (by rw [hp]; exact hlen) (by rw [he]; exact hi) (by rw [he]; exact hpl)).1 c hops
    rw [he, hp] at hc
    exact ⟨hc, by rw [hc]; exact hcop⟩

/-- **C67, from the kernel to the channel on kqueue and FEN.**  In an unchanging set of files without errors, after any history of the
tree in which no non-recursive Watch with `c` failed, with any notifications that are not about a removal in between.  Channel `c` asked for `e` on the path `x` or on
its directory, `f` is a native flag that means `e`, and nobody's watch of the path or its directory includes another event that `f`
means.  Then the kernel is registered on `x` such that it reports `f`; when it does, whatever has happened to the files, the watcher
sends `e` for `x` exactly once, and the tree sends it to `c` as often as its registrations ask for (at least once).  If `x` is a
directory, `f` has to be a removal or renaming (for changes of its contents see `C67_create_partial`).  Missing: see `C67_refuted`,
`C42_native_refuted` and `C66_refuted`. -/
theorem C67_kqueue_partial {N : Native} {E : Env} (hE : Steady E) {ops : List NonRec.Op} {t : Verif.St} (ht : Hist N.P true ops t)
    {c : Nat} (hops : ∀ op ∈ ops, NoFail c op) {s : St} (hd : Drives N E t.world.log s) {x : Path} (hx : GoodPath x)
    (hlen : 2 ≤ x.length) {d : Bool} (hst : E.stat x = some d) (hsk : E.opn x ≠ .skip) {e f : Event} (hm : Means N e f)
    (hw : wants (regOf N.P ops) c e x = true ∨ wants (regOf N.P ops) c e x.dropLast = true)
    (huniq : ∀ e', Means N e' f → e' ⊑ osOf t.world.log x ||| osOf t.world.log x.dropLast → e' = e)
    (hf : d = false ∨ f = N.nRemove ∨ f = N.nRename) :
    (∃ m, s.nat.get? x = some m ∧ Reports N m f) ∧
    (∀ E' : Env, ∃ rest, (process N E' s x f).2 = ⟨x, e, d⟩ :: rest ∧ ∀ ev ∈ rest, ev.path ≠ x) ∧
    ∀ ei : EventInfo, ei.event = e → ei.path = x →
      (NonRec.sends N.P t.root ei).count (.user c) = copies (regOf N.P ops) c e x ∧
      1 ≤ (NonRec.sends N.P t.root ei).count (.user c) := by
  refine reaches hE ht hops hd hx hlen hst hsk hm ?_ ?_ huniq hf
  · rcases hw with hw | hw
    · exact (wants_os hm ht hops hw).trans (sub_or_left _ _)
    · exact (wants_os hm ht hops hw).trans (sub_or_right _ _)
  · unfold copies
    rcases hw with hw | hw <;> rw [hw] <;> simp only [if_true] <;> omega

/-- What is asked for recursively is registered recursively. -/
theorem asked_reg (P : Platform) (c : Nat) (q : Path) : ∀ (ops : List NonRec.Op) (G : Nat → Path → Event) (r : Spec.Reg),
    (∀ c q, G c q ≠ 0 → ∃ ev, r c q = some (ev, true) ∧ G c q ⊑ ev) →
    ops.foldl (NonRec.askedStep P) G c q ≠ 0 →
    ∃ ev, ops.foldl (NonRec.regStep P) r c q = some (ev, true) ∧ ops.foldl (NonRec.askedStep P) G c q ⊑ ev
  | [], G, r, h, h0 => h c q h0
  | op :: ops, G, r, h, h0 => by
    refine asked_reg P c q ops _ _ ?_ h0
    intro c q hne
    cases op with
    | watch p isrec c' e res =>
      cases res
      · cases isrec <;> exact h c q hne
      · simp only [NonRec.regStep, if_true, Spec.Reg.watch]
        cases isrec
        · simp only [NonRec.askedStep] at hne ⊢
          obtain ⟨ev, h1, h2⟩ := h c q hne
          by_cases hc : c = c' ∧ q = p
          · obtain ⟨rfl, rfl⟩ := hc
            simp only [h1, and_self, if_true, Bool.true_or]
            exact ⟨_, rfl, h2.trans (sub_or_left _ _)⟩
          · rw [if_neg hc]
            exact ⟨ev, h1, h2⟩
        · simp only [NonRec.askedStep] at hne ⊢
          by_cases hc : c = c' ∧ q = p
          · obtain ⟨rfl, rfl⟩ := hc
            simp only [and_self, if_true] at hne ⊢
            by_cases hg : G c q = 0
            · rw [hg]
              cases hr : r c q with
              | none => exact ⟨_, rfl, by simp [Sub.refl]⟩
              | some x =>
                obtain ⟨ev, f⟩ := x
                simp only [Bool.or_true]
                exact ⟨_, rfl, by rw [show (0 : Event) ||| e = e by simp]; exact sub_or_right _ _⟩
            · obtain ⟨ev, h1, h2⟩ := h c q hg
              simp only [h1, Bool.true_or]
              refine ⟨_, rfl, ?_⟩
              intro i hi
              rw [BitVec.getLsbD_or, Bool.or_eq_true] at hi ⊢
              exact hi.imp (h2 i) id
          · rw [if_neg hc] at hne ⊢
            rw [if_neg hc]
            exact h c q hne
    | stop c' =>
      simp only [NonRec.askedStep, NonRec.regStep, Spec.Reg.stop] at hne ⊢
      split at hne
      · exact absurd rfl hne
      · rename_i hc
        simp only [hc, if_false]
        exact h c q hne
    | internal ei =>
      simp only [NonRec.askedStep, NonRec.regStep] at hne ⊢
      split at hne
      · exact absurd rfl hne
      · rename_i hc
        rw [if_neg hc]
        obtain ⟨ev, h1, h2⟩ := h c q hne
        refine ⟨ev, ?_, h2⟩
        split
        · rename_i he
          unfold Spec.Reg.remove
          rw [if_neg (fun hp => hc ⟨he, hp⟩)]
          exact h1
        · exact h1
    | shuffle => exact h c q hne

/-- **C67, below a recursive watch.**  The same if channel `c` asked for `e` recursively on a directory `q` at or above the directory of
`x`, in a history as in C44 (listings do not fail; `D` is the set of directories). -/
theorem C67_recursive_partial {N : Native} {E : Env} (hE : Steady E) {ops : List NonRec.Op} {t : Verif.St} {D : Path → Prop}
    (ht : DHist N.P ops t D) {c : Nat} (hops : ∀ op ∈ ops, NoFail c op) {s : St} (hd : Drives N E t.world.log s) {q x : Path}
    (hx : GoodPath x) (hlen : 2 ≤ x.length) {d : Bool} (hst : E.stat x = some d) (hsk : E.opn x ≠ .skip) {e f : Event}
    (hm : Means N e f) (hw : e ⊑ asked N.P ops c q) (hq : q <+: x.dropLast) (hD : D x.dropLast)
    (huniq : ∀ e', Means N e' f → e' ⊑ osOf t.world.log x ||| osOf t.world.log x.dropLast → e' = e)
    (hf : d = false ∨ f = N.nRemove ∨ f = N.nRename) :
    (∃ m, s.nat.get? x = some m ∧ Reports N m f) ∧
    (∀ E' : Env, ∃ rest, (process N E' s x f).2 = ⟨x, e, d⟩ :: rest ∧ ∀ ev ∈ rest, ev.path ≠ x) ∧
    ∀ ei : EventInfo, ei.event = e → ei.path = x →
      (NonRec.sends N.P t.root ei).count (.user c) = copies (regOf N.P ops) c e x ∧
      1 ≤ (NonRec.sends N.P t.root ei).count (.user c) := by
  obtain ⟨h0, hi, hpl, hP⟩ := hm.plain
  have hne : asked N.P ops c q ≠ 0 := by
    intro hz; rw [hz] at hw; exact h0 (sub_zero hw)
  obtain ⟨r, hr⟩ := hq
  refine reaches hE ht.hist hops hd hx hlen hst hsk hm ?_ ?_ huniq hf
  · have := C44_coverage hP ht hne (r := r) (by rw [hr]; exact hD)
    rw [hr] at this
    exact ((hw.trans (sub_or_left _ _)).trans this).trans (sub_or_right _ _)
  · obtain ⟨ev, h1, h2⟩ := asked_reg N.P c q ops (fun _ _ => 0) Spec.Reg.empty (fun _ _ h => absurd rfl h) hne
    exact Fsevents.copies_pos (r := regOf N.P ops) h1 (hw.trans h2) hx.1 (.inr (.inr ⟨rfl, ⟨r, hr⟩⟩))

/-- **C67, new entries.**  In such a state channel `c` asked for Create on the directory `p`.  The directory now has other contents `l`.
Then the kernel is registered on `p` such that it reports a change of the contents; when it does, the watcher sends one Create for each
entry that was not there before, in the order of the directory, and the tree sends each to `c` (at least once). -/
theorem C67_create_partial {N : Native} (hN : N = kqueue ∨ N = fen) {E : Env} (hE : Steady E) {ops : List NonRec.Op} {t : Verif.St}
    (ht : Hist N.P true ops t) {c : Nat} (hops : ∀ op ∈ ops, NoFail c op) {s : St} (hd : Drives N E t.world.log s) {p : Path}
    (hp : GoodPath p) (hst : E.stat p = some true) (hsk : E.opn p ≠ .skip)
    (hw : wants (regOf N.P ops) c N.P.create p = true) {E' : Env} {l : List (Comp × Bool)} (hE' : Scannable E' p l)
    (hnew : ∀ n d, (n, d) ∈ l → E.opn (p ++ [n]) ≠ .skip) :
    (∃ m, s.nat.get? p = some m ∧ N.nWrite ⊑ m) ∧
    (process N E' s p N.nWrite).2 =
      (l.filter fun y => (E.stat (p ++ [y.1])).isNone).map (fun y => (⟨p ++ [y.1], N.P.create, y.2⟩ : Ev)) ∧
    ∀ ei : EventInfo, ∀ n ∈ l, ei.event = N.P.create → ei.path = p ++ [n.1] →
      (NonRec.sends N.P t.root ei).count (.user c) = copies (regOf N.P ops) c N.P.create (p ++ [n.1]) ∧
      1 ≤ (NonRec.sends N.P t.root ei).count (.user c) := by
  have hP : N.P.Facts := by rcases hN with rfl | rfl <;> first | exact Platform.kqueue_wf.facts | exact Platform.fen_wf.facts
  have hci : N.P.create &&& N.P.internal = 0 := by rcases hN with rfl | rfl <;> decide
  have hpl : PlainEvent N.P N.P.create := by rcases hN with rfl | rfl <;> exact nofun
  have hone : N.P.create = BitVec.twoPow 32 8 := by rcases hN with rfl | rfl <;> decide
  have hjoin : ∀ n, join p n = p ++ [n] := by
    intro n
    unfold join
    rw [if_neg]
    rintro rfl
    exact hp.2 (by simp)
  have hos : N.P.create ⊑ osOf t.world.log p := by
    have href := NonRec.Hist.refines hP ht hops
    unfold wants at hw
    rcases hx : regOf N.P ops c p with _ | ⟨ev, fl⟩
    · rw [hx] at hw; cases hw
    · rw [hx] at hw
      have hs : N.P.create ⊑ ev := by simpa using hw
      intro i hb
      refine ((C11_os_mirror hP ht p).1 i).2 ⟨?_, .inl ⟨c, ev ||| (if fl then N.P.recursive else 0), ?_, ?_⟩⟩
      · have := bext.1 hci i
        rw [BitVec.getLsbD_and, hb] at this
        simpa using this
      · rw [href.ent, hx]; rfl
      · rw [BitVec.getLsbD_or, hs i hb]; rfl
  have hbit : BitVec.getLsbD (osOf t.world.log p) 8 = true := by
    rw [hone] at hos
    exact (Inotify.sub_pow _ (by decide)).1 hos
  have hp0 : osOf t.world.log p ≠ 0 := ne_zero_iff.2 ⟨8, hbit⟩
  have hbook := fun q => C66_any_partial hE (hd.runs hE (C12_contract hP ht).1) q
  have hwp : want E.stat (skips E) (osOf t.world.log) p = some (true, osOf t.world.log p, indirect (osOf t.world.log) p) := by
    unfold want
    rw [hst]
    simp only
    rw [if_neg]
    rintro (hh | hh)
    · exact hsk (of_decide_eq_true hh)
    · have := bext.1 hh 8
      rw [BitVec.getLsbD_or, hbit] at this
      simp at this
  obtain ⟨b1, b2⟩ := (hbook p).resolve_right (by rw [hwp]; exact fun h => nomatch h.1)
  rw [hwp] at b1 b2
  obtain ⟨w, k1, k2, k3, k4⟩ := look_some b1
  simp only at k2 k3 k4
  refine ⟨⟨_, b2, ?_⟩, ?_, ?_⟩
  · have hall : BitVec.getLsbD (osOf t.world.log p ||| indirect (osOf t.world.log) p) 8 = true := by
      rw [BitVec.getLsbD_or, hbit]; rfl
    simp only
    rcases hN with rfl | rfl
    · rw [show kqueue.nWrite = BitVec.twoPow 32 1 by decide, Inotify.sub_pow _ (by decide), kq_encode_bit _ _ (by decide), hall]
      simp
    · rw [show fen.nWrite = BitVec.twoPow 32 1 by decide, Inotify.sub_pow _ (by decide), fen_encode_bit _ _ (by decide), hall]
      simp
  · rw [(C53_scan N E' s p N.nWrite l k1 k2 (by
        rw [k3, hone]; exact (Inotify.and_pow _ (by decide)).2 hbit) (by rcases hN with rfl | rfl <;> decide)
        (by rcases hN with rfl | rfl <;> decide) hE').1]
    simp only [hjoin]
    congr 1
    apply List.filter_congr
    intro y hy
    have hyn := hE'.names y hy
    have hpar : indirect (osOf t.world.log) (p ++ [y.1]) = osOf t.world.log p := by
      rw [← hjoin]
      unfold indirect
      rw [parent_join hp.1 hyn]
    cases hs : E.stat (p ++ [y.1]) with
    | none =>
      have hl := ((hbook (p ++ [y.1])).resolve_right (by rw [hs]; exact fun ⟨_, _, h, _⟩ => nomatch h)).1
      unfold want at hl
      rw [hs] at hl
      rw [look_none hl]
      rfl
    | some d' =>
      have : want E.stat (skips E) (osOf t.world.log) (p ++ [y.1]) = some (d', osOf t.world.log (p ++ [y.1]), osOf t.world.log p) := by
        unfold want
        rw [hs, hpar]
        simp only
        rw [if_neg]
        rintro (hh | hh)
        · exact hnew y.1 y.2 hy (of_decide_eq_true hh)
        · have := bext.1 hh 8
          rw [BitVec.getLsbD_or, hbit] at this
          simp at this
      have hl := ((hbook (p ++ [y.1])).resolve_right (by rw [this]; exact fun h => nomatch h.1)).1
      rw [this] at hl
      obtain ⟨w', h1, -⟩ := look_some hl
      rw [h1]
      rfl
  · intro ei n _ he hpa
    have hlen : 2 ≤ (p ++ [n.1]).length := by
      have : p.length ≠ 0 := fun h => hp.1 (List.length_eq_zero_iff.1 h)
      simp; omega
    have hc := (C01_delivery_exact hP ht (ei := ei) (by rw [hpa]; exact hlen) (by rw [he]; exact hci) (by rw [he]; exact hpl)).1 c hops
    rw [he, hpa] at hc
    refine ⟨hc, ?_⟩
    rw [hc]
    unfold copies
    rw [List.dropLast_concat, hw]
    simp only [if_true]
    omega

namespace Ex
open NonRec (DStep Steps Step UserEvents watchOp)
open Platform (kqueue)

abbrev K : Platform := Platform.kqueue
abbrev kd : Comp := ['d']
abbrev ke : Comp := ['e']
abbrev kf : Comp := ['f']

/-- `/d` with the directory `e` with the file `f`. -/
abbrev list7 : DirTree := .dir (.cons ke true (.dir (.cons kf false .err .nil)) .nil)

/-- Channel 1 watches `/d/...` for Write, channel 2 watches `/d/e` for Create and Remove. -/
def t7 : Verif.St := (watchOp K .ok (.dir .nil) (watchOp K .ok list7 NonRec.init [kd] true 1 K.write).1 [kd, ke] false 2
  (K.create ||| K.remove)).1
def ops7 : List NonRec.Op := [.watch [kd] true 1 K.write true, .watch [kd, ke] false 2 (K.create ||| K.remove) true]
def D7 : Path → Prop := fun p => p = [] ∨ p = [kd] ∨ p = [kd, ke]

theorem dhist7 : DHist K ops7 t7 D7 := by
  have h0 : DHist K [] NonRec.init D7 := .nil (.inl rfl) (by
    intro a b h
    have hp : a <+: a ++ b := List.prefix_append _ _
    unfold D7 at *
    rcases h with h | h | h <;> rw [h] at hp
    · left; exact List.prefix_nil.1 hp
    · rw [List.prefix_cons_iff] at hp
      rcases hp with h | ⟨t, rfl, ht⟩
      · exact .inl h
      · right; left; rw [List.prefix_nil.1 ht]
    · rw [List.prefix_cons_iff] at hp
      rcases hp with h | ⟨t, rfl, ht⟩
      · exact .inl h
      · rw [List.prefix_cons_iff] at ht
        rcases ht with rfl | ⟨t, rfl, ht⟩
        · exact .inr (.inl rfl)
        · right; right; rw [List.prefix_nil.1 ht])
  have s1 := DStep.watchRec (P := K) (s := NonRec.init) (D := D7) (p := [kd]) (c := 1) (e := K.write) (dt := list7)
      (by simp [GoodPath]) (by unfold UserEvents; decide) (by simp [DirTree.Named, Entries.Named])
      (by simp [DirTree.NoErr, Entries.NoErr]) (.inr (.inl rfl)) (by
        intro r
        have : list7.dirs = [[], [ke]] := by decide
        rw [this]
        unfold D7
        simp)
  have s2 := DStep.watch (P := K) (s := (watchOp K .ok list7 NonRec.init [kd] true 1 K.write).1) (D := D7) (p := [kd, ke]) (c := 2)
    (e := K.create ||| K.remove) (O := .ok) (dt := .dir .nil) (by simp [GoodPath]) (by unfold UserEvents; decide)
    (by simp [DirTree.Named, Entries.Named]) (.inr (.inr rfl))
  exact (h0.snoc s1).snoc s2

theorem log7 : t7.world.log = [(.rewatch [kd, ke] (K.create ||| K.write) (K.create ||| K.remove ||| K.write), true),
    (.watch [kd, ke] (K.create ||| K.write), true), (.watch [kd] (K.create ||| K.write), true)] := by decide

theorem steady7 : Steady E7 := by
  have hst : ∀ p d, E7.stat p = some d → (p = [[]] ∧ d = true) ∨ (p = [kd] ∧ d = true) ∨ (p = [kd, ke] ∧ d = true) ∨
      (p = [kd, ke, kf] ∧ d = false) := by
    intro p d h
    simp only [E7] at h
    split at h
    · rename_i hp
      cases h
      rcases hp with hp | hp | hp
      · exact .inl ⟨hp, rfl⟩
      · exact .inr (.inl ⟨hp, rfl⟩)
      · exact .inr (.inr (.inl ⟨hp, rfl⟩))
    · split at h
      · rename_i hp
        cases h
        exact .inr (.inr (.inr ⟨hp, rfl⟩))
      · cases h
  have hone : ∀ (p : Path) (n : Comp) (b : Bool), n ≠ [] → E7.list p = .ok [(n, b)] → E7.stat (join p n) = some b →
      (∀ c d, c ≠ [] → E7.stat (join p c) = some d → c = n ∧ d = b) →
      ∃ l, E7.list p = .ok l ∧ (l.map (·.1)).Nodup ∧ ∀ c d, (c, d) ∈ l ↔ c ≠ [] ∧ E7.stat (join p c) = some d := by
    intro p n b hn h1 h2 h3
    refine ⟨_, h1, by simp, fun c d => ⟨?_, ?_⟩⟩
    · intro h
      cases List.mem_singleton.1 h
      exact ⟨hn, h2⟩
    · rintro ⟨hc, hx⟩
      obtain ⟨rfl, rfl⟩ := h3 c d hc hx
      simp
  constructor
  · intro p hp
    obtain ⟨d, hd⟩ := Option.ne_none_iff_exists'.1 hp
    rcases hst p d hd with ⟨rfl, _⟩ | ⟨rfl, _⟩ | ⟨rfl, _⟩ | ⟨rfl, _⟩
    · exact .inl rfl
    · exact .inr (by decide)
    · exact .inr (by decide)
    · exact .inr (by decide)
  · intro p hp
    rcases hst p true hp with ⟨rfl, _⟩ | ⟨rfl, _⟩ | ⟨rfl, _⟩ | ⟨_, h⟩
    · refine hone _ kd true (by decide) rfl rfl ?_
      intro c d hc hx
      rcases hst _ d hx with ⟨h, rfl⟩ | ⟨h, rfl⟩ | ⟨h, rfl⟩ | ⟨h, rfl⟩ <;> simp [join] at h
      · exact absurd h hc
      · exact ⟨h, rfl⟩
    · refine hone _ ke true (by decide) rfl rfl ?_
      intro c d hc hx
      rcases hst _ d hx with ⟨h, rfl⟩ | ⟨h, rfl⟩ | ⟨h, rfl⟩ | ⟨h, rfl⟩ <;> simp [join] at h
      exact ⟨h, rfl⟩
    · refine hone _ kf false (by decide) rfl rfl ?_
      intro c d hc hx
      rcases hst _ d hx with ⟨h, rfl⟩ | ⟨h, rfl⟩ | ⟨h, rfl⟩ | ⟨h, rfl⟩ <;> simp [join] at h
      exact ⟨h, rfl⟩
    · cases h
  · intro p c hp hc h
    obtain ⟨d, hd⟩ := Option.ne_none_iff_exists'.1 h
    rcases hst _ d hd with ⟨h, rfl⟩ | ⟨h, rfl⟩ | ⟨h, rfl⟩ | ⟨h, rfl⟩
    · unfold join at h
      split at h
      · simp at h; exact absurd h hc
      · rcases p with _ | ⟨a, _ | ⟨b, t⟩⟩ <;> simp at h hp
    · unfold join at h
      split at h
      · rename_i hp; subst hp; rfl
      · rcases p with _ | ⟨a, _ | ⟨b, t⟩⟩ <;> simp at h hp
    · unfold join at h
      split at h
      · simp at h
      · rcases p with _ | ⟨a, _ | ⟨b, t⟩⟩ <;> simp at h hp
        obtain ⟨rfl, _⟩ := h; rfl
    · unfold join at h
      split at h
      · simp at h
      · rcases p with _ | ⟨a, _ | ⟨b, _ | ⟨b', t⟩⟩⟩ <;> simp at h hp
        obtain ⟨rfl, rfl, _⟩ := h; rfl
  · intro p _; exact .inl rfl
  · intro p; rfl
  · intro p; rfl

def k1 : St := (Watch Trg.kqueue E7 {} [kd] (K.create ||| K.write)).1
def k2 : St := (Watch Trg.kqueue E7 k1 [kd, ke] (K.create ||| K.write)).1
def k3 : St := (Rewatch Trg.kqueue E7 k2 [kd, ke] (K.create ||| K.remove ||| K.write)).1
/-- Something has changed in `/d/e` in between. -/
def k4 : St := (process Trg.kqueue E7 (retrieved Trg.kqueue k3 [kd, ke]) [kd, ke] 0x2).1

theorem drives7 : Drives Trg.kqueue E7 t7.world.log k4 := by
  rw [log7]
  refine .note [kd, ke] 0x2 ?_ (by decide)
  have h1 := Drives.call (N := Trg.kqueue) (E := E7) .init (.watch [kd] (K.create ||| K.write) (by decide))
  have h2 := Drives.call h1 (.watch [kd, ke] (K.create ||| K.write) (by decide))
  exact Drives.call h2 (.rewatch [kd, ke] (K.create ||| K.write) (K.create ||| K.remove ||| K.write) (by decide))

/-- The theorem applies: the file is written, for channel 1. -/
example : ∃ m, k4.nat.get? [kd, ke, kf] = some m ∧ Reports Trg.kqueue m 0x2 :=
  (C67_recursive_partial (N := Trg.kqueue) steady7 dhist7 (by simp [ops7, NoFail]) drives7 (c := 1) (q := [kd])
    (x := [kd, ke, kf]) (by simp [GoodPath]) (by decide) (d := false) rfl (by decide) (e := 0x400) (f := 0x2) (.inl ⟨rfl, by decide⟩)
    (by decide) (by decide) (.inr (.inr rfl)) (by
      intro e' he hs
      rcases he with ⟨_, he⟩ | ⟨h, _⟩
      · have : ∀ x ∈ kqMeans, x.2 = 0x2 → x.1 = 0x400 ∨ x.1 = 0x2 := by decide
        rcases this _ he rfl with h | h
        · exact h
        · exfalso
          simp only at h
          subst h
          have := hs 1 (by decide)
          rw [log7] at this
          revert this
          decide
      · cases congrArg (fun N => N.nRename) h) (.inl rfl)).1

/-- The file is removed, for channel 2, which watches the directory. -/
example : ∃ rest, (process Trg.kqueue E7 k4 [kd, ke, kf] 0x1).2 = ⟨[kd, ke, kf], 0x200, false⟩ :: rest ∧
    ∀ ev ∈ rest, ev.path ≠ [kd, ke, kf] :=
  (C67_kqueue_partial (N := Trg.kqueue) steady7 dhist7.hist (by simp [ops7, NoFail]) drives7 (c := 2)
    (x := [kd, ke, kf]) (by simp [GoodPath]) (by decide) (d := false) rfl (by decide) (e := 0x200) (f := 0x1) (.inl ⟨rfl, by decide⟩)
    (.inr (by decide)) (by
      intro e' he hs
      rcases he with ⟨_, he⟩ | ⟨h, _⟩
      · have : ∀ x ∈ kqMeans, x.2 = 0x1 → x.1 = 0x200 ∨ x.1 = 0x1 := by decide
        rcases this _ he rfl with h | h
        · exact h
        · exfalso
          simp only at h
          subst h
          have := hs 0 (by decide)
          rw [log7] at this
          revert this
          decide
      · cases congrArg (fun N => N.nRename) h) (.inl rfl)).2.1 E7

/-- `/d/e` with another file `g` and without `f`. -/
def E8 : Env := { E7 with list := fun _ => .ok [(['g'], false)] }

/-- A file is created, for channel 2. -/
example : (process Trg.kqueue E8 k4 [kd, ke] 0x2).2 = [⟨[kd, ke, ['g']], 0x100, false⟩] := by
  have h : Scannable E8 [kd, ke] [(['g'], false)] := ⟨rfl, rfl, by simp, by simp, by simp [E8, E7], by simp [E8, E7]⟩
  exact (C67_create_partial (N := Trg.kqueue) (.inl rfl) steady7 dhist7.hist (by simp [ops7, NoFail]) drives7 (c := 2)
    (p := [kd, ke]) (by simp [GoodPath]) rfl (by decide) (by decide) h (by simp [E7])).2.1

/-- Channel 1 watches `/d/e` for NoteAttrib. -/
def t9 : Verif.St := (watchOp K .ok (.dir .nil) NonRec.init [kd, ke] false 1 0x8).1
def ops9 : List NonRec.Op := [.watch [kd, ke] false 1 0x8 true]

theorem hist9 : Hist K true ops9 t9 :=
  NonRec.Steps.nil.snoc (NonRec.Step.watch (O := .ok) (by simp [GoodPath]) (by unfold UserEvents; decide)
    (by simp [DirTree.Named, Entries.Named]) (fun _ h => by cases h))

end Ex

/-- **C67 is false of the code for raw events of a directory itself**: channel 1 watches the directory `/d/e` for NoteAttrib, and its
attributes are changed.  kqueue is asked for and reports NOTE_ATTRIB, but the watcher reports nothing. -/
theorem C67_refuted : ∃ (ops : List NonRec.Op) (t : Verif.St) (s : St), Hist kqueue.P true ops t ∧ Drives kqueue Ex.E7 t.world.log s ∧
    wants (regOf kqueue.P ops) 1 0x8 [Ex.kd, Ex.ke] = true ∧ (0x8, 0x8) ∈ kqMeans ∧
    s.nat.get? [Ex.kd, Ex.ke] = some 0x8 ∧ (process kqueue Ex.E7 s [Ex.kd, Ex.ke] 0x8).2 = [] := by
  refine ⟨Ex.ops9, Ex.t9, (Watch kqueue Ex.E7 {} [Ex.kd, Ex.ke] 0x8).1, Ex.hist9, ?_, by decide, by decide, by decide, by decide⟩
  have hl : Ex.t9.world.log = [(.watch [Ex.kd, Ex.ke] 0x8, true)] := by decide
  rw [hl]
  exact Drives.call (N := kqueue) (E := Ex.E7) .init (.watch [Ex.kd, Ex.ke] 0x8 (by decide))

end Trg
end Verif
