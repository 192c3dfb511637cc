/-
C114 on the BSDs and Solaris: nothing is signalled that was not asked for, and nothing without a change of a file that is a reason for it.
-/
import Verif.PropsSound
import Verif.PropsBsd
import Verif.PropsFen
import Verif.PropsTrigger7

namespace Verif
namespace Trg
open Spec.Trg (kqMeans fenMeans)

/-- The flag came up for the file. -/
def Seen (chgs : List (Path × Event)) (p : Path) (f : Event) : Prop := ∃ fl, (p, fl) ∈ chgs ∧ fl &&& f ≠ 0

/-- There is a reason for the event: for its path, or for a directory above it that was renamed (flag `rn`), flags came up that all its bits are names of; or for
its directory NOTE_WRITE or FILE_MODIFIED came up, and the event is Create or Remove. -/
def Reported (means : List (Event × Event)) (rn : Event) (chgs : List (Path × Event)) (ei : EventInfo) : Prop :=
  ∃ p, ((ei.path = p ∨ p <+: ei.path ∧ Seen chgs p rn) ∧ ∀ b, One b → b ⊑ ei.event → ∃ f, (b, f) ∈ means ∧ Seen chgs p f) ∨
    (Seen chgs p 0x2 ∧ (∃ c, ei.path = join p c) ∧ (ei.event = 0x100 ∨ ei.event = 0x200))

/-- All the flags came up. -/
def Src (chgs : List (Path × Event)) (p : Path) (g : Event) : Prop := ∀ f, g &&& f ≠ 0 → Seen chgs p f

theorem Seen.mono {chgs l : List (Path × Event)} {p : Path} {f : Event} (h : Seen chgs p f) : Seen (chgs ++ l) p f :=
  h.imp fun _ h => ⟨List.mem_append_left _ h.1, h.2⟩

theorem Src.mono {chgs l : List (Path × Event)} {p : Path} {f : Event} (h : Src chgs p f) : Src (chgs ++ l) p f := fun g hg => (h g hg).mono

theorem Src.zero (chgs : List (Path × Event)) (p : Path) : Src chgs p 0 := fun f hf => absurd (by simp) hf

theorem Src.sub {chgs : List (Path × Event)} {p : Path} {f g : Event} (h : Src chgs p f) (hs : g ⊑ f) : Src chgs p g :=
  fun x hx => h x fun h0 => hx (by clear hx h; ebits)

theorem Src.or {chgs : List (Path × Event)} {p : Path} {f g : Event} (h : Src chgs p f) (h' : Src chgs p g) : Src chgs p (f ||| g) := by
  intro x hx
  by_cases h1 : f &&& x = 0
  · exact h' x fun h2 => hx (by clear hx h h'; ebits)
  · exact h x h1

theorem Src.this (chgs : List (Path × Event)) (p : Path) (fl : Event) : Src (chgs ++ [(p, fl)]) p fl := fun f hf => ⟨fl, by simp, hf⟩

theorem and_sub_l (a b : Event) : a &&& b ⊑ a := by ebits
theorem and_sub_r (a b : Event) : a &&& b ⊑ b := by ebits
theorem clear_sub (a b : Event) : a &^ b ⊑ a := by ebits

theorem Reported.mono {means : List (Event × Event)} {rn : Event} {chgs l : List (Path × Event)} {ei : EventInfo} (h : Reported means rn chgs ei) :
    Reported means rn (chgs ++ l) ei := by
  obtain ⟨p, h | h⟩ := h
  · exact ⟨p, .inl ⟨h.1.imp id fun h => ⟨h.1, h.2.mono⟩, fun b hb h1 => (h.2 b hb h1).imp fun _ h => ⟨h.1, h.2.mono⟩⟩⟩
  · exact ⟨p, .inr ⟨h.1.mono, h.2⟩⟩

theorem decode_src {N : Native} {means : List (Event × Event)} (hN : N = kqueue ∧ means = kqMeans ∨ N = fen ∧ means = fenMeans) {chgs : List (Path × Event)} {p : Path}
    {ge w b e : Event} (h : Src chgs p ge) (hb : One b) (he : e ⊑ decode N.nat2not ge w) (hs : b ⊑ e) : ∃ f, (b, f) ∈ means ∧ Seen chgs p f := by
  obtain ⟨k, hk, rfl⟩ := hb
  have h0 : (decode N.nat2not ge w).getLsbD k = true := he k (hs k (by simp [hk]))
  have key : ∃ E f, (E, f) ∈ means ∧ f ⊑ ge ∧ E ⊑ w ∧ E.getLsbD k = true ∧ One E ∧ One f := by
    rcases hN with ⟨rfl, rfl⟩ | ⟨rfl, rfl⟩
    · obtain ⟨E, f, h1, h2, h3, h4⟩ := (C40_decode_kqueue (List.Perm.refl _) ge w k).1 h0
      have k1 : ∀ x ∈ kqMeans, isOne x.1 = true ∧ isOne x.2 = true := by decide
      exact ⟨E, f, h1, h2, h3, h4, one_of (k1 _ h1).1, one_of (k1 _ h1).2⟩
    · obtain ⟨E, f, h1, h2, h3, h4⟩ := (C40_decode_fen (List.Perm.refl _) ge w k).1 h0
      have k1 : ∀ x ∈ fenMeans, isOne x.1 = true ∧ isOne x.2 = true := by decide
      exact ⟨E, f, h1, h2, h3, h4, one_of (k1 _ h1).1, one_of (k1 _ h1).2⟩
  obtain ⟨E, f, h1, h2, _, h4, ⟨j, hj, rfl⟩, h6⟩ := key
  have : j = k := by simpa [hj] using h4
  subst this
  exact ⟨f, h1, h f ((one_and h6 ge).2 h2)⟩

/-- What `process` reports has a reason if the flags have one. -/
theorem process_reported {N : Native} {means : List (Event × Event)} (hN : N = kqueue ∧ means = kqMeans ∨ N = fen ∧ means = fenMeans)
    {chgs : List (Path × Event)} {E : Env} {s : St} {p : Path} {ge : Event} (h : Src chgs p ge) {ev : Ev} (hev : ev ∈ (process N E s p ge).2) {ei : EventInfo}
    (h1 : ei.path = ev.path) (h2 : ei.event = ev.event) : Reported means N.nRename chgs ei := by
  cases hw : s.lkp.get? p with
  | none => unfold process at hev; rw [hw] at hev; cases hev
  | some w =>
    refine ⟨p, ?_⟩
    rw [h1, h2]
    rcases process_events N E s p ge hw ev hev with ⟨_, h3, h4, _⟩ | ⟨_, _, h3, h4⟩ | ⟨_, h3, h4, h5, _⟩ | ⟨_, _, h3, h4, h5⟩
    · exact .inl ⟨.inl h3, fun b hb hs => decode_src hN h hb (e := ev.event) (by rw [h4]; exact Event.Sub.refl _) hs⟩
    · exact .inl ⟨.inl h3, fun b hb hs => decode_src hN h hb (e := ev.event) (by rw [h4]; exact (clear_sub _ _).trans (clear_sub _ _)) hs⟩
    · refine .inl ⟨.inr ⟨?_, h N.nRename h3⟩, fun b hb hs => decode_src hN h hb (e := ev.event) (by rw [h5]; exact (clear_sub _ _).trans ((clear_sub _ _).trans (and_sub_r _ _))) hs⟩
      unfold below at h4
      rw [Bool.and_eq_true] at h4
      exact List.isPrefixOf_iff_prefix.1 h4.1
    · refine .inr ⟨h 0x2 ?_, h4, ?_⟩
      · rcases hN with ⟨rfl, _⟩ | ⟨rfl, _⟩ <;> exact h3
      · rcases hN with ⟨rfl, _⟩ | ⟨rfl, _⟩
        · exact (h5.imp And.left And.left).symm
        · exact (h5.imp And.left And.left).symm

theorem Reported.internal {N : Native} {means : List (Event × Event)} (hN : N = kqueue ∧ means = kqMeans ∨ N = fen ∧ means = fenMeans) {rn : Event}
    {chgs : List (Path × Event)} {ei : EventInfo} (h : Reported means rn chgs ei) : ei.event &&& N.P.internal = 0 := by
  obtain ⟨p, ⟨_, h⟩ | ⟨_, _, h⟩⟩ := h
  · have key : ∀ b, One b → b ⊑ ei.event → b &&& N.P.internal = 0 := by
      intro b hb hs
      obtain ⟨f, hf, _⟩ := h b hb hs
      rcases hN with ⟨rfl, rfl⟩ | ⟨rfl, rfl⟩
      · have k1 : ∀ x ∈ kqMeans, x.1 &&& kqueue.P.internal = 0 := by decide
        exact k1 _ hf
      · have k1 : ∀ x ∈ fenMeans, x.1 &&& fen.P.internal = 0 := by decide
        exact k1 _ hf
    rw [Event.bext]
    intro i
    rw [BitVec.getLsbD_and, show BitVec.getLsbD (0 : Event) i = false from Event.bit_zero i, Bool.eq_false_iff]
    intro hc
    rw [Bool.and_eq_true] at hc
    have hi : i < 32 := BitVec.lt_of_getLsbD hc.1
    have h1 := key (BitVec.twoPow 32 i) ⟨i, hi, rfl⟩ ((Inotify.sub_pow _ hi).2 hc.1)
    have h2 : (BitVec.twoPow 32 i &&& N.P.internal).getLsbD i = true := by
      rw [BitVec.getLsbD_and, hc.2]; simp [hi]
    rw [h1] at h2
    simp at h2
  · rcases hN with ⟨rfl, rfl⟩ | ⟨rfl, rfl⟩ <;> rcases h with h | h <;> rw [h] <;> decide

end Trg

namespace Bsd
open Trg (kqueue Env Src Reported)
open Spec.Trg (kqMeans)
open NonRec (Op)
open Linux (Free sigs)

/-- Changes that are a reason for the event. -/
abbrev Told (chgs : List (Path × Event)) (ei : EventInfo) : Prop := Reported kqMeans 0x20 chgs ei

/-- What is on its way. -/
structure SInv (chgs : List (Path × Event)) (s : KSt) : Prop where
  pend : ∀ p, Src chgs p (s.pend p)
  hand : ∀ fd p ge, s.hand = some (fd, p, ge) → Src chgs p ge
  out : ∀ o ∈ s.out, Told chgs o
  carries : Sched.Carries (Told chgs) s.sys

theorem SInv.init : SInv [] KSt.init :=
  ⟨fun p => .zero _ p, (by intro _ _ _ h; cases h), (by intro _ h; cases h), ⟨(by intro _ h; cases h), (by intro _ h; cases h)⟩⟩

theorem SInv.live {chgs : List (Path × Event)} {w : Trg.St} {f : Path → Event} (h : ∀ p, Src chgs p (f p)) (p : Path) : Src chgs p (live w f p) := by
  unfold Bsd.live
  split
  · exact .zero _ _
  · exact h p

theorem SInv.step {cfg : Sched.Cfg} {X : Outside} {chgs : List (Path × Event)} {s s' : KSt} {o k r g} (h : SInv chgs s) (hs : KStep cfg X s o k r g s') :
    SInv (chgs ++ r) s' ∧ ∀ x ∈ g, Told chgs x.2 := by
  have none' : ∀ x ∈ ([] : List (Key × EventInfo)), Told chgs x.2 := by intro x hx; cases hx
  cases hs with
  | go l sys' htr hfree =>
    have hc := h.carries.tr htr (by rintro ei rfl; exact hfree)
    rw [List.append_nil]
    refine ⟨⟨h.pend, h.hand, h.out, hc.1⟩, fun x hx => ?_⟩
    cases l with
    | send i k ei => rw [List.mem_singleton.1 hx]; exact hc.2 i k ei rfl
    | _ => cases hx
  | change p fl m hx hm hf =>
    refine ⟨⟨fun q => ?_, fun fd q ge hh => (h.hand fd q ge hh).mono, fun o ho => (h.out o ho).mono, h.carries.mono fun _ he => he.mono⟩, none'⟩
    show Src _ q (if q = p then s.pend p ||| (fl &&& m) else s.pend q)
    split
    · next hq => subst hq; exact (h.pend q).mono.or ((Src.this _ _ _).sub (Trg.and_sub_l _ _))
    · exact (h.pend q).mono
  | wait p w hh ho hp hw =>
    rw [List.append_nil]
    refine ⟨⟨fun q => ?_, fun fd q ge he => ?_, h.out, h.carries⟩, none'⟩
    · show Src _ q (if q = p then 0 else s.pend q)
      split
      · exact .zero _ _
      · exact h.pend q
    · cases he; exact h.pend p
  | process E fd p ge hx hh =>
    rw [List.append_nil]
    refine ⟨⟨SInv.live h.pend, (by intro _ _ _ he; cases he), fun o ho => ?_, h.carries⟩, none'⟩
    obtain ⟨ev, hev, rfl⟩ := List.mem_map.1 ho
    unfold handle at hev
    split at hev
    · exact Trg.process_reported (N := kqueue) (.inl ⟨rfl, rfl⟩) (h.hand fd p ge hh) hev rfl rfl
    · cases hev
  | send ei l ho hc hok =>
    rw [List.append_nil]
    refine ⟨⟨h.pend, h.hand, fun y hy => h.out y (by rw [ho]; exact List.mem_cons_of_mem _ hy), ⟨fun e he => ?_, h.carries.disp⟩⟩, none'⟩
    rcases List.mem_append.1 he with he | he
    · exact h.carries.cq e he
    · rw [List.mem_singleton.1 he]; exact h.out ei (by rw [ho]; simp)
  | plan r ops t new hr hp ht hn => rw [List.append_nil]; exact ⟨⟨h.pend, h.hand, h.out, h.carries⟩, none'⟩
  | call E c ok rest w' hx ht hs =>
    rw [List.append_nil]
    refine ⟨⟨SInv.live fun q => ?_, h.hand, h.out, h.carries⟩, none'⟩
    split
    · exact .zero _ _
    · exact h.pend q
  | effect i r a b t hcalls hp ht => rw [List.append_nil]; exact ⟨⟨h.pend, h.hand, h.out, ⟨h.carries.cq, h.carries.disp⟩⟩, none'⟩
  | intEffect ei t hi hp ht => rw [List.append_nil]; exact ⟨⟨h.pend, h.hand, h.out, ⟨h.carries.cq, h.carries.disp⟩⟩, none'⟩

theorem KRun.sinv {cfg : Sched.Cfg} {X : Outside} {ops calls chgs sg} {s : KSt} (h : KRun cfg X KSt.init ops calls chgs sg s) : SInv chgs s := by
  induction h with
  | refl => exact SInv.init
  | step _ hs ih => exact (ih.step hs).1

/-- The tree is that of the operations. -/
theorem KRun.tied {cfg : Sched.Cfg} {X : Outside} {ops calls chgs sg} {s : KSt} (h : KRun cfg X KSt.init ops calls chgs sg s) :
    Sched.Tied (Y := Y) (NonRec.Hist P false) ops s.sys s.plan := by
  induction h with
  | refl => exact .inl ⟨rfl, .nil⟩
  | step _ hs ih =>
    cases hs with
    | go l sys' htr hfree => simpa using ih.tr htr (Linux.free_effect hfree).1 (Linux.free_effect hfree).2
    | plan r ops' t' new hr hp ht hn => exact ih.begin hp hr fun h => Sched.hist_steps h ht.1
    | effect i r a b t' hcalls hp ht => simpa using ih.finish hp rfl
    | intEffect ei t' hi hp ht => simpa using ih.finish hp rfl
    | _ => rw [List.append_nil]; exact ih.same rfl rfl rfl

/-- **C114, the BSDs.**  In every execution of the whole program, under every schedule and whatever fails: an event that is now signalled to a channel was asked for with
Watches of that channel that began before and that no Stop of it and no removal took back since; and flags came up before that are a reason for it. -/
theorem C114_bsd {cfg : Sched.Cfg} {X : Outside} {ops calls chgs sg} {s s' : KSt} (h : KRun cfg X KSt.init ops calls chgs sg s) {o k r g}
    (hs : KStep cfg X s o k r g s') {c : Nat} {ei : EventInfo} (hm : (Key.user c, ei) ∈ g) :
    Sched.AskedFor (Sched.wanted P ops) c ei ∧ Reported kqMeans 0x20 chgs ei := by
  have h1 : Told chgs ei := ((KRun.sinv h).step hs).2 _ hm
  refine ⟨?_, h1⟩
  cases hs with
  | go l sys' htr hfree =>
    cases l with
    | send i k ei' =>
      cases List.mem_singleton.1 hm
      obtain ⟨t, h2, _⟩ := C101_parts h
      exact (KRun.tied h).asked_plain factsP (Sched.Exec.inv _ h2) htr nofun (h1.internal (N := kqueue) (.inl ⟨rfl, rfl⟩))
    | _ => cases hm
  | _ => cases hm

/-- Every signal is made in some step. -/
theorem KRun.moment {cfg : Sched.Cfg} {X : Outside} {s₀ s : KSt} {ops calls chgs sg} (h : KRun cfg X s₀ ops calls chgs sg s) {x : Key × EventInfo} (hx : x ∈ sg) :
    ∃ ops₁ calls₁ chgs₁ sg₁ s₁ o k r g s₂, KRun cfg X s₀ ops₁ calls₁ chgs₁ sg₁ s₁ ∧ KStep cfg X s₁ o k r g s₂ ∧ x ∈ g ∧ ops₁ <+: ops ∧ chgs₁ <+: chgs := by
  induction h with
  | refl => cases hx
  | step h0 hs ih =>
    rcases List.mem_append.1 hx with hx | hx
    · obtain ⟨a, b, c, d, e, f, g, k, l, m, h1, h2, h3, h4, h5⟩ := ih hx
      exact ⟨a, b, c, d, e, f, g, k, l, m, h1, h2, h3, h4.trans (List.prefix_append _ _), h5.trans (List.prefix_append _ _)⟩
    · exact ⟨_, _, _, _, _, _, _, _, _, _, h0, hs, hx, List.prefix_append _ _, List.prefix_append _ _⟩

/-- Channel 1 watches `/d/e` for Write, channel 2 `/d` for Remove; `/d/e/f` is written: a signal is made, it was asked for and there is a reason. -/
example : ∃ ops₁ calls₁ chgs₁ sg₁ s₁ o k r g s₂, KRun Ex.cfg (calm Trg.Ex.E7) KSt.init ops₁ calls₁ chgs₁ sg₁ s₁ ∧ KStep Ex.cfg (calm Trg.Ex.E7) s₁ o k r g s₂ ∧
    (Key.user 1, Ex.ei) ∈ g ∧ Sched.AskedFor (Sched.wanted P ops₁) 1 Ex.ei ∧ Reported kqMeans 0x20 chgs₁ Ex.ei := by
  obtain ⟨s', h2, _⟩ := Ex.run2
  obtain ⟨ops₁, calls₁, chgs₁, sg₁, s₁, o, k, r, g, s₂, h3, h4, h5, _⟩ := (Ex.run1.trans h2).moment (x := (.user 1, Ex.ei)) (by simp)
  exact ⟨_, _, _, _, _, _, _, _, _, _, h3, h4, h5, C114_bsd h3 h4 h5⟩

end Bsd

namespace Fen
open Trg (fen Env Src Reported Ev W)
open Spec.Trg (fenMeans)
open NonRec (Op)
open Linux (Free sigs)

/-! ### The events are those of `Trigger` -/

section
variable {E : Env} {p : Path} {e : Event} {w : W}

theorem moved_same : ∀ (l : List Path) (s : Rec), (moved E p w e s l).1.t = (Trg.moved fen E p w e s.t l).1 ∧ (moved E p w e s l).2 = (Trg.moved fen E p w e s.t l).2
  | [], _ => ⟨rfl, rfl⟩
  | q :: l, s => by
    unfold Fen.moved Trg.moved
    split
    · obtain ⟨h1, h2⟩ := moved_same l (singleunwatch E s q .both).1
      exact ⟨h1, by simp only [h2]; rfl⟩
    · exact moved_same l s

theorem scanKid_same {n : Rec × List Ev} {n' : Trg.St × List Ev} (h : n.1.t = n'.1 ∧ n.2 = n'.2) (y : Comp × Bool) :
    ((scanKid E p w n y).1.1.t = (Trg.scanKid fen E p w n' y).1.1 ∧ (scanKid E p w n y).1.2 = (Trg.scanKid fen E p w n' y).1.2) ∧
      (scanKid E p w n y).2 = (Trg.scanKid fen E p w n' y).2 := by
  obtain ⟨⟨t, c⟩, l⟩ := n
  obtain ⟨t', l'⟩ := n'
  obtain ⟨rfl, rfl⟩ := h
  unfold Fen.scanKid Trg.scanKid Fen.singlewatch
  simp only
  rcases Trg.singlewatch fen E t (Trg.join p y.1) w.eDir .ndir y.2 with ⟨t1, r⟩
  cases r with
  | err b => cases b <;> exact ⟨⟨rfl, rfl⟩, rfl⟩
  | _ => exact ⟨⟨rfl, rfl⟩, rfl⟩

theorem dir_same (s : Rec) (p : Path) (w : W) (e ge : Event) : (dir E s p w e ge).2 = (Trg.dir fen E s.t p w e ge).2 := by
  unfold Fen.dir Trg.dir
  split
  · simp only
    split
    · rw [(moved_same s.t.lkp.keys s).2]
    · rfl
  · split
    · exact (walk_sim (E := E) (R := fun (n : Rec × List Ev) (n' : Trg.St × List Ev) => n.1.t = n'.1 ∧ n.2 = n'.2)
        (fun n n' y hn => scanKid_same hn y) p (s := (s, [])) (t := (s.t, [])) ⟨rfl, rfl⟩).1.2
    · rfl

theorem process_same (s : Rec) (p : Path) (ge : Event) : (process E s p ge).2 = (Trg.process fen E s.t p ge).2 := by
  unfold Fen.process Trg.process
  cases s.t.lkp.get? p with
  | none => rfl
  | some w =>
    simp only
    split
    · rfl
    · have h2 : (if w.isDir then Fen.dir E (Fen.renew E s p w ge) p w (Trg.decode fen.nat2not ge w.all) ge
            else (Fen.renew E s p w ge, [⟨p, Trg.decode fen.nat2not ge w.all, w.isDir⟩])).2 =
          (if w.isDir then Trg.dir fen E (Trg.renew fen E s.t p w ge) p w (Trg.decode fen.nat2not ge w.all) ge
            else (Trg.renew fen E s.t p w ge, [⟨p, Trg.decode fen.nat2not ge w.all, w.isDir⟩])).2 := by
        split
        · exact dir_same (Fen.renew E s p w ge) p w _ ge
        · rfl
      split <;> exact h2

end

/-! ### The kernel -/

/-- What the kernel knows of a file has a reason. -/
structure KInv (chgs : List (Path × Event)) (k : Kern) : Prop where
  queue : ∀ x ∈ k.queue, Src chgs x.1 x.2.2
  since : ∀ p, Src chgs p (k.since p)

theorem KInv.mono {chgs l : List (Path × Event)} {k : Kern} (h : KInv chgs k) : KInv (chgs ++ l) k := ⟨fun x hx => (h.queue x hx).mono, fun p => (h.since p).mono⟩

theorem KInv.call {chgs : List (Path × Event)} {k : Kern} (h : KInv chgs k) (c : NCall) : KInv chgs (k.call c) := by
  cases c with
  | assoc p m ok => exact ⟨h.queue, h.since⟩
  | dissoc p =>
    unfold Kern.call
    simp only
    split
    · exact h
    · exact ⟨fun x hx => h.queue x (List.mem_filter.1 hx).1, h.since⟩
  | reassoc p m ok =>
    refine ⟨fun x hx => ?_, h.since⟩
    have hx : x ∈ (if ok = true ∧ k.since p &&& m ≠ 0 then k.queue ++ [(p, k.next, k.since p &&& m)] else k.queue) := hx
    split at hx
    · rcases List.mem_append.1 hx with hx | hx
      · exact h.queue x hx
      · rw [List.mem_singleton.1 hx]
        exact (h.since p).sub (Trg.and_sub_l _ _)
    · exact h.queue x hx
  | keep p =>
    refine ⟨h.queue, fun q => ?_⟩
    show Src chgs q (if q = p then 0 else k.since q)
    split
    · exact .zero _ _
    · exact h.since q

theorem KInv.calls {chgs : List (Path × Event)} : ∀ (l : List NCall) {k : Kern}, KInv chgs k → KInv chgs (l.foldl Kern.call k)
  | [], _, h => h
  | c :: l, _, h => KInv.calls l (h.call c)

theorem KInv.change {chgs : List (Path × Event)} {k : Kern} (h : KInv chgs k) (p : Path) (fl : Event) : KInv (chgs ++ [(p, fl)]) (k.change p fl) := by
  refine ⟨fun x hx => ?_, fun q => ?_⟩
  · rcases List.mem_append.1 hx with hx | hx
    · exact (h.queue x hx).mono
    · obtain ⟨y, _, rfl⟩ := List.mem_map.1 hx
      exact (Src.this _ _ _).sub (Trg.and_sub_l _ _)
  · show Src _ q (if q = p then k.since p ||| (fl &&& times) else k.since q)
    split
    · next hq => subst hq; exact (h.since q).mono.or ((Src.this _ _ _).sub (Trg.and_sub_l _ _))
    · exact (h.since q).mono

/-! ### The program -/

/-- Changes that are a reason for the event. -/
abbrev Told (chgs : List (Path × Event)) (ei : EventInfo) : Prop := Reported fenMeans 0x40 chgs ei

/-- What is on its way. -/
structure SInv (chgs : List (Path × Event)) (s : FSt) : Prop where
  kern : KInv chgs s.kern
  hand : ∀ p ge, s.hand = some (p, ge) → Src chgs p ge
  out : ∀ o ∈ s.out, Told chgs o
  carries : Sched.Carries (Told chgs) s.sys

theorem SInv.init : SInv [] FSt.init :=
  ⟨⟨(by intro _ h; cases h), fun p => .zero _ p⟩, (by intro _ _ h; cases h), (by intro _ h; cases h), ⟨(by intro _ h; cases h), (by intro _ h; cases h)⟩⟩

theorem SInv.step {cfg : Sched.Cfg} {X : Outside} {chgs : List (Path × Event)} {s s' : FSt} {o k r g} (h : SInv chgs s) (hs : FStep cfg X s o k r g s') :
    SInv (chgs ++ r) s' ∧ ∀ x ∈ g, Told chgs x.2 := by
  have none' : ∀ x ∈ ([] : List (Key × EventInfo)), Told chgs x.2 := by intro x hx; cases hx
  cases hs with
  | go l sys' htr hfree =>
    have hc := h.carries.tr htr (by rintro ei rfl; exact hfree)
    rw [List.append_nil]
    refine ⟨⟨h.kern, h.hand, h.out, hc.1⟩, fun x hx => ?_⟩
    cases l with
    | send i k ei => rw [List.mem_singleton.1 hx]; exact hc.2 i k ei rfl
    | _ => cases hx
  | change p fl hx =>
    exact ⟨⟨h.kern.change p fl, fun q ge hh => (h.hand q ge hh).mono, fun o ho => (h.out o ho).mono, h.carries.mono fun _ he => he.mono⟩, none'⟩
  | wait p a fl hh ho hp =>
    rw [List.append_nil]
    refine ⟨⟨⟨fun x hx => h.kern.queue x (List.mem_of_mem_erase hx), h.kern.since⟩, fun q ge he => ?_, h.out, h.carries⟩, none'⟩
    cases he; exact h.kern.queue _ hp
  | process E p ge hx hh =>
    rw [List.append_nil]
    refine ⟨⟨h.kern.calls _, (by intro _ _ he; cases he), fun o ho => ?_, h.carries⟩, none'⟩
    obtain ⟨ev, hev, rfl⟩ := List.mem_map.1 ho
    rw [process_same] at hev
    exact Trg.process_reported (N := fen) (.inr ⟨rfl, rfl⟩) (h.hand p ge hh) hev rfl rfl
  | send ei l ho hc hok =>
    rw [List.append_nil]
    refine ⟨⟨h.kern, h.hand, fun y hy => h.out y (by rw [ho]; exact List.mem_cons_of_mem _ hy), ⟨fun e he => ?_, h.carries.disp⟩⟩, none'⟩
    rcases List.mem_append.1 he with he | he
    · exact h.carries.cq e he
    · rw [List.mem_singleton.1 he]; exact h.out ei (by rw [ho]; simp)
  | plan r ops t new hr hp ht hn => rw [List.append_nil]; exact ⟨⟨h.kern, h.hand, h.out, h.carries⟩, none'⟩
  | call E c ok rest w' hx ht hs => rw [List.append_nil]; exact ⟨⟨h.kern.calls _, h.hand, h.out, h.carries⟩, none'⟩
  | effect i r a b t hcalls hp ht => rw [List.append_nil]; exact ⟨⟨h.kern, h.hand, h.out, ⟨h.carries.cq, h.carries.disp⟩⟩, none'⟩
  | intEffect ei t hi hp ht => rw [List.append_nil]; exact ⟨⟨h.kern, h.hand, h.out, ⟨h.carries.cq, h.carries.disp⟩⟩, none'⟩

theorem FRun.sinv {cfg : Sched.Cfg} {X : Outside} {ops calls chgs sg} {s : FSt} (h : FRun cfg X FSt.init ops calls chgs sg s) : SInv chgs s := by
  induction h with
  | refl => exact SInv.init
  | step _ hs ih => exact (ih.step hs).1

/-- The tree is that of the operations. -/
theorem FRun.tied {cfg : Sched.Cfg} {X : Outside} {ops calls chgs sg} {s : FSt} (h : FRun cfg X FSt.init ops calls chgs sg s) :
    Sched.Tied (Y := Y) (NonRec.Hist P false) ops s.sys s.plan := by
  induction h with
  | refl => exact .inl ⟨rfl, .nil⟩
  | step _ hs ih =>
    cases hs with
    | go l sys' htr hfree => simpa using ih.tr htr (Linux.free_effect hfree).1 (Linux.free_effect hfree).2
    | plan r ops' t' new hr hp ht hn => exact ih.begin hp hr fun h => Sched.hist_steps h ht.1
    | effect i r a b t' hcalls hp ht => simpa using ih.finish hp rfl
    | intEffect ei t' hi hp ht => simpa using ih.finish hp rfl
    | _ => rw [List.append_nil]; exact ih.same rfl rfl rfl

/-- **C114, Solaris.**  As for the BSDs. -/
theorem C114_fen {cfg : Sched.Cfg} {X : Outside} {ops calls chgs sg} {s s' : FSt} (h : FRun cfg X FSt.init ops calls chgs sg s) {o k r g}
    (hs : FStep cfg X s o k r g s') {c : Nat} {ei : EventInfo} (hm : (Key.user c, ei) ∈ g) :
    Sched.AskedFor (Sched.wanted P ops) c ei ∧ Reported fenMeans 0x40 chgs ei := by
  have h1 : Told chgs ei := ((FRun.sinv h).step hs).2 _ hm
  refine ⟨?_, h1⟩
  cases hs with
  | go l sys' htr hfree =>
    cases l with
    | send i k ei' =>
      cases List.mem_singleton.1 hm
      obtain ⟨t, h2, _⟩ := C107_parts h
      exact (FRun.tied h).asked_plain factsP (Sched.Exec.inv _ h2) htr nofun (h1.internal (N := fen) (.inr ⟨rfl, rfl⟩))
    | _ => cases hm
  | _ => cases hm

/-- Every signal is made in some step. -/
theorem FRun.moment {cfg : Sched.Cfg} {X : Outside} {s₀ s : FSt} {ops calls chgs sg} (h : FRun cfg X s₀ ops calls chgs sg s) {x : Key × EventInfo} (hx : x ∈ sg) :
    ∃ ops₁ calls₁ chgs₁ sg₁ s₁ o k r g s₂, FRun cfg X s₀ ops₁ calls₁ chgs₁ sg₁ s₁ ∧ FStep cfg X s₁ o k r g s₂ ∧ x ∈ g ∧ ops₁ <+: ops ∧ chgs₁ <+: chgs := by
  induction h with
  | refl => cases hx
  | step h0 hs ih =>
    rcases List.mem_append.1 hx with hx | hx
    · obtain ⟨a, b, c, d, e, f, g, k, l, m, h1, h2, h3, h4, h5⟩ := ih hx
      exact ⟨a, b, c, d, e, f, g, k, l, m, h1, h2, h3, h4.trans (List.prefix_append _ _), h5.trans (List.prefix_append _ _)⟩
    · exact ⟨_, _, _, _, _, _, _, _, _, _, h0, hs, hx, List.prefix_append _ _, List.prefix_append _ _⟩

/-- Channel 1 watches `/d/e` for Write and FileAttrib; `/d/e/f` is written: a signal is made, it was asked for and there is a reason. -/
example : ∃ ops₁ calls₁ chgs₁ sg₁ s₁ o k r g s₂, FRun Ex.cfg (calm Trg.Ex.E7) FSt.init ops₁ calls₁ chgs₁ sg₁ s₁ ∧ FStep Ex.cfg (calm Trg.Ex.E7) s₁ o k r g s₂ ∧
    (Key.user 1, Ex.ei) ∈ g ∧ Sched.AskedFor (Sched.wanted P ops₁) 1 Ex.ei ∧ Reported fenMeans 0x40 chgs₁ Ex.ei := by
  obtain ⟨s', h2, _⟩ := LostEx.run4
  obtain ⟨ops₁, calls₁, chgs₁, sg₁, s₁, o, k, r, g, s₂, h3, h4, h5, _⟩ := (LostEx.run3.trans h2).moment (x := (.user 1, Ex.ei)) (by simp)
  exact ⟨_, _, _, _, _, _, _, _, _, _, h3, h4, h5, C114_fen h3 h4 h5⟩

end Fen
end Verif
