/-
The whole program on the BSDs (C101).
-/
import Verif.Bsd
import Verif.BsdFd
import Verif.PlainRun

namespace Verif
namespace Bsd
open Trg (kqueue Env Drives Has Away)
open Spec.Trg (kqMeans)
open NonRec (Hist Steps Op regOf NoFail GoodPath)
open Spec (wants copies Reg)
open Linux (Free sigs isSig isEv Gets)
open Plain (Leaves Fit due due_step free_tree)

abbrev P : Platform := Platform.kqueue

theorem factsP : P.Facts := Platform.kqueue_wf.facts

/-- Removal or renaming of the file of the descriptor. -/
abbrev gone : Event := kqueue.nRemove ||| kqueue.nRename

/-! ### The invariant -/

/-- After the operations `base`, all of them done, and `ops`, of which the last may be under way. -/
structure J (E : Env) (base ops : List Op) (s : KSt) : Prop where
  amid : Plain.Amid P base ops s.sys.tree s.plan s.todo s.log
  drives : Drives kqueue E s.log s.w
  pend : ∀ q, s.pend q &&& gone = 0
  hand : ∀ fd p ge, s.hand = some (fd, p, ge) → ge &&& gone = 0
  turn : s.hand ≠ none → s.out = []

theorem J.init (E : Env) : J E [] [] KSt.init where
  amid := Plain.Amid.init P
  drives := .init
  pend := fun q => by simp [KSt.init]
  hand := fun _ _ _ h => by cases h
  turn := fun _ => rfl

theorem live_gone {w : Trg.St} {f : Path → Event} (h : ∀ q, f q &&& gone = 0) (q : Path) : live w f q &&& gone = 0 := by
  unfold live
  split
  · simp
  · exact h q

theorem J.step {cfg : Sched.Cfg} {E : Env} {base ops o : List Op} {k : List (Call × Bool)} {r : List (Path × Event)} {g : List (Key × EventInfo)}
    {s s' : KSt} (h : J E base ops s) (hs : KStep cfg (calm E) s o k r g s') : J E base (ops ++ o) s' := by
  cases hs with
  | go l sys' htr hl =>
    rw [List.append_nil]
    refine ⟨?_, h.drives, h.pend, h.hand, h.turn⟩
    simp only [free_tree (P := P) htr hl]
    exact h.amid
  | change p fl m hx hm hf =>
    rw [List.append_nil]
    refine ⟨h.amid, h.drives, fun q => ?_, h.hand, h.turn⟩
    simp only
    split
    · have h1 := h.pend p
      have h2 : fl &&& gone = 0 := hx
      clear hf hm hx h
      generalize s.pend p = a at *
      generalize gone = b at *
      rw [Event.bext] at *
      intro i
      have h1 := h1 i
      have h2 := h2 i
      simp only [BitVec.getLsbD_and, BitVec.getLsbD_or] at *
      revert h1 h2
      cases fl.getLsbD i <;> cases m.getLsbD i <;> cases a.getLsbD i <;> cases b.getLsbD i <;> simp
    · exact h.pend q
  | wait p w hh ho hp hw =>
    rw [List.append_nil]
    refine ⟨h.amid, h.drives, fun q => ?_, ?_, fun _ => ho⟩
    · simp only
      split
      · simp
      · exact h.pend q
    · intro fd p' ge he
      cases he
      exact h.pend p
  | process E' fd p ge hx hh =>
    rw [List.append_nil]
    have hx' : E' = E := hx
    subst hx'
    refine ⟨h.amid, ?_, live_gone h.pend, (fun _ _ _ he => by cases he), fun he => absurd rfl he⟩
    simp only [handle]
    split
    · exact .note p ge h.drives (h.hand _ _ _ hh)
    · exact h.drives
  | send ei l ho hc hok =>
    rw [List.append_nil]
    refine ⟨h.amid, h.drives, h.pend, h.hand, fun hh => ?_⟩
    have := h.turn hh
    rw [ho] at this
    cases this
  | plan r ops' t new hr hp ht hn =>
    have ha := h.amid
    rw [hp] at ha
    exact ⟨ha.begin r ht.1 hn, h.drives, h.pend, h.hand, h.turn⟩
  | call E' c ok rest w' hx ht hs =>
    rw [List.append_nil]
    have hx' : E' = E := hx
    subst hx'
    have ha := h.amid
    rw [ht] at ha
    refine ⟨ha.call, h.drives.call hs, live_gone fun q => ?_, h.hand, h.turn⟩
    split
    · simp
    · exact h.pend q
  | effect i r a b t hcalls hp ht =>
    have ha := h.amid
    rw [hp, ht] at ha
    rw [List.append_nil]
    refine ⟨?_, h.drives, h.pend, h.hand, h.turn⟩
    simp only [ht]
    exact ha.done
  | intEffect ei t hi hp ht =>
    have ha := h.amid
    rw [hp, ht] at ha
    rw [List.append_nil]
    refine ⟨?_, h.drives, h.pend, h.hand, h.turn⟩
    simp only [ht]
    exact ha.done

theorem J.rebase {E : Env} {base ops : List Op} {s : KSt} (h : J E base ops s) (hp : s.plan = none) : J E (base ++ ops) [] s := by
  have ha := h.amid
  rw [hp] at ha
  refine ⟨?_, h.drives, h.pend, h.hand, h.turn⟩
  rw [hp]
  exact ha.rebase

theorem KRun.trans {cfg : Sched.Cfg} {X : Outside} {s s₁ s₂ : KSt} {ops calls chgs sg ops' calls' chgs' sg'} (h : KRun cfg X s ops calls chgs sg s₁)
    (h' : KRun cfg X s₁ ops' calls' chgs' sg' s₂) : KRun cfg X s (ops ++ ops') (calls ++ calls') (chgs ++ chgs') (sg ++ sg') s₂ := by
  induction h' with
  | refl => simpa using h
  | step _ hs ih => rw [← List.append_assoc, ← List.append_assoc, ← List.append_assoc, ← List.append_assoc]; exact ih.step hs

theorem KRun.jFrom {cfg : Sched.Cfg} {E : Env} {base ops₁ : List Op} {s s' : KSt} {ops calls chgs sg} (hj : J E base ops₁ s)
    (h : KRun cfg (calm E) s ops calls chgs sg s') : J E base (ops₁ ++ ops) s' := by
  induction h with
  | refl => rw [List.append_nil]; exact hj
  | step _ hs ih => rw [← List.append_assoc]; exact ih.step hs

theorem KRun.j {cfg : Sched.Cfg} {E : Env} {base : List Op} {s s' : KSt} {ops calls chgs sg} (hj : J E base [] s)
    (h : KRun cfg (calm E) s ops calls chgs sg s') : J E base ops s' := h.jFrom hj

/-! ### Flags -/

/-- The flags `fl` of a change tell the event `e` (flag `f`) and no other event in `W`. -/
def Tells (e f W fl : Event) : Prop := f ⊑ fl ∧ ∀ e' f', (e', f') ∈ kqMeans → f' ⊑ fl → e' ⊑ W → e' = e

theorem Tells.mask {e f W fl m : Event} (h : Tells e f W fl) (hm : f ⊑ m) : Tells e f W (fl &&& m) := by
  refine ⟨fun i hi => ?_, fun e' f' h1 h2 h3 => h.2 e' f' h1 (fun i hi => ?_) h3⟩
  · simp [h.1 i hi, hm i hi]
  · have := h2 i hi
    simp only [BitVec.getLsbD_and, Bool.and_eq_true] at this
    exact this.1

theorem Tells.or {e f W a b : Event} (h : Tells e f W a) (h' : Tells e f W b) : Tells e f W (a ||| b) := by
  refine ⟨h.1.trans (Event.sub_or_left _ _), fun e' f' h1 h2 h3 => ?_⟩
  have key : ∀ x ∈ kqMeans, ∃ k, k < 32 ∧ x.2 = BitVec.twoPow 32 k := by decide
  obtain ⟨k, hk, hf⟩ := key _ h1
  simp only at hf
  subst hf
  rw [Inotify.sub_pow _ hk, BitVec.getLsbD_or, Bool.or_eq_true] at h2
  rcases h2 with h2 | h2
  · exact h.2 e' _ h1 ((Inotify.sub_pow _ hk).2 h2) h3
  · exact h'.2 e' _ h1 ((Inotify.sub_pow _ hk).2 h2) h3

theorem Tells.decode {e f W fl : Event} (h : Tells e f W fl) (hm : (e, f) ∈ kqMeans) (hW : e ⊑ W) : Trg.decode kqueue.nat2not fl W = e := by
  rw [Event.bext]
  intro i
  apply Bool.eq_iff_iff.2
  rw [Trg.C40_decode_kqueue (List.Perm.refl _)]
  constructor
  · rintro ⟨e', g, h1, h2, h3, h4⟩
    rw [← h.2 e' g h1 h2 h3]
    exact h4
  · intro hb
    exact ⟨e, f, hm, h.1, hW, hb⟩

/-- A notification of a file. -/
theorem file_event {E : Env} {s : Trg.St} {x : Path} {w : Trg.W} (hw : s.lkp.get? x = some w) (hd : w.isDir = false) {e ge : Event}
    (hdec : Trg.decode kqueue.nat2not ge w.all = e) (h0 : e ≠ 0) : (Trg.process kqueue E s x ge).2 = [⟨x, e, false⟩] := by
  unfold Trg.process
  rw [hw]
  simp only [hdec]
  rw [if_neg (fun hh => h0 hh.1)]
  simp only [hd, Bool.false_eq_true, if_false]
  split <;> rfl

/-! ### Counting -/

/-- The set of events that the watcher has for `x`. -/
def setOf (s : KSt) (x : Path) : Event := osOf s.log x ||| osOf s.log x.dropLast

/-- 1 if the path of the notification in hand is `x`. -/
def inHand (x : Path) (s : KSt) : Nat :=
  match s.hand with
  | some (_, p, _) => if p = x then 1 else 0
  | none => 0

/-- 1 if flags are pending for `x`. -/
def inPend (x : Path) (s : KSt) : Nat := if s.pend x = 0 then 0 else 1

/-- The changes of `x`. -/
def about (x : Path) (y : Path × Event) : Bool := decide (y.1 = x)

/-- The state of the watcher and the kernel with regard to `x`. -/
structure Track (x : Path) (e f W : Event) (fd : Nat) (s : KSt) : Prop where
  set : setOf s x = W
  has : Has x fd s.w
  pend : s.pend x = 0 ∨ Tells e f W (s.pend x)
  hand : ∀ fd' ge, s.hand = some (fd', x, ge) → fd' = fd ∧ Tells e f W ge

/-- After `n` changes of `x`: `m` notifications were processed; these, and what is on its way, are at least `L`. -/
structure Count (K : Nat) (c : Nat) (x : Path) (e : Event) (L n sg : Nat) (s : KSt) : Prop where
  fit : Fit K c (isEv e x) s.sys
  sum : ∃ m, sg + due K c (isEv e x) s.sys + K * s.out.countP (isEv e x) = K * m ∧ m + inHand x s + inPend x s ≤ n ∧
    (L ≤ m + inHand x s + inPend x s ∧ (0 < n → 0 < m + inHand x s + inPend x s))

theorem osOf_away {x : Path} {c : Call} {ok : Bool} {l : Log} (h : Away x c) : osOf ((c, ok) :: l) x = osOf l x ∧
    osOf ((c, ok) :: l) x.dropLast = osOf l x.dropLast := by
  cases ok with
  | false => cases c <;> exact ⟨rfl, rfl⟩
  | true =>
    cases c <;> first
      | (simp only [osOf]; rw [if_neg h.1, if_neg h.2]; exact ⟨rfl, rfl⟩)
      | exact ⟨rfl, rfl⟩

theorem cuts_away {E : Env} {x : Path} {c : Call} (hlen : 2 ≤ x.length) (h : Away x c) : cuts E c x = false := by
  have key : ∀ p, p ≠ x ∧ p ≠ x.dropLast → (match E.stat p, E.list p with
      | none, _ => false
      | some true, .ok l => x == p || l.any fun y => x == Trg.join p y.1
      | _, _ => x == p) = false := by
    intro p hp
    split
    · rfl
    · rw [Bool.or_eq_false_iff, beq_eq_false_iff_ne, List.any_eq_false]
      exact ⟨Ne.symm hp.1, fun y _ => by
        have := Away.kids hlen hp.2 y.1
        simpa using fun h => this h.symm⟩
    · rw [beq_eq_false_iff_ne]
      exact Ne.symm hp.1
  unfold cuts
  cases c with
  | unwatch p => exact key p h
  | rewatch p o n => exact key p h
  | _ => rfl

section
variable {cfg : Sched.Cfg} {E : Env} {base ops o : List Op} {k : List (Call × Bool)} {r : List (Path × Event)} {g : List (Key × EventInfo)}
  {s s' : KSt} {c : Nat} {x : Path} {e f W : Event} {fd K L n sg : Nat}

/-- The entry of `x` in the table. -/
theorem J.entry (hj : J E base ops s) (hE : Trg.Steady E) (hx : GoodPath x) (hlen : 2 ≤ x.length) (hst : E.stat x = some false)
    (hsk : E.opn x ≠ .skip) (hm : (e, f) ∈ kqMeans) (hW : e ⊑ setOf s x) :
    ∃ w, s.w.lkp.get? x = some w ∧ w.isDir = false ∧ w.all = setOf s x ∧ ∃ m, s.w.nat.get? x = some m ∧ f ⊑ m := by
  have hmeans : Trg.Means kqueue e f := .inl ⟨rfl, hm⟩
  have h0 := hmeans.plain.1
  obtain ⟨w, k1, k2, k3, k4⟩ := Trg.entry_of hE hj.drives (hj.amid.valid factsP) hx hlen hst hsk (by
    intro hz
    unfold setOf at hW
    rw [hz] at hW
    exact h0 (Event.sub_zero hW))
  refine ⟨w, k1, k2, k3, _, k4, ?_⟩
  rcases hmeans.reports (w := w.all) (by rw [k3]; exact hW) false with h | ⟨h, _⟩
  · exact h
  · exact absurd (congrArg Trg.Native.oneShot h) (by decide)

theorem Track.step (hj : J E base ops s) (hE : Trg.Steady E) (hx : GoodPath x) (hlen : 2 ≤ x.length) (hst : E.stat x = some false)
    (hsk : E.opn x ≠ .skip) (hm : (e, f) ∈ kqMeans) (hW : e ⊑ W) (ht : Track x e f W fd s) (hs : KStep cfg (calm E) s o k r g s')
    (hk : ∀ y ∈ k, Away x y.1) (hr : ∀ fl, (x, fl) ∈ r → Tells e f W fl) : Track x e f W fd s' := by
  obtain ⟨w, k1, k2, k3, m₀, k4, k5⟩ := hj.entry hE hx hlen hst hsk hm (by rw [ht.set]; exact hW)
  cases hs with
  | go l sys' htr hl => exact ⟨ht.set, ht.has, ht.pend, ht.hand⟩
  | change p fl m hxc hm' hf =>
    refine ⟨ht.set, ht.has, ?_, ht.hand⟩
    simp only
    split
    · rename_i hp
      subst hp
      right
      rw [k4] at hm'
      cases hm'
      have h1 := (hr fl (by simp)).mask k5
      rcases ht.pend with h | h
      · rw [h, show (0 : Event) ||| (fl &&& m₀) = fl &&& m₀ from BitVec.zero_or]; exact h1
      · exact h.or h1
    · exact ht.pend
  | wait p w' hh ho hp hw =>
    refine ⟨ht.set, ht.has, ?_, ?_⟩
    · simp only
      split
      · exact .inl rfl
      · exact ht.pend
    · intro fd' ge he
      cases he
      obtain ⟨w'', h1, h2⟩ := ht.has
      rw [hw] at h1
      cases h1
      exact ⟨h2, ht.pend.resolve_left hp⟩
  | process E' fd' p ge hxe hh =>
    have hx' : E' = E := hxe
    subst hx'
    refine ⟨ht.set, ?_, ?_, fun _ _ he => by cases he⟩
    · simp only [handle]
      split
      · exact (ht.has.process hE.reg p (hj.hand _ _ _ hh)).1
      · exact ht.has
    · simp only [live]
      split
      · exact .inl rfl
      · exact ht.pend
  | send ei l ho hc hok => exact ⟨ht.set, ht.has, ht.pend, ht.hand⟩
  | plan r ops' t new hr' hp ht' hn => exact ⟨ht.set, ht.has, ht.pend, ht.hand⟩
  | call E' c' ok rest w' hxe ht' hs =>
    have ha : Away x c' := hk (c', ok) (by simp)
    refine ⟨?_, ht.has.serves hlen ha hs, ?_, ht.hand⟩
    · unfold setOf
      simp only [osOf_away ha]
      exact ht.set
    · simp only [live]
      split
      · exact .inl rfl
      · rw [if_neg (by rw [cuts_away hlen ha]; decide)]
        exact ht.pend
  | effect i r a b t hcalls hp ht' => exact ⟨ht.set, ht.has, ht.pend, ht.hand⟩
  | intEffect ei t hi hp ht' => exact ⟨ht.set, ht.has, ht.pend, ht.hand⟩

theorem Count.step (hj : J E base ops s) (hj' : J E base (ops ++ o) s') (hE : Trg.Steady E) (hx : GoodPath x) (hlen : 2 ≤ x.length)
    (hst : E.stat x = some false) (hsk : E.opn x ≠ .skip) (hm : (e, f) ∈ kqMeans) (hW : e ⊑ W) (ht : Track x e f W fd s)
    (ht' : Track x e f W fd s') (hK : ∀ ei, isEv e x ei = true → (Y.sends s.sys.tree ei).count (.user c) = K)
    (hc : Count K c x e L n sg s) (hs : KStep cfg (calm E) s o k r g s') (hk : ∀ y ∈ k, Away x y.1) :
    Count K c x e L (n + r.countP (about x)) (sg + g.countP (isSig c (isEv e x))) s' := by
  obtain ⟨hfit, m, h1, h2, h3⟩ := hc
  have hnat : ∀ {base ops} {s : KSt}, J E base ops s → Track x e f W fd s → ∃ m, s.w.nat.get? x = some m ∧ f ⊑ m := by
    intro base ops s hj ht
    obtain ⟨_, _, _, _, h⟩ := hj.entry hE hx hlen hst hsk hm (by rw [ht.set]; exact hW)
    exact h
  cases hs with
  | go l sys' htr hl =>
    obtain ⟨h4, h5⟩ := due_step (P := P) (f := isEv e x) htr hl hK hfit
    exact ⟨h5, m, by dsimp only; omega, h2, h3⟩
  | change p fl m' hxc hm' hf =>
    refine ⟨hfit, m, h1, ?_, ?_⟩
    all_goals
      simp only [inHand, inPend, about, List.countP_cons, List.countP_nil] at h2 h3 ⊢
      by_cases hp : p = x
      · subst hp
        simp only [if_true, decide_true]
        have hne : (s.pend p ||| (fl &&& m')) ≠ 0 := by
          intro h0
          apply hf
          rw [Event.bext] at h0 ⊢
          intro i
          have := h0 i
          have hz : BitVec.getLsbD (0 : Event) i = false := by simp
          rw [BitVec.getLsbD_or, hz] at this
          rw [hz]
          exact (Bool.or_eq_false_iff.1 this).2
        rw [if_neg hne]
        have hle : (if s.pend p = 0 then 0 else 1 : Nat) ≤ 1 := by split <;> omega
        omega
      · simp only [if_neg (Ne.symm hp), decide_eq_false hp]
        simp only [Bool.false_eq_true, if_false, Nat.add_zero, Nat.zero_add]
        first | exact h2 | exact h3
  | wait p w' hh ho hp hw =>
    refine ⟨hfit, m, h1, ?_, ?_⟩
    all_goals
      simp only [inHand, inPend, hh, List.countP_nil] at h2 h3 ⊢
      by_cases hpx : p = x
      · subst hpx
        rw [if_neg hp] at h2 h3
        simp only [if_true]
        omega
      · simp only [if_neg hpx, if_neg (Ne.symm hpx)]
        first | exact h2 | exact h3
  | process E' fd' p ge hxe hh =>
    have hx' : E' = E := hxe
    subst hx'
    have hout : s.out = [] := hj.turn (by rw [hh]; simp)
    have hpend : (live (handle E' s.w fd' p ge).1 s.pend) x = s.pend x := by
      obtain ⟨m', h4, _⟩ := hnat hj' ht'
      simp only [live]
      rw [if_neg]
      intro h5
      simp only at h4
      rw [h5] at h4
      cases h4
    have hge := hj.hand _ _ _ hh
    by_cases hpx : p = x
    · subst hpx
      obtain ⟨rfl, htell⟩ := ht.hand _ _ hh
      obtain ⟨w, k1, k2, k3, _⟩ := hj.entry hE hx hlen hst hsk hm (by rw [ht.set]; exact hW)
      have hev : (handle E' s.w fd' p ge).2 = [⟨p, e, false⟩] := by
        unfold handle
        rw [if_pos]
        · refine file_event (s := Trg.retrieved kqueue s.w p) k1 k2 ?_ (Trg.Means.plain (.inl ⟨rfl, hm⟩)).1
          rw [k3, ht.set]
          exact htell.decode hm hW
        · obtain ⟨w', h4, h5⟩ := ht.has
          rw [h4, ← h5]; rfl
      refine ⟨hfit, m + 1, ?_, ?_, ?_⟩
      · simp only [hout, List.countP_nil, hev, List.map_cons, List.map_nil, List.countP_cons, isEv, info, Nat.mul_add] at h1 ⊢
        simp
        omega
      all_goals
        simp only [inHand, inPend, hh, hpend, List.countP_nil, if_true] at h2 h3 ⊢
        omega
    · have hev : ((handle E' s.w fd' p ge).2.map info).countP (isEv e x) = 0 := by
        rw [List.countP_eq_zero]
        intro ei hei
        rw [List.mem_map] at hei
        obtain ⟨ev, h4, rfl⟩ := hei
        have : ev.path ≠ x := by
          unfold handle at h4
          split at h4
          · exact (Has.process (s := Trg.retrieved kqueue s.w p) ht.has hE.reg p hge).2 hpx ev h4
          · cases h4
        simp [isEv, info, this]
      refine ⟨hfit, m, ?_, ?_, ?_⟩
      · simp only [hout, List.countP_nil, hev] at h1 ⊢
        omega
      all_goals
        simp only [inHand, inPend, hh, hpend, List.countP_nil, if_neg hpx] at h2 h3 ⊢
        omega
  | send ei l ho hc hok =>
    refine ⟨hfit, m, ?_, h2, h3⟩
    simp only [due, ho, List.countP_append, List.countP_cons, List.countP_nil, Nat.mul_add] at h1 ⊢
    omega
  | plan r ops' t new hr' hp ht' hn => exact ⟨hfit, m, h1, h2, h3⟩
  | call E' c' ok rest w' hxe htodo hs =>
    have ha : Away x c' := hk (c', ok) (by simp)
    have hpend : (live w' (fun q => if cuts E' c' q then 0 else s.pend q)) x = s.pend x := by
      obtain ⟨m', h4, _⟩ := hnat hj' ht'
      simp only [live]
      rw [if_neg, if_neg (by rw [cuts_away hlen ha]; decide)]
      intro h5
      simp only at h4
      rw [h5] at h4
      cases h4
    refine ⟨hfit, m, h1, ?_, ?_⟩
    all_goals
      simp only [inHand, inPend, hpend, List.countP_nil] at h2 h3 ⊢
      first | exact h2 | exact h3
  | effect i r a b t hcalls hp ht' => exact ⟨hfit, m, by simp only [due, List.countP_nil] at h1 ⊢; omega, h2, h3⟩
  | intEffect ei t hi hp ht' => exact ⟨hfit, m, by simp only [due, List.countP_nil] at h1 ⊢; omega, h2, h3⟩

theorem KRun.track {ops₁ : List Op} (hj : J E base ops₁ s) (hE : Trg.Steady E) (hx : GoodPath x) (hlen : 2 ≤ x.length) (hst : E.stat x = some false)
    (hsk : E.opn x ≠ .skip) (hm : (e, f) ∈ kqMeans) (hW : e ⊑ W) (ht : Track x e f W fd s) {calls : List (Call × Bool)} {chgs : List (Path × Event)}
    {sgs : List (Key × EventInfo)} (h : KRun cfg (calm E) s ops calls chgs sgs s')
    (hk : ∀ y ∈ calls, Away x y.1) (hr : ∀ fl, (x, fl) ∈ chgs → Tells e f W fl) : Track x e f W fd s' := by
  induction h with
  | refl => exact ht
  | step h1 hs ih =>
    exact (ih (fun y hy => hk y (by simp [hy])) (fun fl hfl => hr fl (by simp [hfl]))).step (h1.jFrom hj) hE hx hlen hst hsk hm hW hs
      (fun y hy => hk y (by simp [hy])) (fun fl hfl => hr fl (by simp [hfl]))

theorem KRun.count {ops₁ : List Op} (hj : J E base ops₁ s) (hE : Trg.Steady E) (hx : GoodPath x) (hlen : 2 ≤ x.length) (hst : E.stat x = some false)
    (hsk : E.opn x ≠ .skip) (hm : (e, f) ∈ kqMeans) (hW : e ⊑ W) (ht : Track x e f W fd s) {calls : List (Call × Bool)} {chgs : List (Path × Event)}
    {sgs : List (Key × EventInfo)} (h : KRun cfg (calm E) s ops calls chgs sgs s')
    (hk : ∀ y ∈ calls, Away x y.1) (hr : ∀ fl, (x, fl) ∈ chgs → Tells e f W fl) (hops : ∀ op ∈ base ++ (ops₁ ++ ops), NoFail c op)
    (hl : ∀ op ∈ ops₁ ++ ops, Leaves P c x op) (hK : copies (regOf P base) c e x = K) (hc : Count K c x e L n sg s) :
    Count K c x e L (n + chgs.countP (about x)) (sg + sgs.countP (isSig c (isEv e x))) s' := by
  induction h with
  | refl => simpa using hc
  | @step ops calls chgs sgs o k r g s1 s2 h1 hs ih =>
    have hops' : ∀ op ∈ base ++ (ops₁ ++ ops), NoFail c op := fun a ha => hops a (by
      simp only [List.mem_append] at ha ⊢; rcases ha with h | h | h; exact .inl h; exact .inr (.inl h); exact .inr (.inr (.inl h)))
    have hl' : ∀ op ∈ ops₁ ++ ops, Leaves P c x op := fun a ha => hl a (by
      simp only [List.mem_append] at ha ⊢; rcases ha with h | h; exact .inl h; exact .inr (.inl h))
    have hk' : ∀ y ∈ calls, Away x y.1 := fun y hy => hk y (by simp [hy])
    have hr' : ∀ fl, (x, fl) ∈ chgs → Tells e f W fl := fun fl hfl => hr fl (by simp [hfl])
    have hj1 := h1.jFrom hj
    have hplain := Trg.Means.plain (N := kqueue) (.inl ⟨rfl, hm⟩)
    have ht1 := h1.track hj hE hx hlen hst hsk hm hW ht hk' hr'
    have ht2 := (h1.step hs).track hj hE hx hlen hst hsk hm hW ht hk hr
    rw [List.countP_append, List.countP_append, ← Nat.add_assoc, ← Nat.add_assoc]
    exact (ih hk' hr' hops' hl').step hj1 (hj1.step hs) hE hx hlen hst hsk hm hW ht1 ht2
      (fun ei hei => (hj1.amid.copies factsP hops' hl' hplain.2.1 hplain.2.2.1 hlen hei).trans hK) hs (fun y hy => hk y (by simp [hy]))
end

/-- **C101 (partial).**  The whole program and the kernel on the BSDs, in any execution from the start: any number of goroutines call Watch and Stop, any
schedule of these, of the goroutines of the tree and of the watcher.  The set of files stays as it is, nothing is renamed or removed, and the OS returns
no errors for what exists.  At some moment (`s`) at which no operation is under way and nothing is on its way, channel `c` is registered for `e` on the
file `x` or on its directory; no non-recursive Watch with `c` has failed.  From then on, as long as there is no Watch or Stop for `c`, and
the operations of other channels do not make the tree call the watcher for `x` or its directory:
* at every moment the kernel is registered to report the flag `f` of `e` for `x`;
* if every change of `x` tells `e` and no other event that is asked for: when nothing is on its way again, `c` was signalled `e` for `x` as often as its
  registrations ask for, times the number of notifications.  That is at least one if there was a change, and never more than there were changes.
Missing: with calls of the watcher for `x` or its directory this is false (`C101_refuted`). -/
theorem C101_bsd_partial {cfg : Sched.Cfg} {E : Env} (hE : Trg.Steady E) {ops₀ : List Op} {calls₀ : List (Call × Bool)} {chgs₀ : List (Path × Event)}
    {sg₀ : List (Key × EventInfo)} {s : KSt} (h0 : KRun cfg (calm E) KSt.init ops₀ calls₀ chgs₀ sg₀ s) (hplan : s.plan = none) (hq : s.Quiet)
    {c : Nat} {x : Path} (hx : GoodPath x) (hlen : 2 ≤ x.length) (hst : E.stat x = some false) (hsk : E.opn x ≠ .skip) {e f : Event}
    (hm : (e, f) ∈ kqMeans) (hreg : wants (regOf P ops₀) c e x = true ∨ wants (regOf P ops₀) c e x.dropLast = true)
    (hfail : ∀ op ∈ ops₀, NoFail c op) {ops : List Op} {calls : List (Call × Bool)} {chgs : List (Path × Event)} {sg : List (Key × EventInfo)} {s' : KSt}
    (h : KRun cfg (calm E) s ops calls chgs sg s') (hl : ∀ op ∈ ops, Leaves P c x op) (hk : ∀ y ∈ calls, Away x y.1) :
    (∃ m, s'.w.nat.get? x = some m ∧ f ⊑ m) ∧
    ((∀ fl, (x, fl) ∈ chgs → f ⊑ fl ∧ ∀ e' f', (e', f') ∈ kqMeans → f' ⊑ fl → e' ⊑ osOf s.log x ||| osOf s.log x.dropLast → e' = e) → s'.Quiet →
      1 ≤ copies (regOf P ops₀) c e x ∧
      ∃ k, sg.countP (Gets c e x) = copies (regOf P ops₀) c e x * k ∧ k ≤ chgs.countP (fun y => decide (y.1 = x)) ∧
        (0 < chgs.countP (fun y => decide (y.1 = x)) → 0 < k)) := by
  have hj : J E ops₀ [] s := (h0.j (J.init E)).rebase hplan
  have hplain := Trg.Means.plain (N := kqueue) (.inl ⟨rfl, hm⟩)
  have hops : ∀ op ∈ ops₀ ++ ops, NoFail c op := by
    intro op hop
    rcases List.mem_append.1 hop with h | h
    · exact hfail op h
    · exact (hl op h).noFail
  have hW' : ∀ {ops : List Op} {s' : KSt}, J E ops₀ ops s' → (∀ op ∈ ops₀ ++ ops, NoFail c op) → (∀ op ∈ ops, Leaves P c x op) → e ⊑ setOf s' x := by
    intro ops s' hj hops hl
    rcases hreg with hreg | hreg
    · exact (hj.amid.backed factsP hops List.prefix_rfl hl hplain.2.1 hreg).trans (Event.sub_or_left _ _)
    · exact (hj.amid.backed factsP hops (List.dropLast_prefix x) hl hplain.2.1 hreg).trans (Event.sub_or_right _ _)
  have hj' := h.j hj
  have hW := hW' hj (by simpa using hfail) (by simp)
  constructor
  · obtain ⟨w, _, _, _, h1⟩ := hj'.entry hE hx hlen hst hsk hm (hW' hj' hops hl)
    exact h1
  · intro htell hq'
    obtain ⟨w, k1, _⟩ := hj.entry hE hx hlen hst hsk hm hW
    have ht : Track x e f (setOf s x) w.fd s :=
      ⟨rfl, ⟨w, k1, rfl⟩, .inl (hq.1 x), fun fd' ge he => by rw [hq.2.1] at he; cases he⟩
    have hc0 : Count (copies (regOf P ops₀) c e x) c x e 0 0 0 s := by
      refine ⟨fun i ei d a hmem => ?_, 0, ?_, ?_, Nat.zero_le _, fun hlt => absurd hlt (by decide)⟩
      · rw [hq.2.2.2.2] at hmem; cases hmem
      · simp [due, hq.2.2.1, hq.2.2.2.1, hq.2.2.2.2]
      · simp [inHand, inPend, hq.2.1, hq.1 x]
    obtain ⟨_, m, h1, h2, _, h3⟩ := h.count hj hE hx hlen hst hsk hm hW ht hk htell hops hl rfl hc0
    rw [Nat.zero_add] at h1 h2 h3
    have hgets : sg.countP (Gets c e x) = sg.countP (isSig c (isEv e x)) := by
      apply List.countP_congr
      intro y _
      simp [Gets, isSig, isEv, Bool.and_assoc]
    refine ⟨?_, m, ?_, ?_, ?_⟩
    · unfold copies
      rcases hreg with hreg | hreg <;> rw [hreg] <;> simp only [if_true] <;> omega
    · rw [hgets]
      simpa [due, hq'.2.2.1, hq'.2.2.2.1, hq'.2.2.2.2] using h1
    · simp only [inHand, inPend, hq'.2.1, hq'.1 x, if_true] at h2
      exact h2
    · simp only [inHand, inPend, hq'.2.1, hq'.1 x, if_true] at h3
      exact h3

/-- **C101 (partial), last change.**  In the situation of `C101_bsd_partial`: after every change of `x`, the channel is signalled again, as often as its
registrations ask for at least, before nothing is on its way. -/
theorem C101_again_partial {cfg : Sched.Cfg} {E : Env} (hE : Trg.Steady E) {ops₀ : List Op} {calls₀ : List (Call × Bool)} {chgs₀ : List (Path × Event)}
    {sg₀ : List (Key × EventInfo)} {s : KSt} (h0 : KRun cfg (calm E) KSt.init ops₀ calls₀ chgs₀ sg₀ s) (hplan : s.plan = none) (hq : s.Quiet)
    {c : Nat} {x : Path} (hx : GoodPath x) (hlen : 2 ≤ x.length) (hst : E.stat x = some false) (hsk : E.opn x ≠ .skip) {e f : Event}
    (hm : (e, f) ∈ kqMeans) (hreg : wants (regOf P ops₀) c e x = true ∨ wants (regOf P ops₀) c e x.dropLast = true)
    (hfail : ∀ op ∈ ops₀, NoFail c op) {ops₁ ops₂ o : List Op} {calls₁ calls₂ k : List (Call × Bool)} {chgs₁ chgs₂ : List (Path × Event)} {fl : Event}
    {sg₁ sg₂ g : List (Key × EventInfo)} {s₁ s₂ s₃ : KSt}
    (h1 : KRun cfg (calm E) s ops₁ calls₁ chgs₁ sg₁ s₁) (h2 : KStep cfg (calm E) s₁ o k [(x, fl)] g s₂)
    (h3 : KRun cfg (calm E) s₂ ops₂ calls₂ chgs₂ sg₂ s₃)
    (hl : ∀ op ∈ ops₁ ++ ops₂, Leaves P c x op) (hk : ∀ y ∈ calls₁ ++ calls₂, Away x y.1)
    (htell : ∀ fl', (x, fl') ∈ chgs₁ ++ (x, fl) :: chgs₂ →
      f ⊑ fl' ∧ ∀ e' f', (e', f') ∈ kqMeans → f' ⊑ fl' → e' ⊑ osOf s.log x ||| osOf s.log x.dropLast → e' = e) (hq' : s₃.Quiet) :
    1 ≤ copies (regOf P ops₀) c e x ∧ copies (regOf P ops₀) c e x ≤ sg₂.countP (Gets c e x) := by
  obtain ⟨rfl, rfl, rfl, hne⟩ : o = [] ∧ k = [] ∧ g = [] ∧ s₂.pend x ≠ 0 := by
    generalize hch : [(x, fl)] = ch at h2
    cases h2 with
    | change p fl' m' hxc hm' hf =>
      cases hch
      refine ⟨rfl, rfl, rfl, ?_⟩
      simp only [if_true]
      intro h0
      apply hf
      rw [Event.bext] at h0 ⊢
      intro i
      have := h0 i
      have hz : BitVec.getLsbD (0 : Event) i = false := by simp
      rw [BitVec.getLsbD_or, hz] at this
      rw [hz]
      exact (Bool.or_eq_false_iff.1 this).2
    | _ => cases hch
  have hj : J E ops₀ [] s := (h0.j (J.init E)).rebase hplan
  have hplain := Trg.Means.plain (N := kqueue) (.inl ⟨rfl, hm⟩)
  have hW : e ⊑ setOf s x := by
    rcases hreg with hreg | hreg
    · exact (hj.amid.backed factsP (by simpa using hfail) List.prefix_rfl (by simp) hplain.2.1 hreg).trans (Event.sub_or_left _ _)
    · exact (hj.amid.backed factsP (by simpa using hfail) (List.dropLast_prefix x) (by simp) hplain.2.1 hreg).trans (Event.sub_or_right _ _)
  obtain ⟨w, k1, _⟩ := hj.entry hE hx hlen hst hsk hm hW
  have ht : Track x e f (setOf s x) w.fd s :=
    ⟨rfl, ⟨w, k1, rfl⟩, .inl (hq.1 x), fun fd' ge he => by rw [hq.2.1] at he; cases he⟩
  have hc0 : Count (copies (regOf P ops₀) c e x) c x e 0 0 0 s := by
    refine ⟨fun i ei d a hmem => ?_, 0, ?_, ?_, Nat.zero_le _, fun hlt => absurd hlt (by decide)⟩
    · rw [hq.2.2.2.2] at hmem; cases hmem
    · simp [due, hq.2.2.1, hq.2.2.2.1, hq.2.2.2.2]
    · simp [inHand, inPend, hq.2.1, hq.1 x]
  have hops : ∀ op ∈ ops₀ ++ (ops₁ ++ ops₂), NoFail c op := by
    intro op hop
    rcases List.mem_append.1 hop with h | h
    · exact hfail op h
    · exact (hl op h).noFail
  have hops1 : ∀ op ∈ ops₀ ++ ([] ++ ops₁), NoFail c op := fun a ha => hops a (by
    simp only [List.mem_append, List.not_mem_nil, false_or] at ha ⊢; rcases ha with h | h; exact .inl h; exact .inr (.inl h))
  have hl1 : ∀ op ∈ [] ++ ops₁, Leaves P c x op := fun a ha => hl a (by simp at ha; simp [ha])
  have hk1 : ∀ y ∈ calls₁, Away x y.1 := fun y hy => hk y (by simp [hy])
  have hr1 : ∀ fl', (x, fl') ∈ chgs₁ → Tells e f (setOf s x) fl' := fun fl' h => htell fl' (by simp [h])
  have hr2 : ∀ fl', (x, fl') ∈ chgs₂ → Tells e f (setOf s x) fl' := fun fl' h => htell fl' (by simp [h])
  have hj1 := h1.jFrom hj
  have ht1 := h1.track hj hE hx hlen hst hsk hm hW ht hk1 hr1
  have hc1 := h1.count hj hE hx hlen hst hsk hm hW ht hk1 hr1 hops1 hl1 rfl hc0
  have hj2 := hj1.step h2
  rw [List.append_nil] at hj2
  have ht2 := ht1.step hj1 hE hx hlen hst hsk hm hW h2 (by simp) (fun fl' h => htell fl' (by simp at h; simp [h]))
  have hc2 := hc1.step hj1 (hj1.step h2) hE hx hlen hst hsk hm hW ht1 ht2 (fun ei hei => hj1.amid.copies factsP hops1 hl1 hplain.2.1 hplain.2.2.1 hlen hei) h2 (by simp)
  obtain ⟨hf2, m, g1, g2, g3, _⟩ := hc2
  have hp2 : inPend x s₂ = 1 := by
    unfold inPend
    rw [if_neg hne]
  have hc3 := h3.count (L := m + inHand x s₂ + inPend x s₂) hj2 hE hx hlen hst hsk hm hW ht2 (fun y hy => hk y (by simp [hy])) hr2 hops hl rfl
    ⟨hf2, m, g1, g2, Nat.le_refl _, fun _ => by omega⟩
  obtain ⟨_, m', i1, _, i3, _⟩ := hc3
  have hgets : sg₂.countP (Gets c e x) = sg₂.countP (isSig c (isEv e x)) := by
    apply List.countP_congr
    intro y _
    simp [Gets, isSig, isEv, Bool.and_assoc]
  rw [hgets]
  have hone : 1 ≤ copies (regOf P ops₀) c e x := by
    unfold copies
    rcases hreg with hreg | hreg <;> rw [hreg] <;> simp only [if_true] <;> omega
  refine ⟨hone, ?_⟩
  simp only [inHand, inPend, hq'.2.1, hq'.1 x, if_true] at i3
  simp only [due, hq'.2.2.1, hq'.2.2.2.1, hq'.2.2.2.2, List.map_nil, List.sum_nil, List.countP_nil, Nat.mul_zero, Nat.add_zero, Nat.zero_add] at i1
  have hmm : m + 1 ≤ m' := by
    unfold inPend at hp2
    omega
  have := Nat.mul_le_mul_left (copies (regOf P ops₀) c e x) hmm
  rw [Nat.mul_add, Nat.mul_one] at this
  generalize copies (regOf P ops₀) c e x * m' = a at *
  generalize copies (regOf P ops₀) c e x * m = b at *
  omega

/-- Every execution of the whole program is, without the watcher, an execution of `Sched` with the same signals, so all that is proved of these (C05, C30, C46)
holds of the whole program. -/
theorem C101_parts {cfg : Sched.Cfg} {X : Outside} {ops calls chgs sg} {s : KSt} (h : KRun cfg X KSt.init ops calls chgs sg s) :
    ∃ t, Sched.Exec Y cfg t s.sys ∧ Linux.signals t = sg := by
  suffices h' : (∃ t, Sched.Exec Y cfg t s.sys ∧ Linux.signals t = sg) ∧ s.sys.os = [] ∧ ∀ r t, s.plan = some (r, t) → Y.step s.sys.tree r t from h'.1
  have sig1 : ∀ t l, Linux.signals (t ++ [l]) = Linux.signals t ++ sigs l := by intro t l; simp [Linux.signals]
  induction h with
  | refl => exact ⟨⟨[], .nil, rfl⟩, rfl, by intro r t h; cases h⟩
  | step _ hs ih =>
    obtain ⟨⟨t, h1, h2⟩, h3, h4⟩ := ih
    cases hs with
    | go l sys' htr hfree =>
      refine ⟨⟨t ++ [l], h1.snoc htr, by rw [sig1, h2]⟩, ?_, ?_⟩
      · exact (Plain.free_os (P := P) htr hfree).trans h3
      · intro r t' hp
        simp only [free_tree (P := P) htr hfree]
        exact h4 r t' hp
    | send ei l ho hc hok =>
      refine ⟨⟨t ++ [.report [ei]] ++ [.push ei], ?_, ?_⟩, h3, h4⟩
      · have h6 := (h1.snoc (.report [ei] (by simpa using hok) h3)).snoc (.push ei [] rfl hc)
        simp only [h3] at h6 ⊢
        exact h6
      · rw [sig1, sig1, h2]; simp [sigs]
    | plan r ops' t' new hr hp ht hn =>
      exact ⟨⟨t, h1, by simpa using h2⟩, h3, by rintro r t ⟨⟩; exact Plain.plans_step (P := P) ht⟩
    | effect i r a b t' hcalls hp ht =>
      refine ⟨⟨t ++ [.effect i r], h1.snoc (.effect i r a b t' hcalls (h4 _ _ hp) fun _ => h3), by rw [sig1, h2]; rfl⟩, h3, ?_⟩
      intro r t h; cases h
    | intEffect ei t' hi hp ht =>
      refine ⟨⟨t ++ [.intEffect (.internal ei)], h1.snoc (.intEffect ei t' hi (h4 _ _ hp) fun _ => h3), by rw [sig1, h2]; rfl⟩, h3, ?_⟩
      intro r t h; cases h
    | change p fl m hx hm hf => exact ⟨⟨t, h1, by simpa using h2⟩, h3, h4⟩
    | wait p w hh ho hp hw => exact ⟨⟨t, h1, by simpa using h2⟩, h3, h4⟩
    | process E fd p ge hx hh => exact ⟨⟨t, h1, by simpa using h2⟩, h3, h4⟩
    | call E c ok rest w' hx ht hs => exact ⟨⟨t, h1, by simpa using h2⟩, h3, h4⟩

/-! ### Nothing is left -/

/-- **C102 (partial).**  In any execution of the whole program as in C101, at a moment at which no operation is under way: if each channel that was passed to
Watch was stopped since, nothing is in the watcher's table and nothing is registered with the kernel, except files that are open with empty sets, for which the
kernel was asked to report nothing.  Missing: such files are left open (`C102_refuted`). -/
theorem C102_left_partial {cfg : Sched.Cfg} {E : Env} (hE : Trg.Steady E) {ops calls chgs sg} {s : KSt}
    (h : KRun cfg (calm E) KSt.init ops calls chgs sg s) (hplan : s.plan = none) (hstop : ∀ c, ¬ NonRec.Pending c ops) (q : Path) :
    (s.w.lkp.get? q = none ∧ s.w.nat.get? q = none) ∨
      ∃ w, s.w.lkp.get? q = some w ∧ w.all = 0 ∧ s.w.nat.get? q = some 0 ∧ E.stat q = some w.isDir := by
  have hj := h.j (J.init E)
  have ha := hj.amid
  rw [hplan] at ha
  obtain ⟨h1, h2, _⟩ := ha.idle
  have h3 := NonRec.C13_all_stopped factsP h1 hstop
  have hz : ∀ q, Spec.Trg.want E.stat (Trg.skips E) (osOf s.log) q = none := by
    intro q
    have h0 : ∀ p, osOf s.log p = 0 := fun p => by rw [h2]; exact (h3 p).1
    unfold Spec.Trg.want Spec.Trg.indirect
    split
    · rfl
    · rw [if_pos]
      right
      rw [h0]
      split
      · decide
      · rw [h0]; decide
  rcases Trg.C66_any_partial hE (hj.drives.runs hE (hj.amid.valid factsP)) q with h4 | ⟨_, d, h5, h6, h7⟩
  · left
    rw [hz] at h4
    exact ⟨Trg.look_none h4.1, h4.2⟩
  · right
    obtain ⟨w, k1, k2, k3, k4⟩ := Trg.look_some h6
    refine ⟨w, k1, ?_, ?_, by rw [k2]; exact h5⟩
    · unfold Trg.W.all
      rw [k3, k4]
      show (0 : Event) ||| 0 = 0
      decide
    · rw [h7]
      cases d <;> rfl

/-! ### The premises can be met -/

namespace Ex
open Trg.Ex (E7 kd ke kf steady7)

def d : Path := [kd]
def e : Path := [kd, ke]
def x : Path := [kd, ke, kf]
def cfg : Sched.Cfg := ⟨2, 2, true, false⟩
def Wr : Event := P.write
def Re : Event := P.remove
def req1 : Sched.Req := .watch e false 1 Wr
def op1 : Op := .watch e false 1 Wr true
def t1 : St := (NonRec.watchOp P .ok (.dir .nil) NonRec.init e false 1 Wr).1

theorem goodE : GoodPath e := by simp [e, GoodPath, kd, ke]
theorem goodD : GoodPath d := by simp [d, GoodPath, kd]
theorem goodX : GoodPath x := by simp [x, GoodPath, kd, ke, kf]
theorem uW : NonRec.UserEvents P Wr := by unfold NonRec.UserEvents; decide
theorem uR : NonRec.UserEvents P Re := by unfold NonRec.UserEvents; decide

theorem step1 : NonRec.Step P true NonRec.init op1 t1 :=
  NonRec.Step.watch (O := .ok) goodE uW (by simp [DirTree.Named, Entries.Named]) (fun _ _ => rfl)

/-- The watcher watches `/d/e` for Write. -/
def w1 : Trg.St := (Trg.Watch kqueue E7 {} e Wr).1

/-- Channel 1 watches `/d/e` for Write; the call has returned. -/
def s1 : KSt :=
  { sys := { Sched.State.init Y with tree := t1, next := 1 }, w := w1, pend := live w1 (fun _ => 0), log := [(.watch e Wr, true)] }

theorem run1 : KRun cfg (calm E7) KSt.init [op1] [(.watch e Wr, true)] [] [] s1 := by
  have h := KRun.refl (cfg := cfg) (X := calm E7) (s := KSt.init)
  have h := h.step (.go _ _ (.call (Y := Y) req1 (show GoodPath e ∧ NonRec.UserEvents P Wr from ⟨goodE, uW⟩) trivial) trivial)
  have h := h.step (.go _ _ (.lock 0 req1 [] [] rfl (by rintro ⟨_, _, _, _, h⟩; cases h)
    (by rintro ⟨_, _, h | h⟩ <;> cases h <;> contradiction) (by rintro ⟨_, h | h⟩ <;> cases h)) trivial)
  have h := h.step (.plan req1 [op1] t1 [(.watch e Wr, true)] (.inl ⟨0, .head _⟩) rfl ⟨NonRec.Steps.nil.snoc step1, op1, ⟨_, rfl⟩, .inl rfl⟩ rfl)
  have h := h.step (.call E7 (.watch e Wr) true [] w1 rfl rfl (.watch e Wr (by decide)))
  have h := h.step (.effect 0 req1 [] [] t1 rfl rfl rfl)
  have h := h.step (.go _ _ (.unlock 0 req1 [] [] rfl) trivial)
  have h := h.step (.go _ _ (.ret 0 req1 [] [] rfl) trivial)
  exact h

def req2 : Sched.Req := .watch d false 2 Re
def op2 : Op := .watch d false 2 Re true
def t2 : St := (NonRec.watchOp P .ok (.dir .nil) t1 d false 2 Re).1
theorem step2 : NonRec.Step P true t1 op2 t2 :=
  NonRec.Step.watch (O := .ok) goodD uR (by simp [DirTree.Named, Entries.Named]) (fun _ _ => rfl)
def w2 : Trg.St := (Trg.Watch kqueue E7 w1 d Re).1
def ei : EventInfo := { event := Wr, path := x }

theorem quiet1 : s1.Quiet := by
  refine ⟨fun q => ?_, rfl, rfl, rfl, rfl⟩
  simp only [s1, live]
  split <;> rfl

theorem begins {X : Outside} {s : KSt} {sg} {Q : KSt → Prop} (k : KRun cfg X s [] [] [] [] s → ∃ s', KRun cfg X s [] [] [] sg s' ∧ Q s') :
    ∃ s', KRun cfg X s [] [] [] sg s' ∧ Q s' := k .refl

/-- `/d/e/f` is written, channel 2 watches `/d` for Remove, and the file is written again before the first notification is retrieved. -/
theorem run2parts : ∃ s₁ s₂ s', KRun cfg (calm E7) s1 [op2] [(.watch d Re, true)] [(x, 0x2)] [] s₁ ∧ KStep cfg (calm E7) s₁ [] [] [(x, 0x2)] [] s₂ ∧
    KRun cfg (calm E7) s₂ [] [] [] [(.user 1, ei)] s' ∧ s'.Quiet := by
  have h := KRun.refl (cfg := cfg) (X := calm E7) (s := s1)
  have h := h.step (.change x 0x2 0x2 (by unfold calm; decide) (by decide) (by decide))
  have h := h.step (.go _ _ (.call (Y := Y) req2 (show GoodPath d ∧ NonRec.UserEvents P Re from ⟨goodD, uR⟩) trivial) trivial)
  have h := h.step (.go _ _ (.lock 1 req2 [] [] rfl (by rintro ⟨_, _, _, _, h⟩; cases h)
    (by rintro ⟨_, _, h | h⟩ <;> cases h <;> contradiction) (by rintro ⟨_, h | h⟩ <;> cases h)) trivial)
  have h := h.step (.plan req2 [op2] t2 [(.watch d Re, true)] (.inl ⟨1, .head _⟩) rfl ⟨NonRec.Steps.nil.snoc step2, op2, ⟨_, rfl⟩, .inl rfl⟩ rfl)
  have h := h.step (.call E7 (.watch d Re) true [] w2 rfl rfl (.watch d Re (by decide)))
  refine ⟨_, _, Exists.imp (fun s' hh => ⟨h, .change x 0x2 0x2 (by unfold calm; decide) (by decide) (by decide), hh⟩) (begins fun h => ?_)⟩
  have h := h.step (.wait x ⟨1, false, 0, Wr⟩ rfl rfl (by decide) (by decide))
  have h := h.step (.effect 1 req2 [] [] t2 rfl rfl rfl)
  have h := h.step (.go _ _ (.unlock 1 req2 [] [] rfl) trivial)
  have h := h.step (.process E7 1 x 0x2 rfl (by decide))
  have h := h.step (.send ei [] (by decide) (by decide) goodX)
  have h := h.step (.go _ _ (.spawn ei [] rfl) trivial)
  have h := h.step (.go _ _ (.rlock 2 ei [] [] rfl (by rintro ⟨_, _, h | h⟩ <;> cases h <;> contradiction)
    (by rintro ⟨_, h | h⟩ <;> cases h)
    (by rintro _ (⟨_, _, h⟩ | ⟨_, h⟩) <;> cases h <;> contradiction)) trivial)
  have h := h.step (.go _ _ (.pick 2 ei [] (.user 1) [] [] rfl (by decide)) trivial)
  have h := h.step (.go _ _ (.send 2 ei [] (.user 1) [] [] rfl) trivial)
  have hs : NonRec.sends P t2.root ei = [.user 1] := by decide
  have h := h.step (.go _ _ (.fin 2 ei [.user 1] [] [] rfl (by intro k; exact Nat.le_of_eq (congrArg (List.count k) hs)) (by decide)) trivial)
  refine ⟨_, h, fun q => ?_, rfl, rfl, rfl, rfl⟩
  by_cases hq : q = x
  · subst hq; rfl
  · simp only [live, hq, if_false, s1]
    split <;> simp

theorem run2 : ∃ s', KRun cfg (calm E7) s1 [op2] [(.watch d Re, true)] [(x, 0x2), (x, 0x2)] [(.user 1, ei)] s' ∧ s'.Quiet := by
  obtain ⟨_, _, s', h1, h2, h3, h4⟩ := run2parts
  exact ⟨s', (h1.step h2).trans h3, h4⟩

/-- After the second change there is a signal. -/
example : ∃ s₁ s₂ s', KRun cfg (calm E7) s1 [op2] [(.watch d Re, true)] [(x, 0x2)] [] s₁ ∧ KStep cfg (calm E7) s₁ [] [] [(x, 0x2)] [] s₂ ∧
    KRun cfg (calm E7) s₂ [] [] [] [(.user 1, ei)] s' ∧ copies (regOf P [op1]) 1 Wr x ≤ [(Key.user 1, ei)].countP (Gets 1 Wr x) := by
  obtain ⟨s₁, s₂, s', h1, h2, h3, h4⟩ := run2parts
  refine ⟨s₁, s₂, s', h1, h2, h3, (C101_again_partial steady7 run1 rfl quiet1 (c := 1) (x := x) goodX (by decide) rfl (by decide) (e := Wr) (f := 0x2)
    (by decide) (.inr (by decide)) (by simp [op1, NoFail]) h1 h2 h3 (by simp [op2, Leaves]) (by simp [Away]; decide) ?_ h4).2⟩
  intro fl hfl
  obtain rfl : fl = 0x2 := by simpa using hfl
  refine ⟨by decide, fun e' f' h1 h2 h3 => ?_⟩
  have : ∀ y ∈ kqMeans, y.2 ⊑ (0x2 : Event) → y.1 ⊑ osOf s1.log x ||| osOf s1.log x.dropLast → y.1 = Wr := by decide
  exact this _ h1 h2 h3

/-- The theorem gives one or two signals; here it was one. -/
example : ∃ s' k, KRun cfg (calm E7) s1 [op2] [(.watch d Re, true)] [(x, 0x2), (x, 0x2)] [(.user 1, ei)] s' ∧
    [(Key.user 1, ei)].countP (Gets 1 Wr x) = copies (regOf P [op1]) 1 Wr x * k ∧ k ≤ 2 ∧ 0 < k := by
  obtain ⟨s', h, hq⟩ := run2
  have h1 := (C101_bsd_partial steady7 run1 rfl quiet1 (c := 1) (x := x) goodX (by decide) rfl (by decide) (e := Wr) (f := 0x2) (by decide) (.inr (by decide))
    (by simp [op1, NoFail]) h (by simp [op2, Leaves]) (by simp [Away]; decide)).2 ?_ hq
  · obtain ⟨_, k, h2, h3, h4⟩ := h1
    exact ⟨s', k, h, h2, h3, h4 (by decide)⟩
  · intro fl hfl
    obtain rfl : fl = 0x2 := by simpa using hfl
    refine ⟨by decide, fun e' f' h1 h2 h3 => ?_⟩
    have : ∀ y ∈ kqMeans, y.2 ⊑ (0x2 : Event) → y.1 ⊑ osOf s1.log x ||| osOf s1.log x.dropLast → y.1 = Wr := by decide
    exact this _ h1 h2 h3
end Ex

/-! ### C101 is false if others extend the watch -/

namespace LostEx
open Ex
open Trg.Ex (E7 kd ke kf steady7)

def req3 : Sched.Req := .watch e false 2 Re
def op3 : Op := .watch e false 2 Re true
def t3 : St := (NonRec.watchOp P .ok (.dir .nil) t1 e false 2 Re).1
theorem step3 : NonRec.Step P true t1 op3 t3 :=
  NonRec.Step.watch (O := .ok) goodE uR (by simp [DirTree.Named, Entries.Named]) (fun _ _ => rfl)
def w3 : Trg.St := (Trg.Rewatch kqueue E7 w1 e (Wr ||| Re)).1

theorem run3 : ∃ s', KRun cfg (calm E7) s1 [op3] [(.rewatch e Wr (Wr ||| Re), true)] [(x, 0x2)] [] s' ∧ s'.plan = none ∧ s'.Quiet := by
  have h := KRun.refl (cfg := cfg) (X := calm E7) (s := s1)
  have h := h.step (.change x 0x2 0x2 (by unfold calm; decide) (by decide) (by decide))
  have h := h.step (.go _ _ (.call (Y := Y) req3 (show GoodPath e ∧ NonRec.UserEvents P Re from ⟨goodE, uR⟩) trivial) trivial)
  have h := h.step (.go _ _ (.lock 1 req3 [] [] rfl (by rintro ⟨_, _, _, _, h⟩; cases h)
    (by rintro ⟨_, _, h | h⟩ <;> cases h <;> contradiction) (by rintro ⟨_, h | h⟩ <;> cases h)) trivial)
  have h := h.step (.plan req3 [op3] t3 [(.rewatch e Wr (Wr ||| Re), true)] (.inl ⟨1, .head _⟩) rfl
    ⟨NonRec.Steps.nil.snoc step3, op3, ⟨_, rfl⟩, .inl rfl⟩ rfl)
  have h := h.step (.call E7 (.rewatch e Wr (Wr ||| Re)) true [] w3 rfl rfl (.rewatch e Wr (Wr ||| Re) (by decide)))
  have h := h.step (.effect 1 req3 [] [] t3 rfl rfl rfl)
  have h := h.step (.go _ _ (.unlock 1 req3 [] [] rfl) trivial)
  have h := h.step (.go _ _ (.ret 1 req3 [] [] rfl) trivial)
  refine ⟨_, h, rfl, fun q => ?_, rfl, rfl, rfl, rfl⟩
  by_cases hq : q = x
  · subst hq; rfl
  · simp only [live, hq, if_false, s1]
    simp
end LostEx

/-- **C101 is false of the code if others extend the watch**: channel 1 is registered for Write on `/d/e`.  The file `/d/e/f` is written, which the kernel is to
report; before the notification is retrieved, channel 2 is registered for Remove on `/d/e`.  For this the watcher closes the descriptor of the file and opens
it again.  Nothing is on its way any more, and channel 1, still registered, was not signalled; nor is there anything else the kernel will report. -/
theorem C101_refuted : ∃ (E : Env) (ops₀ ops : List Op) (calls₀ calls : List (Call × Bool)) (s s' : KSt) (x : Path),
    Trg.Steady E ∧ KRun ⟨2, 2, true, false⟩ (calm E) KSt.init ops₀ calls₀ [] [] s ∧ s.plan = none ∧ s.Quiet ∧
    wants (regOf P ops₀) 1 P.write x.dropLast = true ∧ (P.write, 0x2) ∈ kqMeans ∧ osOf s.log x ||| osOf s.log x.dropLast = P.write ∧
    KRun ⟨2, 2, true, false⟩ (calm E) s ops calls [(x, 0x2)] [] s' ∧ (∀ op ∈ ops, Leaves P 1 x op) ∧
    wants (regOf P (ops₀ ++ ops)) 1 P.write x.dropLast = true ∧ s'.plan = none ∧ s'.Quiet := by
  obtain ⟨s', h1, h2, h3⟩ := LostEx.run3
  exact ⟨Trg.Ex.E7, [Ex.op1], [LostEx.op3], _, _, Ex.s1, s', Ex.x, Trg.Ex.steady7, Ex.run1, rfl, Ex.quiet1, by decide, by decide, by decide, h1,
    by simp [LostEx.op3, Leaves], by decide, h2, h3⟩

/-! ### C102 is false -/

namespace OpenEx
open Ex
open Trg.Ex (E7 kd ke kf steady7)

def req4 : Sched.Req := .watch d false 1 Wr
def op4 : Op := .watch d false 1 Wr true
def t4 : St := (NonRec.watchOp P .ok (.dir .nil) NonRec.init d false 1 Wr).1
theorem step4 : NonRec.Step P true NonRec.init op4 t4 :=
  NonRec.Step.watch (O := .ok) goodD uW (by simp [DirTree.Named, Entries.Named]) (fun _ _ => rfl)
theorem step5 : NonRec.Step P true t4 (.stop 1) (NonRec.stop P .ok t4 1) := NonRec.Step.stop (fun _ => rfl)
def w4 : Trg.St := (Trg.Watch kqueue E7 {} d Wr).1
def w5 : Trg.St := (Trg.process kqueue E7 w4 e 0x2).1
def w6 : Trg.St := (Trg.Unwatch kqueue E7 w5 d).1

/-- `/d` is watched, something changes in `/d/e`, the channel is stopped. -/
theorem run4 : ∃ calls chgs s', KRun cfg (calm E7) KSt.init [op4, .stop 1] calls chgs [] s' ∧ s'.plan = none ∧ s'.Quiet ∧ s'.w = w6 := by
  have h := KRun.refl (cfg := cfg) (X := calm E7) (s := KSt.init)
  have h := h.step (.go _ _ (.call (Y := Y) req4 (show GoodPath d ∧ NonRec.UserEvents P Wr from ⟨goodD, uW⟩) trivial) trivial)
  have h := h.step (.go _ _ (.lock 0 req4 [] [] rfl (by rintro ⟨_, _, _, _, h⟩; cases h)
    (by rintro ⟨_, _, h | h⟩ <;> cases h <;> contradiction) (by rintro ⟨_, h | h⟩ <;> cases h)) trivial)
  have h := h.step (.plan req4 [op4] t4 [(.watch d Wr, true)] (.inl ⟨0, .head _⟩) rfl ⟨NonRec.Steps.nil.snoc step4, op4, ⟨_, rfl⟩, .inl rfl⟩ rfl)
  have h := h.step (.call E7 (.watch d Wr) true [] w4 rfl rfl (.watch d Wr (by decide)))
  have h := h.step (.effect 0 req4 [] [] t4 rfl rfl rfl)
  have h := h.step (.go _ _ (.unlock 0 req4 [] [] rfl) trivial)
  have h := h.step (.go _ _ (.ret 0 req4 [] [] rfl) trivial)
  have h := h.step (.change e 0x2 0x2 (by unfold calm; decide) (by decide) (by decide))
  have h := h.step (.wait e ⟨1, true, 0, Wr⟩ rfl rfl (by decide) (by decide))
  have h := h.step (.process E7 1 e 0x2 rfl (by decide))
  have h := h.step (.go _ _ (.call (Y := Y) (Sched.Req.stop 1) trivial trivial) trivial)
  have h := h.step (.go _ _ (.lock (Y := Y) 1 (Sched.Req.stop 1) [] [] rfl (by rintro ⟨_, _, _, _, h⟩; cases h)
    (by rintro ⟨_, _, h | h⟩ <;> cases h <;> contradiction) (by rintro ⟨_, h | h⟩ <;> cases h)) trivial)
  have h := h.step (.plan (.stop 1) [.stop 1] (NonRec.stop P .ok t4 1) [(.unwatch d, true)] (.inl ⟨1, .head _⟩) rfl
    ⟨NonRec.Steps.nil.snoc step5, .stop 1, rfl, .inl rfl⟩ rfl)
  have h := h.step (.call E7 (.unwatch d) true [] w6 rfl rfl (.unwatch d (by decide)))
  have h := h.step (.effect 1 (.stop 1) [] [] _ rfl rfl rfl)
  have h := h.step (.go _ _ (.unlock (Y := Y) 1 (Sched.Req.stop 1) [] [] rfl) trivial)
  have h := h.step (.go _ _ (.ret (Y := Y) 1 (Sched.Req.stop 1) [] [] rfl) trivial)
  refine ⟨_, _, _, h, rfl, ⟨fun q => ?_, rfl, by decide, rfl, rfl⟩, rfl⟩
  by_cases hq : q = e
  · subst hq; rfl
  · simp only [live, hq, if_false]
    simp [KSt.init]

theorem stopped : ∀ c, ¬ NonRec.Pending c [op4, .stop 1] := by
  rintro c ⟨a, b, p, r, e, res, h, hn⟩
  rcases a with _ | ⟨a1, _ | ⟨a2, a⟩⟩ <;> simp [op4] at h
  obtain ⟨⟨_, _, rfl, _⟩, rfl⟩ := h
  simp at hn

/-- The premises of `C102_left_partial`. -/
example : ∃ s' : KSt, s'.w = w6 ∧ ∀ q, (s'.w.lkp.get? q = none ∧ s'.w.nat.get? q = none) ∨
      ∃ w, s'.w.lkp.get? q = some w ∧ w.all = 0 ∧ s'.w.nat.get? q = some 0 ∧ E7.stat q = some w.isDir := by
  obtain ⟨_, _, s', h1, h2, _, h3⟩ := run4
  exact ⟨s', h3, C102_left_partial steady7 h1 h2 stopped⟩
end OpenEx

/-- **C102 is false of the code**: after the only channel was stopped, a file is still open and registered. -/
theorem C102_refuted : ∃ (E : Env) (ops : List Op) (calls : List (Call × Bool)) (chgs : List (Path × Event)) (s : KSt) (q : Path),
    Trg.Steady E ∧ KRun ⟨2, 2, true, false⟩ (calm E) KSt.init ops calls chgs [] s ∧ s.plan = none ∧ s.Quiet ∧ (∀ c, ¬ NonRec.Pending c ops) ∧
    (s.w.lkp.get? q).isSome = true ∧ (s.w.nat.get? q).isSome = true := by
  obtain ⟨calls, chgs, s', h1, h2, h3, h4⟩ := OpenEx.run4
  exact ⟨Trg.Ex.E7, _, calls, chgs, s', Ex.x, Trg.Ex.steady7, h1, h2, h3, OpenEx.stopped, by rw [h4]; decide, by rw [h4]; decide⟩

end Bsd
end Verif
