/-
Stop never asks the OS watcher for more events (C130).
-/
import Verif.PropsNear2

namespace Verif

/-- The call takes events away: it removes a watch, or leaves it where it is with a part of its events. -/
def Call.Narrows : Call → Prop
  | .unwatch _ | .recUnwatch _ => True
  | .rewatch _ o n => n ⊑ o
  | .recRewatch p p' o n => p = p' ∧ n ⊑ o
  | .watch _ _ | .recWatch _ _ => False

/-- From `a` to `b` there are only calls in `B`. -/
def Each (B : Call → Prop) (a b : Log) : Prop := ∃ d, b = d ++ a ∧ ∀ x ∈ d, B x.1

namespace Each
variable {B : Call → Prop} {a b c : Log}

theorem refl (B : Call → Prop) (a : Log) : Each B a a := ⟨[], rfl, by simp⟩

theorem one {x : Call × Bool} (hx : B x.1) : Each B a (x :: a) := ⟨[x], rfl, by simpa using hx⟩

theorem trans (h : Each B a b) (h' : Each B b c) : Each B a c := by
  obtain ⟨d, rfl, h1⟩ := h
  obtain ⟨d', rfl, h2⟩ := h'
  exact ⟨d' ++ d, by simp, List.forall_mem_append.2 ⟨h2, h1⟩⟩

end Each

namespace Rec
open GoMap NonRec

variable {P : Platform}

theorem gone_narrow {w : WP} (h : RW P w) (c : Nat) : (w.del P (.user c) allEvents).1.total P ⊑ w.total P := by
  intro i hi
  rw [total_bit (WP.inv_del h.nodup (by simp) _)] at hi
  obtain ⟨h1, k, v, hk, hv, hb⟩ := hi
  rw [WP.total, Event.bit_andNot, h1]
  have hg := (h.del c allEvents)
  cases k with
  | nil => exact absurd rfl hk
  | recCh => rw [hg.norec] at hv; simp at hv
  | user d =>
    rw [show (w.del P (.user c) allEvents).1 = gone P w c from rfl, get_gone] at hv
    split at hv
    · simp at hv
    · simpa using (h.user d v hv).2 i hb

theorem diffOf_narrow {a b : Event} (h : b ⊑ a) : (diffOf a b).2 ⊑ (diffOf a b).1 := by
  unfold diffOf
  split
  · exact fun i hi => hi
  · exact h

theorem watchDel_narrow {nd : Node} (hw : RW P nd.watch) (hi : RW P (inact nd)) (c : Nat) :
    (watchDel P nd (.user c) allEvents).2.2 ⊑ (watchDel P nd (.user c) allEvents).2.1 := by
  have h1 := diffOf_narrow (gone_narrow hw c)
  have h2 := diffOf_narrow (gone_narrow hi c)
  rw [← del_diffOf P _ (by simp)] at h1 h2
  unfold watchDel
  simp only
  split
  · unfold orDiff
    split
    · exact fun i hi => hi
    · dsimp only
      generalize ((inact nd).del P (.user c) allEvents).1.total P = t
      revert h1 h2
      generalize (nd.watch.del P (.user c) allEvents).2 = x
      generalize ((inact nd).del P (.user c) allEvents).2 = y
      intro h1 h2
      ebits
  · exact h1

theorem stopCall_narrow (nd : Node) {d : Diff} (h : d.2 ⊑ d.1) : (stopCall P nd d).Narrows := by
  unfold stopCall
  split <;> split <;> simp [Call.Narrows, h]

mutual
theorem stopWalk_narrow (O : Oracle) {c : Nat} {n : Path} : (nd : Node) → (s : World) → nd.OK (RW P) (inR (RW P)) n →
    Each Call.Narrows s.log (nd.stopWalk P O c s).1.log
  | .mk n' w ch, s, h => by
    have hi := inact_Q h (RW.nil P)
    simp only [Node.stopWalk]
    split
    · exact stopWalkF_narrow O ch s h.child
    · split
      · exact Each.refl _ _
      · exact Each.one (stopCall_narrow _ (watchDel_narrow h.watch hi c))
theorem stopWalkF_narrow (O : Oracle) {c : Nat} {n : Path} : (f : Forest) → (s : World) → f.OK (RW P) (inR (RW P)) n →
    Each Call.Narrows s.log (f.stopWalk P O c s).1.log
  | .nil, s, _ => Each.refl _ _
  | .cons b nd rest, s, h => by
    simp only [Forest.OK] at h
    simp only [Forest.stopWalk]
    refine Each.trans ?_ (stopWalkF_narrow O rest _ h.2.2.2)
    split
    · exact Each.refl _ _
    · next hb => exact stopWalk_narrow O nd s (h.2.2.1 hb)
end

/-- **C130, native recursion.**  After any history, whatever failed in it and whatever the OS answers now: every call that Stop makes removes
a watch, or asks for a part of the events of a watch and leaves it where it is. -/
theorem C130_native (hP : P.Facts) {rel : Bool} {ops : List ROp} {s : St} (h : RHist P rel ops s) (O : Oracle) (c : Nat) :
    Each Call.Narrows s.world.log (stop P O s c).world.log :=
  stopWalk_narrow O s.root s.world (RHist.rok hP h)

/-- Non-trivial case: Stop(2) makes a call, and so does Stop of a channel after a Watch that failed. -/
example : RHist Ex.F true Ex.ops2 Ex.s2 ∧ (stop Ex.F .ok Ex.s2 2).world.log.length = Ex.s2.world.log.length + 1 ∧
    (∃ ops, RHist Ex.F true ops Ex.f2) ∧ (stop Ex.F .ok Ex.f2 9).world.log.length = Ex.f2.world.log.length + 1 :=
  ⟨Ex.hist2, by decide, ⟨_, Ex.fhist1.snoc Ex.fstep2⟩, by decide⟩

end Rec

namespace NonRec
variable {P : Platform}

theorem stopFunc_narrow (O : Oracle) {c : Nat} {A : Path → Prop} {s : World} {pw w : WP} {n : Path} (hw : NR P w)
    (ha : w.get? .recCh ≠ none → A n) : Each (fun x => x.Narrows ∨ ∃ q ∈ x.paths, A q) s.log (stopFunc P O c s pw n w).1.log := by
  unfold stopFunc
  split
  · dsimp only
    split
    · exact Each.refl _ _
    · split
      · exact Each.one (.inl trivial)
      · refine Each.one ?_
        cases hr : w.get? .recCh with
        | some v => exact .inr ⟨n, by simp [Call.paths], ha (by rw [hr]; simp)⟩
        | none =>
          left
          show (watchDelMin P (pw.val .recCh) w (.user c) allEvents).2.2 ⊑ (watchDelMin P (pw.val .recCh) w (.user c) allEvents).2.1
          unfold watchDelMin
          rw [hr]
          dsimp only
          rw [del_diffOf P w (by simp)]
          refine Rec.diffOf_narrow fun i hi => ?_
          rw [total_bit (WP.inv_del hw.inv.nodup (by simp) _)] at hi
          obtain ⟨h1, k, v, hk, hv, hb⟩ := hi
          rw [WP.get?_del_ne_nil P w (by simp) _ hk] at hv
          rw [total_bit hw.inv]
          split at hv
          · simp [allEvents] at hv
          · exact ⟨h1, k, v, hk, hv, hb⟩
  · exact Each.refl _ _

mutual
theorem Node.stop_narrow (O : Oracle) {c : Nat} {A : Path → Prop} {n : Path} : (nd : Node) → (s : World) → (pw : WP) → nd.OK (NR P) noR n →
    (∀ q, (watchAt nd q).get? .recCh ≠ none → A (n ++ q)) →
    Each (fun x => x.Narrows ∨ ∃ q ∈ x.paths, A q) s.log (Node.trav false (stopFunc P O c) s pw nd).1.log
  | .mk n' w ch, s, pw, h, ha => by
    have hn : n' = n := h.name_eq
    subst hn
    simp only [Node.trav]
    refine Each.trans (stopFunc_narrow O h.watch fun hh => ?_) (Forest.stop_narrow O ch _ _ h.child fun b x hx q hh => ?_)
    · have := ha [] (by simpa [watchAt] using hh)
      rwa [List.append_nil] at this
    · refine ha (b :: q) ?_
      rw [Rec.watchAt_cons_some (nd := .mk n' w ch) hx]
      exact hh
theorem Forest.stop_narrow (O : Oracle) {c : Nat} {A : Path → Prop} {n : Path} : (f : Forest) → (s : World) → (pw : WP) → f.OK (NR P) noR n →
    (∀ b x, f.get? b = some x → ∀ q, (watchAt x q).get? .recCh ≠ none → A (n ++ b :: q)) →
    Each (fun x => x.Narrows ∨ ∃ q ∈ x.paths, A q) s.log (Forest.trav false (stopFunc P O c) s pw f).1.log
  | .nil, s, _, _, _ => by simp only [Forest.trav]; exact Each.refl _ _
  | .cons b nd rest, s, pw, h, ha => by
    simp only [Forest.OK] at h
    simp only [Forest.trav, Bool.false_and, Bool.false_eq_true, if_false]
    refine Each.trans (Node.stop_narrow O nd s pw (h.2.2.1 h.2.1) fun q hh => ?_)
      (Forest.stop_narrow O rest _ _ h.2.2.2 fun b' x hx => ha b' x ?_)
    · have := ha b nd (by simp [Forest.get?]) q hh
      simpa using this
    · have : b ≠ b' := by
        rintro rfl
        rw [(Forest.get?_eq_none rest b).2 h.1] at hx; simp at hx
      simp [Forest.get?, this, hx]
end

/-- **C130, no native recursion (partial).**  After any history, whatever failed in it and whatever the OS answers now: a call that Stop makes
removes a watch or asks for a part of its events, or is for a path that a recursive Watch reached.  Missing: the latter paths, for which it
is false (`C130_refuted`). -/
theorem C130_stop_partial (hP : P.Facts) {rel : Bool} {ops : List Op} {s : St} (h : Hist P rel ops s) (O : Oracle) (c : Nat) :
    Each (fun x => x.Narrows ∨ ∃ q ∈ x.paths, ∃ p d e ok, Op.watch p true d e ok ∈ ops ∧ p <+: q) s.world.log
      (stop P O s c).world.log := by
  refine Node.stop_narrow O s.root s.world [] (Hist.shape hP h).ok fun q hq => ?_
  rw [List.nil_append]
  by_contra hno
  refine hq ((Plain.steps hP (plain_init P q) h fun op hop => ?_).norec q (List.prefix_refl _))
  unfold Op.NotAbove
  split
  · exact fun hp => hno ⟨_, _, _, _, hop, hp⟩
  · trivial

/-- **C130 is false of the code** without native recursion, with no failure in the history. -/
theorem C130_refuted : ∃ ops s s', Hist Ex.I true ops s ∧ (∀ op ∈ ops, ∀ q r c e ok, op = Op.watch q r c e ok → ok = true) ∧
    Step Ex.I true s (.stop 9) s' ∧ ¬ Each Call.Narrows s.world.log s'.world.log := by
  obtain ⟨ops, s, s', p, o, n, h1, h2, h3, -, h5, h6⟩ := C129_widens_refuted
  refine ⟨ops, s, s', h1, h2, h3, ?_⟩
  rintro ⟨d, h7, h8⟩
  rw [h5, show (Call.rewatch p o n, true) :: s.world.log = [(Call.rewatch p o n, true)] ++ s.world.log from rfl] at h7
  have := List.append_cancel_right h7
  subst this
  exact h6 (h8 _ (List.mem_singleton.2 rfl))

/-- Non-trivial case: two channels on one path, neither recursive; Stop of one makes a call that is not the removal of the watch. -/
example : ∃ s, Hist Ex.I true [.watch [Ex.a] false 1 Ex.W true, .watch [Ex.a] false 2 Ex.CW true] s ∧
    (stop Ex.I .ok s 2).world.log.head? = some (.rewatch [Ex.a] Ex.CW Ex.W, true) :=
  ⟨_, (Steps.nil.snoc (Step.watch (O := .ok) (dt := .dir .nil) Ex.good_a Ex.uW (by simp [DirTree.Named, Entries.Named]) (fun _ h => by simp at h))).snoc
    (Step.watch (O := .ok) (dt := .dir .nil) Ex.good_a Ex.uCW (by simp [DirTree.Named, Entries.Named]) (fun _ h => by simp at h)), by decide⟩

end NonRec
end Verif
