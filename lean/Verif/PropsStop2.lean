/-
Stop of a channel that was never used, after a Watch of another channel that failed (C85).
-/
import Verif.PropsStop
import Verif.PropsRecFail

namespace Verif

namespace NonRec

/-- **C85 is false of the code** on systems without native recursion: a recursive Watch of a directory that cannot be listed fails and leaves
the OS watch of the directory; Stop of a channel that was never passed to Watch removes it. -/
theorem C85_failed_refuted : ∃ s s' p, Hist Ex.I true [.watch p true 1 Ex.CW false] s ∧ Step Ex.I true s (.stop 9) s' ∧
    (∀ q, entry s.root 9 q = none) ∧ osOf s.world.log p ≠ 0 ∧ s'.world.log = (.unwatch p, true) :: s.world.log := by
  have hh : Hist Ex.I true [.watch [Ex.a] true 1 Ex.CW false] (watchOp Ex.I .ok .err init [Ex.a] true 1 Ex.CW).1 :=
    Steps.nil.snoc (Step.watch (O := .ok) (dt := .err) Ex.good_a Ex.uCW (by simp [DirTree.Named]) (fun _ _ => rfl))
  refine ⟨_, _, _, hh, Step.stop (O := .ok) (fun _ => rfl), fun q => ?_, by decide, by decide⟩
  have h0 : Shape Ex.I init.root := Hist.shape Ex.hI (rel := true) (ops := []) Steps.nil
  rw [(watchOp_effect Ex.hI .ok h0 Ex.good_a true 1 Ex.uCW (dt := .err) (by simp [DirTree.Named])).2, if_neg (by simp)]
  unfold entry watchAt
  cases q with
  | nil => rfl
  | cons b q => rfl

end NonRec

namespace Rec
open NonRec

/-- **C85 is false of the code** on systems with native recursion: after a Watch of another channel that failed, Stop of a channel that was
never passed to Watch calls `Unwatch` for a path on which there is no watch. -/
theorem C85_failed_refuted : ∃ ops s s' p, RHist Ex.F true ops s ∧ (∀ q, rregOf ops 9 q = none) ∧ RStep Ex.F true s (.stop 9) s' ∧
    osRec s.world.log p = none ∧ s'.world.log = (.unwatch p, true) :: s.world.log := by
  refine ⟨_, Ex.f2, _, [Ex.a], Ex.fhist1.snoc Ex.fstep2, fun q => ?_, RStep.stop (O := .ok) (fun _ => rfl), by decide, by decide⟩
  simp [rregOf, rregStep, Spec.Reg.watch, Spec.Reg.empty]

end Rec
end Verif
