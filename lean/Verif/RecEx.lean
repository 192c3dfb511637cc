/-
Concrete histories of the recursive tree, used to show that the hypotheses of the theorems are met by
non-trivial cases.
-/
import Verif.RecHist

namespace Verif
namespace Rec
namespace Ex
open NonRec Spec

/-- The FSEvents platform. -/
abbrev F : Platform := Platform.fsevents
theorem hF : F.Facts := Platform.fsevents_wf.facts

abbrev a : Comp := ['a']
abbrev b : Comp := ['b']
abbrev f : Comp := ['f']

theorem good_a : GoodPath [a] := by simp [GoodPath]
theorem good_ab : GoodPath [a, b] := by simp [GoodPath]
theorem good_abf : GoodPath [a, b, f] := by simp [GoodPath]

abbrev W : Event := F.write
abbrev CW : Event := F.create ||| F.write

theorem uW : UserEvents F W := by unfold UserEvents; decide
theorem uCW : UserEvents F CW := by unfold UserEvents; decide

/-- Channel 2 watches `/a/b` for Create and Write. -/
def s1 : St := (watchOp F .ok init [a, b] false 2 CW).1
/-- Channel 1 watches `/a/...` for Write. -/
def s2 : St := (watchOp F .ok s1 [a] true 1 W).1
/-- Channel 1 is stopped. -/
def s3 : St := stop F .ok s2 1
/-- Channel 2 is stopped. -/
def s4 : St := stop F .ok s3 2

theorem step1 : RStep F true init (.watch [a, b] false 2 CW true) s1 := RStep.watch (O := .ok) good_ab uCW
theorem step2 : RStep F true s1 (.watch [a] true 1 W true) s2 := RStep.watch (O := .ok) good_a uW
theorem step3 : RStep F true s2 (.stop 1) s3 := RStep.stop (fun _ => rfl)
theorem step4 : RStep F true s3 (.stop 2) s4 := RStep.stop (fun _ => rfl)

def ops2 : List ROp := [.watch [a, b] false 2 CW true, .watch [a] true 1 W true]
theorem hist1 : RHist F true [.watch [a, b] false 2 CW true] s1 := RSteps.nil.snoc step1
theorem hist2 : RHist F true ops2 s2 := hist1.snoc step2
theorem hist3 : RHist F true (ops2 ++ [.stop 1]) s3 := hist2.snoc step3
theorem hist4 : RHist F true (ops2 ++ [.stop 1] ++ [.stop 2]) s4 := hist3.snoc step4

theorem ok2 : ∀ op ∈ ops2, op.succeeded := by simp [ops2, ROp.succeeded]

/-- A Write to `/a/b/f`. -/
def ei : EventInfo := { event := W, path := [a, b, f] }

end Ex
end Rec
end Verif
