/-
Concrete histories used to show that the hypotheses of the theorems about the non-recursive tree
are met by non-trivial cases.
-/
import Verif.NonRecReg

namespace Verif
namespace NonRec
namespace Ex
open Spec

/-- The inotify platform. -/
abbrev I : Platform := Platform.inotify
theorem hI : I.Facts := Platform.inotify_wf.facts

abbrev a : Comp := ['a']
abbrev b : Comp := ['b']
abbrev f : Comp := ['f']

/-- The directory `/a` contains the directory `b` and the file `f`. -/
abbrev list : DirTree := .dir (.cons b true (.dir .nil) (.cons f false .err .nil))

theorem list_named : list.Named := by simp [list, DirTree.Named, Entries.Named]
theorem good_a : GoodPath [a] := by simp [GoodPath]
theorem good_ab : GoodPath [a, b] := by simp [GoodPath]

abbrev W : Event := I.write
abbrev CW : Event := I.create ||| I.write

theorem uW : UserEvents I W := by unfold UserEvents; decide
theorem uCW : UserEvents I CW := by unfold UserEvents; decide

/-- Channel 1 watches `/a/...` for Write. -/
def s1 : St := (watchOp I .ok list init [a] true 1 W).1
/-- Channel 2 watches `/a/b` for Create and Write. -/
def s2 : St := (watchOp I .ok list s1 [a, b] false 2 CW).1
/-- Channel 1 is stopped. -/
def s3 : St := stop I .ok s2 1
/-- Channel 2 is stopped. -/
def s4 : St := stop I .ok s3 2

theorem step1 : Step I true init (.watch [a] true 1 W true) s1 :=
  Step.watch good_a uW list_named (fun _ _ => rfl)
theorem step2 : Step I true s1 (.watch [a, b] false 2 CW true) s2 :=
  Step.watch (O := .ok) good_ab uCW list_named (fun _ _ => rfl)
theorem step3 : Step I true s2 (.stop 1) s3 := Step.stop (fun _ => rfl)
theorem step4 : Step I true s3 (.stop 2) s4 := Step.stop (fun _ => rfl)

def ops2 : List Op := [.watch [a] true 1 W true, .watch [a, b] false 2 CW true]
theorem hist1 : Hist I true [.watch [a] true 1 W true] s1 := Steps.nil.snoc step1
theorem hist2 : Hist I true ops2 s2 := hist1.snoc step2
theorem hist3 : Hist I true (ops2 ++ [.stop 1]) s3 := hist2.snoc step3
theorem hist4 : Hist I true (ops2 ++ [.stop 1] ++ [.stop 2]) s4 := hist3.snoc step4

/-- A Write to `/a/b/f`. -/
def ei : EventInfo := { event := W, path := [a, b, f] }

theorem nofail2 : ∀ op ∈ ops2, NoPlainFail op := by simp [ops2, NoPlainFail]

end Ex
end NonRec
end Verif
