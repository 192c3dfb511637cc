/-
Windows, whole program: what C99 needs (C99_refuted).
-/
import Verif.PropsWin2

namespace Verif
namespace Win
open Rec (ROp Safe rregOf Spares)
open Linux (Free sigs isEv Gets)
open Spec (copies)

namespace RaceEx
open Ex (C cfg one gst uC)

def Rn : Event := Platform.readdcw.rename
def a : Path := [['a']]
def x : Path := [['a'], ['f']]
def op1 : ROp := .watch a false 1 C true
def op2 : ROp := .stop 1
def op3 : ROp := .watch a false 2 Rn true
def req1 : Sched.Req := .watch a false 1 C
def req2 : Sched.Req := .stop 1
def req3 : Sched.Req := .watch a false 2 Rn
def t1 : St := (Rec.watchOp R .ok Rec.init a false 1 C).1
def t2 : St := Rec.stop R .ok t1 1
def t3 : St := (Rec.watchOp R .ok t2 a false 2 Rn).1
/-- A file has been given the name `/a/f`. -/
def y : Chg := ⟨[['f']], .renamedNew⟩

theorem gooda : NonRec.GoodPath a := by simp [a, NonRec.GoodPath]
theorem uR : NonRec.UserEvents R Rn := by unfold NonRec.UserEvents; decide
theorem step1 : Rec.RStep R false Rec.init op1 t1 := Rec.RStep.watch (O := .ok) gooda uC
theorem step2 : Rec.RStep R false t1 op2 t2 := Rec.RStep.stop fun _ => rfl
theorem step3 : Rec.RStep R false t2 op3 t3 := Rec.RStep.watch (O := .ok) gooda uR

def w1 : Dcw.St := (Dcw.watch {} a C false {} {}).1
def w2 : Dcw.St := (Dcw.unwatch w1 a false).1
def w3 : Dcw.St := (Dcw.watch w2 a Rn false {} {}).1
def wops : List Dcw.Op := [.watch a C false true, .unwatch a true, .watch a Rn false true]

def sA : WSt := { sys := { Sched.State.init Y with tree := t1, next := 1 }, w := w1, log := [(.watch a C, true)] }
def sB : WSt := { sys := { Sched.State.init Y with tree := t2, next := 2 }, w := w2, log := [(.unwatch a, true), (.watch a C, true)] }
/-- Channel 1 has watched `/a` for Create and is stopped; channel 2 watches it for Rename. -/
def s1 : WSt := { sys := { Sched.State.init Y with tree := t3, next := 3 }, w := w3, log := [(.watch a Rn, true), (.unwatch a, true), (.watch a C, true)] }

theorem runA : WRun cfg false [] [] WSt.init [op1] [.watch a C false true] [] [] sA := by
  have h := WRun.refl (cfg := cfg) (safe := false) (pre := []) (wpre := []) (s := WSt.init)
  have h := h.step (.go _ _ (.call (Y := Y) req1 (show NonRec.GoodPath a ∧ NonRec.UserEvents R C from ⟨gooda, uC⟩) trivial) trivial) (by simp)
  have h := h.step (.go _ _ (.lock 0 req1 [] [] rfl (by rintro ⟨_, _, _, _, h⟩; cases h)
    (by rintro ⟨_, _, h | h⟩ <;> cases h <;> contradiction) (by rintro ⟨_, h | h⟩ <;> cases h)) trivial) (by simp)
  have h := h.step (.plan req1 [op1] t1 [(.watch a C, true)] 0 (.head _) rfl
    ⟨Rec.RSteps.nil.snoc step1, by decide, op1, ⟨_, rfl⟩, .inl rfl⟩ rfl) (by simp)
  have h := h.step (.watch (.watch a C) a C false {} {} [] (.inl ⟨rfl, rfl⟩) rfl rfl) (by simp)
  have h := h.step (.effect 0 req1 [] [] t1 rfl rfl rfl rfl) (by simp)
  have h := h.step (.go _ _ (.unlock 0 req1 [] [] rfl) trivial) (by simp)
  have h := h.step (.go _ _ (.ret 0 req1 [] [] rfl) trivial) (by simp)
  exact h

theorem runB : WRun cfg false [op1] [.watch a C false true] sA [op2] [.unwatch a true] [] [] sB := by
  have h := WRun.refl (cfg := cfg) (safe := false) (pre := [op1]) (wpre := [.watch a C false true]) (s := sA)
  have h := h.step (.go _ _ (.call (Y := Y) req2 trivial trivial) trivial) (by simp)
  have h := h.step (.go _ _ (.lock 1 req2 [] [] rfl (by rintro ⟨_, _, _, _, h⟩; cases h)
    (by rintro ⟨_, _, h | h⟩ <;> cases h <;> contradiction) (by rintro ⟨_, h | h⟩ <;> cases h)) trivial) (by simp)
  have h := h.step (.plan req2 [op2] t2 [(.unwatch a, true)] 1 (.head _) rfl
    ⟨Rec.RSteps.nil.snoc step2, by decide, op2, rfl, .inl rfl⟩ rfl) (by simp)
  have h := h.step (.unwatch (.unwatch a) a false [] (.inl rfl) rfl rfl) (by simp)
  have h := h.step (.effect 1 req2 [] [] t2 rfl rfl rfl rfl) (by simp)
  have h := h.step (.go _ _ (.unlock 1 req2 [] [] rfl) trivial) (by simp)
  have h := h.step (.go _ _ (.ret 1 req2 [] [] rfl) trivial) (by simp)
  exact h

theorem runC : WRun cfg false [op1, op2] [.watch a C false true, .unwatch a true] sB [op3] [.watch a Rn false true] [] [] s1 := by
  have h := WRun.refl (cfg := cfg) (safe := false) (pre := [op1, op2]) (wpre := [.watch a C false true, .unwatch a true]) (s := sB)
  have h := h.step (.go _ _ (.call (Y := Y) req3 (show NonRec.GoodPath a ∧ NonRec.UserEvents R Rn from ⟨gooda, uR⟩) trivial) trivial) (by simp)
  have h := h.step (.go _ _ (.lock 2 req3 [] [] rfl (by rintro ⟨_, _, _, _, h⟩; cases h)
    (by rintro ⟨_, _, h | h⟩ <;> cases h <;> contradiction) (by rintro ⟨_, h | h⟩ <;> cases h)) trivial) (by simp)
  have h := h.step (.plan req3 [op3] t3 [(.watch a Rn, true)] 2 (.head _) rfl
    ⟨Rec.RSteps.nil.snoc step3, by decide, op3, ⟨_, rfl⟩, .inl rfl⟩ rfl) (by simp)
  have h := h.step (.watch (.watch a Rn) a Rn false {} {} [] (.inl ⟨rfl, rfl⟩) rfl rfl) (by simp)
  have h := h.step (.effect 2 req3 [] [] t3 rfl rfl rfl rfl) (by simp)
  have h := h.step (.go _ _ (.unlock 2 req3 [] [] rfl) trivial) (by simp)
  have h := h.step (.go _ _ (.ret 2 req3 [] [] rfl) trivial) (by simp)
  exact h

theorem run1 : WRun cfg false [] [] WSt.init [op1, op2, op3] wops [] [] s1 := (runA.trans runB).trans runC

def r0 : Dcw.Read := ⟨0, 0, 1, false⟩
def w4 : Dcw.St := gst (Dcw.loopstate (Dcw.again (Dcw.take (Dcw.complete w3 r0)) true) {} {})

theorem run2 : ∃ s', WRun cfg false [op1, op2, op3] wops s1 [] (List.replicate 4 .tau) [(a, [y])] [] s' ∧ s'.plan = none ∧ s'.Quiet ∧ s'.w = w4 := by
  have h := WRun.refl (cfg := cfg) (safe := false) (pre := [op1, op2, op3]) (wpre := wops) (s := s1)
  have h := h.step (.complete r0 [y] (by decide) (one ⟨by decide, by decide, fun _ => rfl⟩)) (by simp)
  have h := h.step (.take 0 [y] [] rfl rfl rfl) (by simp)
  have h := h.step (.again 0 true rfl rfl) (by simp)
  have h := h.step (.state 0 {} {} w4 rfl rfl) (by simp)
  exact ⟨_, h, rfl, ⟨rfl, rfl, rfl, rfl, rfl⟩, rfl⟩

end RaceEx

/-- **C99 is false** of the code without its conditions.  Channel 1 watches `/a` for Create and is stopped; channel 2 watches `/a` for Rename before the watcher has
noticed that the directory is unwatched.  The watcher keeps the entry with its old set.  A file is renamed to `/a/f`, a handle of `/a` reports it, and channel 2, which
is registered for it, is never signalled.  No call failed, and every call of the watcher followed its contract. -/
theorem C99_refuted : ∃ (cfg : Sched.Cfg) (ops₀ : List ROp) (wops₀ wops : List Dcw.Op) (reps : List Note) (s s' : WSt) (c : Nat) (a : Dcw.Action) (x : Path),
    WRun cfg false [] [] WSt.init ops₀ wops₀ [] [] s ∧ s.plan = none ∧ s.Quiet ∧ s.sys.calls = [] ∧ Dcw.LHist wops₀ s.w ∧
      WRun cfg false ops₀ wops₀ s [] wops reps [] s' ∧ s'.plan = none ∧ s'.Quiet ∧ copies (rregOf ops₀) c a.generic x = 1 ∧
      hits a.generic x (fun p => decide (p = x.dropLast)) reps = 1 := by
  obtain ⟨s', h1, h2, h3, -⟩ := RaceEx.run2
  refine ⟨_, _, _, _, _, _, s', 2, .renamedNew, RaceEx.x, RaceEx.run1, rfl, ⟨rfl, rfl, rfl, rfl, rfl⟩, rfl, ?_, h1, h2, h3, by decide, by decide⟩
  exact Dcw.final_hist [.watch RaceEx.a Ex.C false {} {}, .unwatch RaceEx.a false, .watch RaceEx.a RaceEx.Rn false {} {}]

/-- The entry keeps the old set, also after the report. -/
example : (RaceEx.w4.wds 0).filter = Ex.C ∧ RaceEx.w4.m.get? RaceEx.a = some 0 := by decide

end Win
end Verif
