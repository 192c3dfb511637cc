/-
The whole program on Windows: an execution for C99, and one that signals a change twice (C100).
-/
import Verif.PropsWin

namespace Verif
namespace Win
open Rec (ROp Safe rregOf Spares)
open Linux (Free sigs isEv Gets)
open Spec (copies)

namespace Ex

def d : Path := [['d']]
def f : Path := [['d'], ['f']]
def cfg : Sched.Cfg := ⟨2, 2, true, false⟩
def C : Event := R.create
def W : Event := R.write
def op1 : ROp := .watch d false 1 C true
def op2 : ROp := .watch d false 2 W true
def req1 : Sched.Req := .watch d false 1 C
def req2 : Sched.Req := .watch d false 2 W
def t1 : St := (Rec.watchOp R .ok Rec.init d false 1 C).1
def t2 : St := (Rec.watchOp R .ok t1 d false 2 W).1
/-- `/d/f` is created. -/
def y : Chg := ⟨[['f']], .added⟩
def ei : EventInfo := { event := C, path := f, ftype := .file }

theorem good : NonRec.GoodPath d := by simp [d, NonRec.GoodPath]
theorem uC : NonRec.UserEvents R C := by unfold NonRec.UserEvents; decide
theorem uW : NonRec.UserEvents R W := by unfold NonRec.UserEvents; decide
theorem step1 : Rec.RStep R true Rec.init op1 t1 := Rec.RStep.watch (O := .ok) good uC
theorem step2 : Rec.RStep R true t1 op2 t2 := Rec.RStep.watch (O := .ok) good uW

theorem one {α : Type} {P : α → Prop} {a : α} (h : P a) : ∀ b ∈ [a], P b := by intro b hb; rw [List.mem_singleton] at hb; subst hb; exact h
theorem calm : Dcw.Ans.Calm {} := ⟨rfl, rfl, rfl⟩

def gst (o : Option Dcw.St) : Dcw.St := o.getD {}
def grw (o : Option (Dcw.St × Bool)) : Dcw.St := (o.getD ({}, false)).1

def w1 : Dcw.St := (Dcw.watch {} d C false {} {}).1
def wop1 : Dcw.Op := .watch d C false true

/-- Channel 1 watches `/d` for Create. -/
def s1 : WSt := { sys := { Sched.State.init Y with tree := t1, next := 1 }, w := w1, log := [(.watch d C, true)] }

theorem run1 : WRun cfg true [] [] WSt.init [op1] [wop1] [] [] s1 := by
  have h := WRun.refl (cfg := cfg) (safe := true) (pre := []) (wpre := []) (s := WSt.init)
  have h := h.step (.go _ _ (.call (Y := Y) req1 (show NonRec.GoodPath d ∧ NonRec.UserEvents R C from ⟨good, uC⟩) trivial) trivial) (by simp)
  have h := h.step (.go _ _ (.lock 0 req1 [] [] rfl (by rintro ⟨_, _, _, _, h⟩; cases h)
    (by rintro ⟨_, _, h | h⟩ <;> cases h <;> contradiction) (by rintro ⟨_, h | h⟩ <;> cases h)) trivial) (by simp)
  have h := h.step (.plan req1 [op1] t1 [(.watch d C, true)] 0 (.head _) rfl
    ⟨Rec.RSteps.nil.snoc step1, by decide, op1, ⟨_, rfl⟩, .inl rfl⟩ rfl)
    (fun _ => ⟨one ⟨rfl, .inr fun x _ hx => absurd rfl hx⟩, by simp⟩)
  have h := h.step (.watch (.watch d C) d C false {} {} [] (.inl ⟨rfl, rfl⟩) rfl rfl)
    (fun _ => ⟨by simp, one (.watch d C false {} {} (by decide) rfl calm calm)⟩)
  have h := h.step (.effect 0 req1 [] [] t1 rfl rfl rfl rfl) (by simp)
  have h := h.step (.go _ _ (.unlock 0 req1 [] [] rfl) trivial) (by simp)
  have h := h.step (.go _ _ (.ret 0 req1 [] [] rfl) trivial) (by simp)
  exact h

def r0 : Dcw.Read := ⟨0, 0, 1, false⟩
def w2 : Dcw.St := Dcw.complete w1 r0
def w3 : Dcw.St := Dcw.take w2
def w4 : Dcw.St := grw (Dcw.rewatch w3 d C (C ||| W) false)
def w5 : Dcw.St := gst (Dcw.loopstate (Dcw.again w4 true) {} {})
def w6 : Dcw.St := Dcw.take w5
def w7 : Dcw.St := gst (Dcw.loopstate (Dcw.again w6 true) {} {})
def wops2 : List Dcw.Op := [.tau, .tau, .rewatch d C (C ||| W) false true, .tau, .tau, .tau, .tau, .tau]

/-- `/d/f` is created; before the loop has sent the event, channel 2 watches `/d` for Write, which closes the handles and opens them again. -/
theorem run2 : ∃ s', WRun cfg true [op1] [wop1] s1 [op2] wops2 [(d, [y])] [(.user 1, ei)] s' ∧ s'.Quiet := by
  have h := WRun.refl (cfg := cfg) (safe := true) (pre := [op1]) (wpre := [wop1]) (s := s1)
  have h := h.step (.complete r0 [y] (by decide) (by
    intro z hz; simp only [List.mem_singleton] at hz; subst hz; exact ⟨by decide, by decide, fun _ => rfl⟩))
    (fun _ => ⟨by simp, one (.complete r0 (by decide))⟩)
  have h := h.step (.take 0 [y] [] rfl rfl rfl) (fun _ => ⟨by simp, one .take⟩)
  have h := h.step (.go _ _ (.call (Y := Y) req2 (show NonRec.GoodPath d ∧ NonRec.UserEvents R W from ⟨good, uW⟩) trivial) trivial) (by simp)
  have h := h.step (.go _ _ (.lock 1 req2 [] [] rfl (by rintro ⟨_, _, _, _, h⟩; cases h)
    (by rintro ⟨_, _, h | h⟩ <;> cases h <;> contradiction) (by rintro ⟨_, h | h⟩ <;> cases h)) trivial) (by simp)
  have h := h.step (.plan req2 [op2] t2 [(.rewatch d C (C ||| W), true)] 1 (.head _) rfl
    ⟨Rec.RSteps.nil.snoc step2, by decide, op2, ⟨_, rfl⟩, .inl rfl⟩ rfl)
    (fun _ => ⟨one ⟨rfl, .inl ⟨d, List.prefix_rfl, by decide⟩⟩, by simp⟩)
  have h := h.step (.rewatch (.rewatch d C (C ||| W)) d C (C ||| W) false w4 true [] (.inl ⟨rfl, rfl⟩) rfl rfl rfl)
    (fun _ => ⟨by simp, one (.rewatch d C (C ||| W) false w4 true (by decide) (by decide) (by intro g hg; cases hg) rfl)⟩)
  have h := h.step (.send ei [] rfl (by decide)) (by simp)
  have h := h.step (.again 0 true rfl rfl) (fun _ => ⟨by simp, one .again⟩)
  have h := h.step (.state 0 {} {} w5 rfl rfl) (fun _ => ⟨by simp, one (.state w5 rfl)⟩)
  have h := h.step (.take 1 [] [] rfl rfl rfl) (fun _ => ⟨by simp, one .take⟩)
  have h := h.step (.again 1 true rfl rfl) (fun _ => ⟨by simp, one .again⟩)
  have h := h.step (.state 1 {} {} w7 rfl rfl) (fun _ => ⟨by simp, one (.state w7 rfl)⟩)
  have h := h.step (.go _ _ (.spawn ei [] rfl) trivial) (by simp)
  have h := h.step (.effect 1 req2 [] [] t2 rfl rfl rfl rfl) (by simp)
  have h := h.step (.go _ _ (.unlock 1 req2 [] [] rfl) trivial) (by simp)
  have h := h.step (.go _ _ (.rlock 2 ei [] [] rfl (by rintro ⟨_, _, h | h⟩ <;> cases h <;> contradiction)
    (by rintro ⟨_, h | h⟩ <;> cases h)
    (by rintro _ (⟨_, _, h⟩ | ⟨_, h⟩) <;> cases h <;> contradiction)) trivial) (by simp)
  have h := h.step (.go _ _ (.pick 2 ei [] (.user 1) [] [] rfl (by decide)) trivial) (by simp)
  have h := h.step (.go _ _ (.send 2 ei [] (.user 1) [] [] rfl) trivial) (by simp)
  have hs : Rec.sends R t2.root ei = [.user 1] := by decide
  have h := h.step (.go _ _ (.fin 2 ei [.user 1] [] [] rfl (by intro k; exact Nat.le_of_eq (congrArg (List.count k) hs)) (by decide)) trivial) (by simp)
  exact ⟨_, h, rfl, rfl, rfl, rfl, rfl⟩

/-- The theorem gives the one signal. -/
example : ∃ (s' : WSt) (tp : Path), WRun cfg true [op1] [wop1] s1 [op2] wops2 [(d, [y])] [(.user 1, ei)] s' ∧ Dcw.held s'.w tp ≠ [] ∧
    [(Key.user 1, ei)].countP (Gets 1 C f) = copies (rregOf [op1]) 1 C f * hits C f (fun p => decide (p = tp)) [(d, [y])] := by
  obtain ⟨s', h, hq⟩ := run2
  obtain ⟨tp, w, E, fl, h1, h2, h3, h4, h5⟩ := C99_windows_signalled_partial run1 rfl ⟨rfl, rfl, rfl, rfl, rfl⟩ (c := 1) (a := .added) (by decide) (x := f)
    (by simp [f]) (by decide) (by decide)
  have hm : s1.w.m = [(d, 0)] := rfl
  rw [hm] at h2
  have h2 := GoMap.mem_of_get? h2
  simp only [List.mem_singleton, Prod.mk.injEq] at h2
  obtain ⟨rfl, rfl⟩ := h2
  obtain ⟨h6, h7, -, h8⟩ := h5 _ _ _ _ s' h (by
    intro op hop
    simp only [List.mem_singleton] at hop
    subst hop
    simp [op2, Spares])
  obtain ⟨⟨E', f', k1, k2, k3⟩, -, -, k4⟩ := h8 hq
  refine ⟨s', _, h, ?_, k4 (.inl ?_)⟩
  · intro e
    rw [e] at k3
    have := k3.symm.eq_nil
    unfold Dcw.wanted at this
    have hf : Dcw.hasFile E' = true := by
      refine decide_eq_true (Event.ne_zero_iff.2 ⟨20, ?_⟩)
      have := k1 20 (by decide)
      unfold Dcw.fileFilter
      rw [Event.bit_andNot, this]
      decide
    rw [hf] at this
    simp at this
  · intro t ht hne
    rw [hm]
    exact if_neg (fun e => hne e.symm)

/-- And nothing is left of what was unwatched, so nothing else reports. -/
example : ∃ tp, tp <+: f ∧ ∀ ops wops reps sg s', WRun cfg true [op1] [wop1] s1 ops wops reps sg s' → (∀ op ∈ ops, Spares 1 tp op) →
    ∀ n ∈ reps, n.1 <+: f → n.1 = tp := by
  obtain ⟨tp, h1, _, h2⟩ := C100_once_partial run1 rfl ⟨rfl, rfl, rfl, rfl, rfl⟩ (by
    intro p hp
    have hm : s1.w.m = [(d, 0)] := rfl
    rw [hm] at hp
    have : p = d := by
      by_contra hn
      exact hp (if_neg (fun e => hn e.symm))
    subst this
    decide) (c := 1) (a := .added) (by decide) (x := f) (by simp [f]) (by decide) (by decide)
  exact ⟨tp, h1, fun ops wops reps sg s' h hc => (h2 _ _ _ _ _ h hc).1⟩
end Ex

theorem WRun.trans {cfg : Sched.Cfg} {b : Bool} {pre o1 o2 : List ROp} {wpre w1 w2 : List Dcw.Op} {r1 r2 g1 g2} {s s1 s2 : WSt}
    (h1 : WRun cfg b pre wpre s o1 w1 r1 g1 s1) (h2 : WRun cfg b (pre ++ o1) (wpre ++ w1) s1 o2 w2 r2 g2 s2) :
    WRun cfg b pre wpre s (o1 ++ o2) (w1 ++ w2) (r1 ++ r2) (g1 ++ g2) s2 := by
  induction h2 with
  | refl => simpa using h1
  | step _ hs hsafe ih =>
    rw [← List.append_assoc, ← List.append_assoc, ← List.append_assoc, ← List.append_assoc]
    exact ih.step hs (by simpa using hsafe)

namespace TwiceEx
open Ex (C cfg one calm gst uC)

def a : Path := [['a']]
def ab : Path := [['a'], ['b']]
def x : Path := [['a'], ['b'], ['f']]
def op1 : ROp := .watch a true 1 C true
def op2 : ROp := .stop 1
def op3 : ROp := .watch ab false 2 C true
def req1 : Sched.Req := .watch a true 1 C
def req2 : Sched.Req := .stop 1
def req3 : Sched.Req := .watch ab false 2 C
def t1 : St := (Rec.watchOp R .ok Rec.init a true 1 C).1
def t2 : St := Rec.stop R .ok t1 1
def t3 : St := (Rec.watchOp R .ok t2 ab false 2 C).1
/-- `/a/b/f` is created, as the handles of `/a` and of `/a/b` report it. -/
def ya : Chg := ⟨[['b'], ['f']], .added⟩
def yb : Chg := ⟨[['f']], .added⟩
def ei : EventInfo := { event := C, path := x, ftype := .file }

theorem gooda : NonRec.GoodPath a := by simp [a, NonRec.GoodPath]
theorem goodab : NonRec.GoodPath ab := by simp [ab, NonRec.GoodPath]
theorem step1 : Rec.RStep R true Rec.init op1 t1 := Rec.RStep.watch (O := .ok) gooda uC
theorem step2 : Rec.RStep R true t1 op2 t2 := Rec.RStep.stop fun _ => rfl
theorem step3 : Rec.RStep R true t2 op3 t3 := Rec.RStep.watch (O := .ok) goodab uC

theorem safe2 : Rec.Safe (rregOf [op1]) t1.world.log op2 := by
  intro q hq
  have hqd : q = a := by
    by_contra hn
    have hl : t1.world.log = [(.recWatch a C, true)] := by decide
    apply hq
    rw [hl]
    simp [osRec, hn]
  subst hqd
  refine .inl ⟨20, ⟨1, C, true, by decide, by decide⟩, ?_⟩
  rintro ⟨c, E, f, h1, h2⟩
  by_cases hc : c = 1
  · subst hc
    simp [Spec.Reg.stop] at h1
  · simp [Spec.Reg.stop, hc, rregOf, Rec.rregStep, op1, Spec.Reg.watch, Spec.Reg.empty] at h1

theorem safe3 : Rec.Safe (rregOf [op1, op2]) t2.world.log op3 := by
  refine ⟨rfl, .inr fun p hp hne => ?_⟩
  have hl : t2.world.log = [(.unwatch a, true), (.recWatch a C, true)] := by decide
  rw [hl] at hne
  by_cases e : p = a <;> simp [osRec, e] at hne

def w1 : Dcw.St := (Dcw.watch {} a C true {} {}).1
def w2 : Dcw.St := (Dcw.unwatch w1 a false).1
def w3 : Dcw.St := (Dcw.watch w2 ab C false {} {}).1
def wops1 : List Dcw.Op := [.watch a C true true, .unwatch a true, .watch ab C false true]

/-- Channel 1 has watched `/a/...` and is stopped; channel 2 watches `/a/b`. -/
def s1 : WSt := { sys := { Sched.State.init Y with tree := t3, next := 3 }, w := w3, log := [(.watch ab C, true), (.unwatch a, true), (.recWatch a C, true)] }

def sA : WSt := { sys := { Sched.State.init Y with tree := t1, next := 1 }, w := w1, log := [(.recWatch a C, true)] }
def sB : WSt := { sys := { Sched.State.init Y with tree := t2, next := 2 }, w := w2, log := [(.unwatch a, true), (.recWatch a C, true)] }

theorem runA : WRun cfg true [] [] WSt.init [op1] [.watch a C true true] [] [] sA := by
  have h := WRun.refl (cfg := cfg) (safe := true) (pre := []) (wpre := []) (s := WSt.init)
  have h := h.step (.go _ _ (.call (Y := Y) req1 (show NonRec.GoodPath a ∧ NonRec.UserEvents R C from ⟨gooda, uC⟩) trivial) trivial) (by simp)
  have h := h.step (.go _ _ (.lock 0 req1 [] [] rfl (by rintro ⟨_, _, _, _, h⟩; cases h)
    (by rintro ⟨_, _, h | h⟩ <;> cases h <;> contradiction) (by rintro ⟨_, h | h⟩ <;> cases h)) trivial) (by simp)
  have h := h.step (.plan req1 [op1] t1 [(.recWatch a C, true)] 0 (.head _) rfl
    ⟨Rec.RSteps.nil.snoc step1, by decide, op1, ⟨_, rfl⟩, .inl rfl⟩ rfl)
    (fun _ => ⟨one ⟨rfl, .inr fun x _ hx => absurd rfl hx⟩, by simp⟩)
  have h := h.step (.watch (.recWatch a C) a C true {} {} [] (.inr ⟨rfl, rfl⟩) rfl rfl)
    (fun _ => ⟨by simp, one (.watch a C true {} {} (by decide) rfl calm calm)⟩)
  have h := h.step (.effect 0 req1 [] [] t1 rfl rfl rfl rfl) (by simp)
  have h := h.step (.go _ _ (.unlock 0 req1 [] [] rfl) trivial) (by simp)
  have h := h.step (.go _ _ (.ret 0 req1 [] [] rfl) trivial) (by simp)
  exact h

theorem runB : WRun cfg true [op1] [.watch a C true true] sA [op2] [.unwatch a true] [] [] sB := by
  have h := WRun.refl (cfg := cfg) (safe := true) (pre := [op1]) (wpre := [.watch a C true true]) (s := sA)
  have h := h.step (.go _ _ (.call (Y := Y) req2 trivial trivial) trivial) (by simp)
  have h := h.step (.go _ _ (.lock 1 req2 [] [] rfl (by rintro ⟨_, _, _, _, h⟩; cases h)
    (by rintro ⟨_, _, h | h⟩ <;> cases h <;> contradiction) (by rintro ⟨_, h | h⟩ <;> cases h)) trivial) (by simp)
  have h := h.step (.plan req2 [op2] t2 [(.unwatch a, true)] 1 (.head _) rfl
    ⟨Rec.RSteps.nil.snoc step2, by decide, op2, rfl, .inl rfl⟩ rfl) (fun _ => ⟨one safe2, by simp⟩)
  have h := h.step (.unwatch (.unwatch a) a false [] (.inl rfl) rfl rfl) (fun _ => ⟨by simp, one (.unwatch a (by decide))⟩)
  have h := h.step (.effect 1 req2 [] [] t2 rfl rfl rfl rfl) (by simp)
  have h := h.step (.go _ _ (.unlock 1 req2 [] [] rfl) trivial) (by simp)
  have h := h.step (.go _ _ (.ret 1 req2 [] [] rfl) trivial) (by simp)
  exact h

theorem runC : WRun cfg true [op1, op2] [.watch a C true true, .unwatch a true] sB [op3] [.watch ab C false true] [] [] s1 := by
  have h := WRun.refl (cfg := cfg) (safe := true) (pre := [op1, op2]) (wpre := [.watch a C true true, .unwatch a true]) (s := sB)
  have h := h.step (.go _ _ (.call (Y := Y) req3 (show NonRec.GoodPath ab ∧ NonRec.UserEvents R C from ⟨goodab, uC⟩) trivial) trivial) (by simp)
  have h := h.step (.go _ _ (.lock 2 req3 [] [] rfl (by rintro ⟨_, _, _, _, h⟩; cases h)
    (by rintro ⟨_, _, h | h⟩ <;> cases h <;> contradiction) (by rintro ⟨_, h | h⟩ <;> cases h)) trivial) (by simp)
  have h := h.step (.plan req3 [op3] t3 [(.watch ab C, true)] 2 (.head _) rfl
    ⟨Rec.RSteps.nil.snoc step3, by decide, op3, ⟨_, rfl⟩, .inl rfl⟩ rfl) (fun _ => ⟨one safe3, by simp⟩)
  have h := h.step (.watch (.watch ab C) ab C false {} {} [] (.inl ⟨rfl, rfl⟩) rfl rfl)
    (fun _ => ⟨by simp, one (.watch ab C false {} {} (by decide) rfl calm calm)⟩)
  have h := h.step (.effect 2 req3 [] [] t3 rfl rfl rfl rfl) (by simp)
  have h := h.step (.go _ _ (.unlock 2 req3 [] [] rfl) trivial) (by simp)
  have h := h.step (.go _ _ (.ret 2 req3 [] [] rfl) trivial) (by simp)
  exact h

theorem run1 : WRun cfg true [] [] WSt.init [op1, op2, op3] wops1 [] [] s1 := (runA.trans runB).trans runC

def ra : Dcw.Read := ⟨0, 0, 1, true⟩
def rb : Dcw.Read := ⟨2, 2, 1, false⟩
def w4 : Dcw.St := Dcw.complete (Dcw.complete w3 ra) rb
def w5 : Dcw.St := gst (Dcw.loopstate (Dcw.again (Dcw.take w4) true) {} {})
def w6 : Dcw.St := gst (Dcw.loopstate (Dcw.again (Dcw.take w5) true) {} {})

theorem run2 : ∃ s', WRun cfg true [op1, op2, op3] wops1 s1 [] (List.replicate 8 .tau) [(a, [ya]), (ab, [yb])] [(.user 2, ei), (.user 2, ei)] s' ∧
    s'.plan = none ∧ s'.Quiet := by
  have hs : Rec.sends R t3.root ei = [.user 2] := by decide
  have h := WRun.refl (cfg := cfg) (safe := true) (pre := [op1, op2, op3]) (wpre := wops1) (s := s1)
  have h := h.step (.complete ra [ya] (by decide) (one ⟨by decide, by decide, fun h => absurd h (by decide)⟩)) (fun _ => ⟨by simp, one (.complete ra (by decide))⟩)
  have h := h.step (.complete rb [yb] (by decide) (one ⟨by decide, by decide, fun _ => rfl⟩)) (fun _ => ⟨by simp, one (.complete rb (by decide))⟩)
  have h := h.step (.take 0 [ya] [(2, [yb])] rfl rfl rfl) (fun _ => ⟨by simp, one .take⟩)
  have h := h.step (.send ei [] rfl (by decide)) (by simp)
  have h := h.step (.again 0 true rfl rfl) (fun _ => ⟨by simp, one .again⟩)
  have h := h.step (.state 0 {} {} w5 rfl rfl) (fun _ => ⟨by simp, one (.state w5 rfl)⟩)
  have h := h.step (.take 2 [yb] [] rfl rfl rfl) (fun _ => ⟨by simp, one .take⟩)
  have h := h.step (.send ei [] rfl (by decide)) (by simp)
  have h := h.step (.again 2 true rfl rfl) (fun _ => ⟨by simp, one .again⟩)
  have h := h.step (.state 2 {} {} w6 rfl rfl) (fun _ => ⟨by simp, one (.state w6 rfl)⟩)
  have h := h.step (.go _ _ (.spawn ei [ei] rfl) trivial) (by simp)
  have h := h.step (.go _ _ (.rlock 3 ei [] [] rfl (by rintro ⟨_, _, h | h⟩ <;> cases h)
    (by rintro ⟨_, h | h⟩ <;> cases h) (by rintro _ (⟨_, _, h⟩ | ⟨_, h⟩) <;> cases h)) trivial) (by simp)
  have h := h.step (.go _ _ (.pick 3 ei [] (.user 2) [] [] rfl (by decide)) trivial) (by simp)
  have h := h.step (.go _ _ (.send 3 ei [] (.user 2) [] [] rfl) trivial) (by simp)
  have h := h.step (.go _ _ (.fin 3 ei [.user 2] [] [] rfl (by intro k; exact Nat.le_of_eq (congrArg (List.count k) hs)) (by decide)) trivial) (by simp)
  have h := h.step (.go _ _ (.spawn ei [] rfl) trivial) (by simp)
  have h := h.step (.go _ _ (.rlock 4 ei [] [] rfl (by rintro ⟨_, _, h | h⟩ <;> cases h)
    (by rintro ⟨_, h | h⟩ <;> cases h) (by rintro _ (⟨_, _, h⟩ | ⟨_, h⟩) <;> cases h)) trivial) (by simp)
  have h := h.step (.go _ _ (.pick 4 ei [] (.user 2) [] [] rfl (by decide)) trivial) (by simp)
  have h := h.step (.go _ _ (.send 4 ei [] (.user 2) [] [] rfl) trivial) (by simp)
  have h := h.step (.go _ _ (.fin 4 ei [.user 2] [] [] rfl (by intro k; exact Nat.le_of_eq (congrArg (List.count k) hs)) (by decide)) trivial) (by simp)
  exact ⟨_, h, rfl, rfl, rfl, rfl, rfl, rfl⟩

end TwiceEx

/-- **C100 is false** of the code.  Channel 1 watches `/a/...` and is stopped; then channel 2 watches `/a/b`; all for Create.  `Stop` leaves the handles of `/a` open.
`/a/b/f` is created: the handle of `/a` and that of `/a/b` report it once each, and channel 2, whose one registration covers it, is signalled twice.  No
call is made meanwhile, none failed, every operation was harmless and the watcher met none of the races of C60-C62. -/
theorem C100_refuted : ∃ (cfg : Sched.Cfg) (ops₀ : List ROp) (wops₀ wops : List Dcw.Op) (reps : List Note) (sg : List (Key × EventInfo)) (s s' : WSt) (c : Nat)
    (a : Dcw.Action) (x : Path), WRun cfg true [] [] WSt.init ops₀ wops₀ [] [] s ∧ s.plan = none ∧ s.Quiet ∧ s.sys.calls = [] ∧
      WRun cfg true ops₀ wops₀ s [] wops reps sg s' ∧ s'.plan = none ∧ s'.Quiet ∧ copies (rregOf ops₀) c a.generic x = 1 ∧
      (∀ p, hits a.generic x (fun q => decide (q = p)) reps ≤ 1) ∧ sg.countP (Gets c a.generic x) = 2 := by
  obtain ⟨s', h1, h2, h3⟩ := TwiceEx.run2
  refine ⟨_, _, _, _, _, _, _, s', 2, .added, TwiceEx.x, TwiceEx.run1, rfl, ⟨rfl, rfl, rfl, rfl, rfl⟩, rfl, h1, h2, h3, by decide, ?_, by decide⟩
  intro p
  by_cases e1 : p = TwiceEx.a
  · subst e1; decide
  · have e1' : TwiceEx.a ≠ p := Ne.symm e1
    simp only [hits, List.map_cons, List.map_nil, e1', decide_false, Bool.false_eq_true, if_false, List.sum_cons, List.sum_nil]
    split
    · decide
    · decide

end Win
end Verif
