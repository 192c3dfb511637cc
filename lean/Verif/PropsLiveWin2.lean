/-
The loop on Windows may spin for ever (C110).
-/
import Verif.PropsLiveWin
import Verif.PropsWin2

namespace Verif
namespace Win
open Rec (ROp)

namespace SpinEx
open Ex

/-- The second grip cannot be opened. -/
def no : Dcw.Ans := { create := false }

def v2 : Dcw.St := grw (Dcw.rewatch w1 d C (C ||| W) false)
def v3 : Dcw.St := Dcw.take v2
def v4 : Dcw.St := Dcw.again v3 true
def v5 : Dcw.St := gst (Dcw.loopstate v4 {} {})
def v6 : Dcw.St := Dcw.take v5
def v7 : Dcw.St := Dcw.again v6 true
def v8 : Dcw.St := gst (Dcw.loopstate v7 {} no)

def fl : Event := Dcw.stRewatch ||| (C ||| W)

/-- The watcher each time the loop has closed the first handle again; `n` handles were opened so far. -/
def spun (n : Nat) : Dcw.St where
  grips := fun g => if g = 1 then ⟨none, Dcw.dirFilter fl, false, d, 0, true⟩ else if g = 0 then ⟨none, Dcw.fileFilter fl, false, d, 0, true⟩ else {}
  ng := 2
  wds := fun w => if w = 0 then ⟨fl, false, 1, d, some 0, some 1⟩ else {}
  nw := 1
  m := [(d, 0)]
  nh := n
  queue := [0]

def loopAt (n : Nat) (l : Dcw.Loop) : Dcw.St := { spun n with queue := [], loop := l }

theorem take_spun (n : Nat) : Dcw.take (spun n) = loopAt n (.got 0) := rfl
theorem again_spun (n : Nat) : Dcw.again (loopAt n (.got 0)) true = loopAt n (.st 0) := rfl

theorem state_spun (n : Nat) : Dcw.loopstate (loopAt n (.st 0)) {} no = some (spun (n + 1)) := by
  have h0 : (Dcw.stRewatch = 0#32) = False := by decide
  have h1 : fl &&& Dcw.onlyStates = Dcw.stRewatch := by decide
  have h2 : Dcw.hasFile fl = true := by decide
  have h3 : Dcw.hasDir fl = true := by decide
  have h4 : (Dcw.encode (Dcw.fileFilter fl) = 0#32) = False := by decide
  simp [Dcw.loopstate, loopAt, spun, h0, h1, Dcw.recreate, h2, h3, h4, Dcw.updateGrip, Dcw.St.setWd, Dcw.upd, Dcw.Wd.slot, Dcw.register, no,
    Dcw.St.setGrip, Dcw.readDirChanges, Dcw.closeHandle, Dcw.closeOne]
  constructor
  · funext g
    by_cases h : g = 0
    · subst h; simp [Dcw.upd]
    · by_cases h' : g = 1
      · subst h'; simp [Dcw.upd]
      · simp [Dcw.upd, h, h']
  · funext g
    by_cases h : g = 0
    · subst h; simp [Dcw.upd]
    · simp [Dcw.upd, h]

theorem v8_eq : v8 = spun 3 := by
  have h : v8 = { spun 3 with grips := v8.grips, wds := v8.wds } := rfl
  have hg : v8.grips = (spun 3).grips := by
    funext g
    match g with
    | 0 => rfl
    | 1 => rfl
    | g + 2 => rfl
  have hw : v8.wds = (spun 3).wds := by
    funext g
    match g with
    | 0 => rfl
    | g + 1 => rfl
  rw [h, hg, hw]

/-- The whole program, once the loop has begun to spin. -/
def at3 (w : Dcw.St) (pk : List (Nat × List Chg)) : WSt :=
  { sys := { Sched.State.init Y with tree := t2, next := 2 }, w := w, pk := pk, log := [(.rewatch d C (C ||| W), true), (.watch d C, true)] }

theorem run1 : WRun cfg false [] [] WSt.init [op1] [wop1] [] [] s1 := by
  have h := WRun.refl (cfg := cfg) (safe := false) (pre := []) (wpre := []) (s := WSt.init)
  have h := h.step (.go _ _ (.call (Y := Y) req1 (show NonRec.GoodPath d ∧ NonRec.UserEvents R C from ⟨good, uC⟩) trivial) trivial) (by simp)
  have h := h.step (.go _ _ (.lock 0 req1 [] [] rfl (by rintro ⟨_, _, _, _, h⟩; cases h)
    (by rintro ⟨_, _, h | h⟩ <;> cases h <;> contradiction) (by rintro ⟨_, h | h⟩ <;> cases h)) trivial) (by simp)
  have h := h.step (.plan req1 [op1] t1 [(.watch d C, true)] 0 (.head _) rfl
    ⟨Rec.RSteps.nil.snoc (Rec.RStep.watch (O := .ok) good uC), by decide, op1, ⟨_, rfl⟩, .inl rfl⟩ rfl) (by simp)
  have h := h.step (.watch (.watch d C) d C false {} {} [] (.inl ⟨rfl, rfl⟩) rfl rfl) (by simp)
  have h := h.step (.effect 0 req1 [] [] t1 rfl rfl rfl rfl) (by simp)
  have h := h.step (.go _ _ (.unlock 0 req1 [] [] rfl) trivial) (by simp)
  have h := h.step (.go _ _ (.ret 0 req1 [] [] rfl) trivial) (by simp)
  exact h

theorem run2 : WRun cfg false [op1] [wop1] s1 [op2] [.rewatch d C (C ||| W) false true] [] [] (at3 v2 [(0, []), (1, [])]) := by
  have h := WRun.refl (cfg := cfg) (safe := false) (pre := [op1]) (wpre := [wop1]) (s := s1)
  have h := h.step (.go _ _ (.call (Y := Y) req2 (show NonRec.GoodPath d ∧ NonRec.UserEvents R W from ⟨good, uW⟩) trivial) trivial) (by simp)
  have h := h.step (.go _ _ (.lock 1 req2 [] [] rfl (by rintro ⟨_, _, _, _, h⟩; cases h)
    (by rintro ⟨_, _, h | h⟩ <;> cases h <;> contradiction) (by rintro ⟨_, h | h⟩ <;> cases h)) trivial) (by simp)
  have h := h.step (.plan req2 [op2] t2 [(.rewatch d C (C ||| W), true)] 1 (.head _) rfl
    ⟨Rec.RSteps.nil.snoc (Rec.RStep.watch (O := .ok) good uW), by decide, op2, ⟨_, rfl⟩, .inl rfl⟩ rfl) (by simp)
  have h := h.step (.rewatch (.rewatch d C (C ||| W)) d C (C ||| W) false v2 true [] (.inl ⟨rfl, rfl⟩) rfl rfl rfl) (by simp)
  have h := h.step (.effect 1 req2 [] [] t2 rfl rfl rfl rfl) (by simp)
  have h := h.step (.go _ _ (.unlock 1 req2 [] [] rfl) trivial) (by simp)
  have h := h.step (.go _ _ (.ret 1 req2 [] [] rfl) trivial) (by simp)
  exact h

theorem run3 {pre wpre} : WRun cfg false pre wpre (at3 v2 [(0, []), (1, [])]) [] [.tau, .tau, .tau, .tau, .tau, .tau] [] [] (at3 v8 [(0, [])]) := by
  have h := WRun.refl (cfg := cfg) (safe := false) (pre := pre) (wpre := wpre) (s := at3 v2 [(0, []), (1, [])])
  have h := h.step (.take 0 [] [(1, [])] rfl rfl rfl) (by simp)
  have h := h.step (.again 0 true rfl rfl) (by simp)
  have h := h.step (.state 0 {} {} v5 rfl rfl) (by simp)
  have h := h.step (.take 1 [] [] rfl rfl rfl) (by simp)
  have h := h.step (.again 1 true rfl rfl) (by simp)
  have h := h.step (.state 1 {} no v8 rfl rfl) (by simp)
  exact h

/-- Channel 1 watches `/d` for Create, channel 2 for Write, and both calls return; then the second handle cannot be opened. -/
theorem run : ∃ wops, WRun cfg false [] [] WSt.init [op1, op2] wops [] [] (at3 (spun 3) [(0, [])]) := by
  have h := (run1.trans run2).trans run3
  rw [v8_eq] at h
  exact ⟨_, h⟩

/-- The program in the `n`-th round, at one of three places of the loop. -/
def place : Nat × Nat → WSt
  | (n, 0) => at3 (spun n) [(0, [])]
  | (n, 1) => at3 (loopAt n (.got 0)) []
  | (n, _) => at3 (loopAt n (.st 0)) []

def nxt : Nat × Nat → Nat × Nat
  | (n, 0) => (n, 1)
  | (n, 1) => (n, 2)
  | (n, _) => (n + 1, 0)

theorem place_nxt : ∀ x, Inner cfg (place x) (place (nxt x))
  | (_, 0) => ⟨_, _, _, .take 0 [] [] rfl rfl rfl, Nat.le_refl _⟩
  | (_, 1) => ⟨_, _, _, .again 0 true rfl rfl, Nat.le_refl _⟩
  | (n, _ + 2) => ⟨_, _, _, .state 0 {} no (spun (n + 1)) rfl (state_spun n), Nat.le_refl _⟩

theorem place_rest : ∀ x, (place x).sys.Idle ∧ (place x).plan = none ∧ (place x).todo = [] ∧ (place x).caller = .idle ∧ (place x).out = []
  | (_, 0) => ⟨⟨rfl, rfl, rfl, rfl, rfl, rfl⟩, rfl, rfl, rfl, rfl⟩
  | (_, 1) => ⟨⟨rfl, rfl, rfl, rfl, rfl, rfl⟩, rfl, rfl, rfl, rfl⟩
  | (_, _ + 2) => ⟨⟨rfl, rfl, rfl, rfl, rfl, rfl⟩, rfl, rfl, rfl, rfl⟩

def seq : Nat → Nat × Nat
  | 0 => (3, 0)
  | n + 1 => nxt (seq n)

theorem seq_three (m : Nat) : seq (3 * m) = (3 + m, 0) := by
  induction m with
  | zero => rfl
  | succ m ih =>
    show nxt (nxt (nxt (seq (3 * m)))) = _
    rw [ih]; rfl

end SpinEx

/-- C110 is false of the program on Windows: after two calls of Watch for one directory, both successful and returned, and without any change in the file
system, the loop may go on for ever and open a handle in each round, though nobody waits for anything and every goroutine of the tree rests.  It takes
that the second of the two handles of the directory cannot be opened when the loop comes to do so, and every time it tries again. -/
theorem C110_windows_refuted : ∃ (cfg : Sched.Cfg) (ops : List ROp) (wops : List Dcw.Op) (s : WSt) (f : Nat → WSt),
    WRun cfg false [] [] WSt.init ops wops [] [] s ∧ f 0 = s ∧ (∀ n, Inner cfg (f n) (f (n + 1))) ∧
    (∀ n, (f n).sys.Idle ∧ (f n).plan = none ∧ (f n).todo = [] ∧ (f n).caller = .idle ∧ (f n).out = []) ∧
    (∀ N, ∃ n, N ≤ (f n).w.nh) := by
  obtain ⟨wops, h⟩ := SpinEx.run
  refine ⟨_, _, _, _, fun n => SpinEx.place (SpinEx.seq n), h, rfl, fun n => SpinEx.place_nxt _, fun n => SpinEx.place_rest _, fun N => ⟨3 * N, ?_⟩⟩
  show N ≤ (SpinEx.place (SpinEx.seq (3 * N))).w.nh
  rw [SpinEx.seq_three]
  exact Nat.le_add_left _ _

/-- The theorem of PropsLiveWin in that state: the loop spins, and it can also come to rest. -/
example : ∃ s : WSt, ¬ s.Rest ∧ (∃ s', Inner Ex.cfg s s') ∧ ∃ s', Relation.ReflTransGen (Calm Ex.cfg) s s' ∧ (s'.Rest ∨ s'.Panics) := by
  obtain ⟨wops, h⟩ := SpinEx.run
  obtain ⟨h1, h2, h3⟩ := C110_windows_partial (by decide) (by decide) h
  exact ⟨_, (by intro h; cases h.2.1), ⟨_, SpinEx.place_nxt (3, 0)⟩, h3 rfl⟩

end Win
end Verif
