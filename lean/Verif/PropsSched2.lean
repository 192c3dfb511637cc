/-
C05, C30, C31: the claims about all schedules, for both trees.
-/
import Verif.SchedTrees
import Verif.RecEx

namespace Verif
namespace Sched

variable {P : Platform} {cfg : Cfg}

/-! ### C05 -/

/-- **C05** (non-recursive tree).  In every execution, for every schedule and every number of goroutines:
when Stop(c) has returned, it has taken effect, and from that moment on nothing is sent to `c`, not even for
events in flight, unless a Watch with `c` takes effect. -/
theorem C05_nonrec (hP : P.Facts) {t t' : List (Lab Req)} {s : State (plainTree P)} {i c : Nat}
    (h : Exec (plainTree P) cfg (t ++ .ret i (.stop c) :: t') s) :
    ∃ a b, t = a ++ .effect i (.stop c) :: b ∧
      ((∀ j p isrec e, .effect j (.watch p isrec c e) ∉ b ++ t') → ∀ j ei, .send j (.user c) ei ∉ b ++ t') := by
  obtain ⟨a, b, hab, hs⟩ := stop_returned (plainLaws P hP) h (c := c) rfl
  refine ⟨a, b, hab, fun hw => hs ?_⟩
  intro j r hm hr
  cases r with
  | watch p isrec d e => cases (show d = c from hr); exact hw j p isrec e hm
  | stop d => exact hr
  | internal ei => exact hr

/-- **C05** (recursive tree). -/
theorem C05_rec (hP : P.Facts) {t t' : List (Lab Req)} {s : State (recTree P)} {i c : Nat}
    (h : Exec (recTree P) cfg (t ++ .ret i (.stop c) :: t') s) :
    ∃ a b, t = a ++ .effect i (.stop c) :: b ∧
      ((∀ j p isrec e, .effect j (.watch p isrec c e) ∉ b ++ t') → ∀ j ei, .send j (.user c) ei ∉ b ++ t') := by
  obtain ⟨a, b, hab, hs⟩ := stop_returned (recLaws P hP) h (c := c) rfl
  refine ⟨a, b, hab, fun hw => hs ?_⟩
  intro j r hm hr
  cases r with
  | watch p isrec d e => cases (show d = c from hr); exact hw j p isrec e hm
  | stop d => exact hr
  | internal ei => exact hr

/-! ### C30 -/

/-- **C30** (non-recursive tree).  In every reachable state that is not idle some goroutine can take a step,
whatever the lock policy, however full the buffers are and without any user receiving anything; there is no
infinite execution without new calls and new events; and everything pending can be worked off. -/
theorem C30_nonrec (hP : P.Facts) (hC : 0 < cfg.capC) (hR : 0 < cfg.capR) {t : List (Lab Req)}
    {s : State (plainTree P)} (h : Exec (plainTree P) cfg t s) :
    (¬ s.Idle → ∃ l s', Tr (plainTree P) cfg s l s' ∧ ¬ l.env) ∧
    (¬ ∃ f : Nat → State (plainTree P), f 0 = s ∧ ∀ n, ∃ l, Tr (plainTree P) cfg (f n) l (f (n + 1)) ∧ ¬ l.env) ∧
    (∃ t' s', Run (plainTree P) cfg s t' s' ∧ (∀ l ∈ t', ¬ l.env) ∧ s'.Idle) := by
  have hi := Exec.inv (plainLaws P hP) h
  refine ⟨progress _ hC hR hi, ?_, drains _ hC hR hi⟩
  rintro ⟨f, rfl, hf⟩
  exact terminates (plainLaws P hP) f hi hf

/-- **C30** (recursive tree). -/
theorem C30_rec (hP : P.Facts) (hC : 0 < cfg.capC) (hR : 0 < cfg.capR) {t : List (Lab Req)}
    {s : State (recTree P)} (h : Exec (recTree P) cfg t s) :
    (¬ s.Idle → ∃ l s', Tr (recTree P) cfg s l s' ∧ ¬ l.env) ∧
    (¬ ∃ f : Nat → State (recTree P), f 0 = s ∧ ∀ n, ∃ l, Tr (recTree P) cfg (f n) l (f (n + 1)) ∧ ¬ l.env) ∧
    (∃ t' s', Run (recTree P) cfg s t' s' ∧ (∀ l ∈ t', ¬ l.env) ∧ s'.Idle) := by
  have hi := Exec.inv (recLaws P hP) h
  refine ⟨progress _ hC hR hi, ?_, drains _ hC hR hi⟩
  rintro ⟨f, rfl, hf⟩
  exact terminates (recLaws P hP) f hi hf

/-- **C30**, for a caller: every Watch and Stop under way returns in some continuation without further calls
and events, and there is no infinite one. -/
theorem C30_returns_nonrec (hP : P.Facts) (hC : 0 < cfg.capC) (hR : 0 < cfg.capR) {t : List (Lab Req)}
    {s : State (plainTree P)} (h : Exec (plainTree P) cfg t s) {i : Nat} {r : Req} {k : Call}
    (hm : (i, r, k) ∈ s.calls) :
    ∃ t' s', Run (plainTree P) cfg s t' s' ∧ (∀ l ∈ t', ¬ l.env) ∧ .ret i r ∈ t' :=
  returns (plainLaws P hP) hC hR (Exec.inv _ h) hm

theorem C30_returns_rec (hP : P.Facts) (hC : 0 < cfg.capC) (hR : 0 < cfg.capR) {t : List (Lab Req)}
    {s : State (recTree P)} (h : Exec (recTree P) cfg t s) {i : Nat} {r : Req} {k : Call}
    (hm : (i, r, k) ∈ s.calls) :
    ∃ t' s', Run (recTree P) cfg s t' s' ∧ (∀ l ∈ t', ¬ l.env) ∧ .ret i r ∈ t' :=
  returns (recLaws P hP) hC hR (Exec.inv _ h) hm

/-! ### C31 -/

/-- Events sent to channel `c`, in order. -/
def sentTo (c : Nat) {R : Type} (t : List (Lab R)) : List EventInfo :=
  t.filterMap fun | .send _ (.user c') ei => if c' = c then some ei else none | _ => none

/-- Events that the OS reported, in order. -/
def reported {R : Type} (t : List (Lab R)) : List EventInfo :=
  t.flatMap fun | .report evs => evs | _ => []

/-- **C31**, the part that holds: if the goroutine `i` of an event has ended before the goroutine `j` of
another is started, then all sends of `i` come before all sends of `j`.
Missing from the full statement (events are received in the order in which they were reported): the case of
events in flight at the same time, for which it is false, see `C31_refuted`. -/
theorem C31_sequential_partial (hP : P.Facts) {t t' : List (Lab Req)} {s : State (plainTree P)} {i j : Nat}
    {ei : EventInfo} (h : Exec (plainTree P) cfg (t ++ .spawn j ei :: t') s) (hfin : .fin i ∈ t) :
    (∀ k e, .send j k e ∉ t) ∧ ∀ k e, .send i k e ∉ t' :=
  sequential (plainLaws P hP) h hfin

/-- **C31**, the part that holds, recursive tree. -/
theorem C31_sequential_rec_partial (hP : P.Facts) {t t' : List (Lab Req)} {s : State (recTree P)} {i j : Nat}
    {ei : EventInfo} (h : Exec (recTree P) cfg (t ++ .spawn j ei :: t') s) (hfin : .fin i ∈ t) :
    (∀ k e, .send j k e ∉ t) ∧ ∀ k e, .send i k e ∉ t' :=
  sequential (recLaws P hP) h hfin

namespace Ex
open NonRec.Ex

/-- The parameters of the package, with Go's lock policy. -/
def conf : Cfg := ⟨128, 128, true, false⟩

abbrev T : Sys := plainTree I
abbrev R1 : Req := .watch [a] true 1 W

theorem okR1 : T.okReq R1 := ⟨good_a, uW⟩
theorem stepR1 : T.step NonRec.init R1 s1 :=
  ⟨_, .inl rfl, true, NonRec.Step.watch (O := .ok) (dt := list) good_a uW list_named (fun h => nomatch h)⟩

/-- Writes to `/a/b/f` and to `/a/b/b`. -/
def evA : EventInfo := { event := W, path := [a, b, f] }
def evB : EventInfo := { event := W, path := [a, b, b] }

theorem okA : T.okEv evA := by show NonRec.GoodPath _; simp [NonRec.GoodPath, evA]
theorem okB : T.okEv evB := by show NonRec.GoodPath _; simp [NonRec.GoodPath, evB]

theorem sendsA : T.sends s1 evA = [.user 1] := by show NonRec.sends I s1.root evA = _; decide
theorem sendsB : T.sends s1 evB = [.user 1] := by show NonRec.sends I s1.root evB = _; decide
theorem handA : T.hand s1 evA = false := by show NonRec.toInternal I s1.root evA = _; decide

theorem pick1 {ei : EventInfo} (h : T.sends s1 ei = [.user 1]) :
    ([] : List Key).count (.user 1) < (T.sends s1 ei).count (.user 1) := by rw [h]; decide

/-- Channel 1 watches `/a/...`. -/
def watchTrace : List (Lab Req) := [.call 0 R1, .lock 0, .effect 0 R1, .unlock 0, .ret 0 R1]

/-- The state after it. -/
def w1 : State T := { State.init T with tree := s1, next := 1 }

theorem noCalls (s : State T) (h : s.calls = []) : ¬ s.CallHolds := by
  rintro ⟨i, r, h' | h'⟩ <;> simp [h] at h'
theorem noInt (s : State T) (h : s.int = .idle) : ¬ s.IntHolds := by
  rintro ⟨ei, h' | h'⟩ <;> simp [h] at h'
theorem noWait (s : State T) (h : s.calls = []) (h2 : s.int = .idle) : ¬ s.WriterWaits := by
  rintro (⟨i, r, h'⟩ | ⟨ei, h'⟩)
  · simp [h] at h'
  · simp [h2] at h'

theorem noRead (s : State T) (h : s.nR = 0) : ¬ s.Reading := by rw [reading_iff]; omega
theorem noHold (s : State T) (h : s.nC = 0) : ¬ s.CallHolds := by rw [callHolds_iff]; omega

theorem run1 : Exec T conf watchTrace w1 := by
  refine Run.cons (Tr.call (Y := T) (s := State.init T) R1 okR1 trivial) ?_
  refine Run.cons (Tr.lock (Y := T) 0 R1 [] [] rfl (noRead _ rfl) (noHold _ rfl) (noInt _ rfl)) ?_
  refine Run.cons (Tr.effect (Y := T) 0 R1 [] [] s1 rfl stepR1 (fun _ => rfl)) ?_
  refine Run.cons (Tr.unlock (Y := T) 0 R1 [] [] rfl) ?_
  exact Run.cons (Tr.ret (Y := T) 0 R1 [] [] rfl) .nil

/-- A goroutine that the scheduler holds back while a later one runs. -/
def badTrace : List (Lab Req) :=
  [.report [evA, evB], .push evA, .push evB, .spawn 1 evA, .spawn 2 evB, .rlock 2, .pick 2 (.user 1),
   .send 2 (.user 1) evB, .rlock 1, .pick 1 (.user 1), .send 1 (.user 1) evA]

/-- The state after `badTrace`. -/
def w2 : State T :=
  { w1 with disp := [(2, evB, .reading [.user 1] none), (1, evA, .reading [.user 1] none)], next := 3 }

theorem run2 : Run T conf w1 badTrace w2 := by
  refine Run.cons (Tr.report (Y := T) [evA, evB] (by simpa using ⟨okA, okB⟩) rfl) ?_
  refine Run.cons (Tr.push (Y := T) evA [evB] rfl (show (0 : Nat) < 128 by decide)) ?_
  refine Run.cons (Tr.push (Y := T) evB [] rfl (show (1 : Nat) < 128 by decide)) ?_
  refine Run.cons (Tr.spawn (Y := T) evA [evB] rfl) ?_
  refine Run.cons (Tr.spawn (Y := T) evB [] rfl) ?_
  refine Run.cons (Tr.rlock (Y := T) 2 evB [] [(1, evA, .start)] rfl (noCalls _ rfl) (noInt _ rfl) (fun _ => noWait _ rfl rfl)) ?_
  refine Run.cons (Tr.pick (Y := T) 2 evB [] (.user 1) [] [(1, evA, .start)] rfl (pick1 sendsB)) ?_
  refine Run.cons (Tr.send (Y := T) 2 evB [] (.user 1) [] [(1, evA, .start)] rfl) ?_
  refine Run.cons (Tr.rlock (Y := T) 1 evA [(2, evB, .reading [.user 1] none)] [] rfl (noCalls _ rfl) (noInt _ rfl)
    (fun _ => noWait _ rfl rfl)) ?_
  refine Run.cons (Tr.pick (Y := T) 1 evA [] (.user 1) [(2, evB, .reading [.user 1] none)] [] rfl (pick1 sendsA)) ?_
  exact Run.cons (Tr.send (Y := T) 1 evA [] (.user 1) [(2, evB, .reading [.user 1] none)] [] rfl) .nil

/-- Stop(1) is called and returns while the goroutine of event A is held back. -/
def stopTrace : List (Lab Req) :=
  [.report [evA], .push evA, .spawn 1 evA, .call 2 (.stop 1), .lock 2, .effect 2 (.stop 1), .unlock 2]

end Ex

/-- **C31** is false of the code: the OS reports A before B, and channel 1 is sent B before A. -/
theorem C31_refuted : ∃ t s, Exec Ex.T Ex.conf t s ∧ reported t = [Ex.evA, Ex.evB] ∧ Ex.evA ≠ Ex.evB ∧
    sentTo 1 t = [Ex.evB, Ex.evA] :=
  ⟨_, _, Ex.run1.trans Ex.run2, rfl, by decide, rfl⟩

/-- Non-trivial case of C05: event A is in flight, and would be sent to channel 1, when Stop(1) is called;
after Stop(1) has returned, its goroutine runs. -/
example : ∃ t' s, Exec Ex.T Ex.conf (Ex.watchTrace ++ Ex.stopTrace ++ .ret 2 (.stop 1) :: t') s ∧
    .rlock 1 ∈ t' ∧ Key.user 1 ∈ Ex.T.sends NonRec.Ex.s1 Ex.evA := by
  refine ⟨[.rlock 1], ⟨NonRec.stop NonRec.Ex.I .ok NonRec.Ex.s1 1, [], [], [], [(1, Ex.evA, .reading [] none)], [], .idle, 3⟩,
    ?_, by simp, by rw [Ex.sendsA]; simp⟩
  rw [List.append_assoc]
  refine Ex.run1.trans ?_
  refine Run.cons (Tr.report (Y := Ex.T) [Ex.evA] (by simpa using Ex.okA) rfl) ?_
  refine Run.cons (Tr.push (Y := Ex.T) Ex.evA [] rfl (show (0 : Nat) < 128 by decide)) ?_
  refine Run.cons (Tr.spawn (Y := Ex.T) Ex.evA [] rfl) ?_
  refine Run.cons (Tr.call (Y := Ex.T) (s := { Ex.w1 with disp := [(1, Ex.evA, .start)], next := 2 }) (Req.stop 1) trivial trivial) ?_
  refine Run.cons (Tr.lock (Y := Ex.T) 2 (.stop 1) [] [] rfl (Ex.noRead _ rfl) (Ex.noHold _ rfl) (Ex.noInt _ rfl)) ?_
  refine Run.cons (Tr.effect (Y := Ex.T) 2 (.stop 1) [] [] (NonRec.stop NonRec.Ex.I .ok NonRec.Ex.s1 1) rfl
      ⟨_, .inl rfl, NonRec.Step.stop (fun h => nomatch h)⟩ (fun _ => rfl)) ?_
  refine Run.cons (Tr.unlock (Y := Ex.T) 2 (.stop 1) [] [] rfl) ?_
  refine Run.cons (Tr.ret (Y := Ex.T) 2 (.stop 1) [] [] rfl) ?_
  exact Run.cons (Tr.rlock (Y := Ex.T) 1 Ex.evA [] [] rfl (Ex.noCalls _ rfl) (Ex.noInt _ rfl) (fun _ => Ex.noWait _ rfl rfl)) .nil

/-- Non-trivial case of C30: two goroutines hold the read lock and Stop(1) waits for it. -/
example : ∃ t s, Exec Ex.T Ex.conf t s ∧ ¬ s.Idle ∧ s.Reading ∧ (3, Req.stop 1, Call.waiting) ∈ s.calls ∧
    0 < Ex.conf.capC ∧ 0 < Ex.conf.capR :=
  ⟨_, _, (Ex.run1.trans Ex.run2).snoc (Tr.call (Y := Ex.T) (Req.stop 1) trivial trivial), fun h => by simpa [Ex.w2] using h.2.2.2.1,
    ⟨2, Ex.evB, [.user 1], none, by simp [Ex.w2]⟩, by simp [Ex.w2, Ex.w1], by decide, by decide⟩

end Sched
end Verif
