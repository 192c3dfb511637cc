/-
Goroutines, the tree's lock and its channels, for any schedule.

Models: /repo/tree.go:15-22 (channel capacities), the dispatch loop with the goroutine it starts for every
event (/repo/tree_nonrecursive.go:35-77, /repo/tree_recursive.go:124-153), the internal goroutine
(/repo/tree_nonrecursive.go:80-119), the lock taken by Watch and Stop (/repo/tree_nonrecursive.go:178-179,
298-300, /repo/tree_recursive.go:172-173, 340-342) and `sync.RWMutex`.

What a goroutine does between two points where others can interfere is one transition.  The tree is a
parameter (`Sys`).  Points of detail:
* the goroutine of an event looks up the watchpoints and, for every match, first decides to send (`pick`)
  and then sends (`send`); a writer may come between the two unless the lock prevents it;
* matches are picked in any order, which covers all iteration orders of Go's maps;
* `Lock` and `RLock` are granted in any order; with `pref` a waiting writer keeps new readers out, as Go's
  RWMutex does;
* the watcher hands events over with a blocking send to `c`; with `oslock` it holds its own lock meanwhile,
  and the calls that the tree makes to the watcher have to wait.  (No watcher of the package does so: the
  trigger based ones release `trg`'s lock in `process` before `send`, /repo/watcher_trigger.go:413, 419-451.)
Not modelled: Close.
-/
import Verif.Channel

namespace Verif
namespace Sched

/-- A tree: states, requests for which the write lock is taken and their effect, the channels to which an
event is sent, whether an event is passed on to the internal goroutine, what that one does with it. -/
structure Sys where
  σ : Type
  Req : Type
  init : σ
  step : σ → Req → σ → Prop
  sends : σ → EventInfo → List Key
  hand : σ → EventInfo → Bool
  intern : EventInfo → Req
  /-- Requests that users make. -/
  user : Req → Prop
  /-- Meaningful requests; events that the OS may report. -/
  okReq : Req → Prop
  okEv : EventInfo → Prop

/-- Parameters: capacity of `c` and `rec`, lock policy, watcher lock. -/
structure Cfg where
  capC : Nat
  capR : Nat
  pref : Bool
  oslock : Bool

/-- Where the goroutine of an event is. -/
inductive Disp
  /-- before RLock -/
  | start
  /-- between RLock and RUnlock: matches handled, match about to be sent -/
  | reading (done : List Key) (about : Option Key)
  /-- at `t.rec <- ei` -/
  | handing

/-- Where a call of Watch or Stop is. -/
inductive Call
  /-- before Lock -/
  | waiting
  /-- after Lock -/
  | locked
  /-- the tree is updated, before Unlock -/
  | applied
  /-- after Unlock, before the return -/
  | unlocked

/-- Where the internal goroutine is. -/
inductive Intern
  | idle
  | waiting (ei : EventInfo)
  | locked (ei : EventInfo)
  | applied (ei : EventInfo)

/-- A state. -/
structure State (Y : Sys) where
  tree : Y.σ
  /-- Events that the watcher is about to send to `c`. -/
  os : List EventInfo
  /-- Buffer of `c`. -/
  cq : List EventInfo
  /-- Buffer of `rec`. -/
  rq : List EventInfo
  disp : List (Nat × EventInfo × Disp)
  calls : List (Nat × Y.Req × Call)
  int : Intern
  /-- The next identifier. -/
  next : Nat

def State.init (Y : Sys) : State Y := ⟨Y.init, [], [], [], [], [], .idle, 0⟩

/-- Some goroutine holds the read lock. -/
def State.Reading {Y : Sys} (s : State Y) : Prop := ∃ i ei d a, (i, ei, Disp.reading d a) ∈ s.disp

/-- A call holds the write lock. -/
def State.CallHolds {Y : Sys} (s : State Y) : Prop :=
  ∃ i r, (i, r, Call.locked) ∈ s.calls ∨ (i, r, Call.applied) ∈ s.calls

/-- The internal goroutine holds the write lock. -/
def State.IntHolds {Y : Sys} (s : State Y) : Prop := ∃ ei, s.int = .locked ei ∨ s.int = .applied ei

/-- Somebody waits for the write lock. -/
def State.WriterWaits {Y : Sys} (s : State Y) : Prop := (∃ i r, (i, r, Call.waiting) ∈ s.calls) ∨ ∃ ei, s.int = .waiting ei

/-- Labels of transitions. -/
inductive Lab (R : Type)
  | report (evs : List EventInfo) | call (i : Nat) (r : R)
  | push (ei : EventInfo) | spawn (i : Nat) (ei : EventInfo)
  | rlock (i : Nat) | pick (i : Nat) (k : Key) | send (i : Nat) (k : Key) (ei : EventInfo) | runlock (i : Nat)
  | fin (i : Nat)
  | lock (i : Nat) | effect (i : Nat) (r : R) | unlock (i : Nat) | ret (i : Nat) (r : R)
  | intRecv | intLock | intEffect (r : R) | intUnlock

/-- Actions of the environment: the OS reports, a user calls. -/
def Lab.env {R : Type} : Lab R → Prop
  | .report _ => True
  | .call _ _ => True
  | _ => False

/-- The transitions. -/
inductive Tr (Y : Sys) (cfg : Cfg) : State Y → Lab Y.Req → State Y → Prop
  /-- The watcher has read events from the OS. -/
  | report {s} (evs : List EventInfo) (hok : ∀ ei ∈ evs, Y.okEv ei) (h : s.os = []) :
      Tr Y cfg s (.report evs) { s with os := evs }
  /-- The watcher sends one to `c`. -/
  | push {s} (ei : EventInfo) (r : List EventInfo) (h : s.os = ei :: r) (hc : s.cq.length < cfg.capC) :
      Tr Y cfg s (.push ei) { s with os := r, cq := s.cq ++ [ei] }
  /-- A user calls Watch or Stop. -/
  | call {s} (r : Y.Req) (hok : Y.okReq r) (hu : Y.user r) :
      Tr Y cfg s (.call s.next r) { s with calls := (s.next, r, .waiting) :: s.calls, next := s.next + 1 }
  /-- `for ei := range c { go func …` -/
  | spawn {s} (ei : EventInfo) (q : List EventInfo) (h : s.cq = ei :: q) :
      Tr Y cfg s (.spawn s.next ei) { s with cq := q, disp := (s.next, ei, .start) :: s.disp, next := s.next + 1 }
  | rlock {s} (i : Nat) (ei : EventInfo) (a b : List (Nat × EventInfo × Disp)) (h : s.disp = a ++ (i, ei, .start) :: b)
      (hw : ¬ s.CallHolds) (hi : ¬ s.IntHolds) (hp : cfg.pref = true → ¬ s.WriterWaits) :
      Tr Y cfg s (.rlock i) { s with disp := a ++ (i, ei, .reading [] none) :: b }
  /-- A match is found. -/
  | pick {s} (i : Nat) (ei : EventInfo) (d : List Key) (k : Key) (a b : List (Nat × EventInfo × Disp))
      (h : s.disp = a ++ (i, ei, .reading d none) :: b) (hk : d.count k < (Y.sends s.tree ei).count k) :
      Tr Y cfg s (.pick i k) { s with disp := a ++ (i, ei, .reading d (some k)) :: b }
  /-- The non-blocking send. -/
  | send {s} (i : Nat) (ei : EventInfo) (d : List Key) (k : Key) (a b : List (Nat × EventInfo × Disp))
      (h : s.disp = a ++ (i, ei, .reading d (some k)) :: b) :
      Tr Y cfg s (.send i k ei) { s with disp := a ++ (i, ei, .reading (k :: d) none) :: b }
  /-- All matches are handled, the event is for the internal goroutine. -/
  | runlock {s} (i : Nat) (ei : EventInfo) (d : List Key) (a b : List (Nat × EventInfo × Disp))
      (h : s.disp = a ++ (i, ei, .reading d none) :: b) (hk : ∀ k, (Y.sends s.tree ei).count k ≤ d.count k)
      (hh : Y.hand s.tree ei = true) :
      Tr Y cfg s (.runlock i) { s with disp := a ++ (i, ei, .handing) :: b }
  /-- All matches are handled, the goroutine ends. -/
  | fin {s} (i : Nat) (ei : EventInfo) (d : List Key) (a b : List (Nat × EventInfo × Disp))
      (h : s.disp = a ++ (i, ei, .reading d none) :: b) (hk : ∀ k, (Y.sends s.tree ei).count k ≤ d.count k)
      (hh : Y.hand s.tree ei = false) :
      Tr Y cfg s (.fin i) { s with disp := a ++ b }
  /-- `t.rec <- ei` -/
  | handed {s} (i : Nat) (ei : EventInfo) (a b : List (Nat × EventInfo × Disp))
      (h : s.disp = a ++ (i, ei, .handing) :: b) (hc : s.rq.length < cfg.capR) :
      Tr Y cfg s (.fin i) { s with disp := a ++ b, rq := s.rq ++ [ei] }
  | lock {s} (i : Nat) (r : Y.Req) (a b : List (Nat × Y.Req × Call)) (h : s.calls = a ++ (i, r, .waiting) :: b)
      (hr : ¬ s.Reading) (hw : ¬ s.CallHolds) (hi : ¬ s.IntHolds) :
      Tr Y cfg s (.lock i) { s with calls := a ++ (i, r, .locked) :: b }
  /-- What Watch or Stop does under the lock. -/
  | effect {s} (i : Nat) (r : Y.Req) (a b : List (Nat × Y.Req × Call)) (t' : Y.σ)
      (h : s.calls = a ++ (i, r, .locked) :: b) (hst : Y.step s.tree r t') (hos : cfg.oslock = true → s.os = []) :
      Tr Y cfg s (.effect i r) { s with tree := t', calls := a ++ (i, r, .applied) :: b }
  | unlock {s} (i : Nat) (r : Y.Req) (a b : List (Nat × Y.Req × Call)) (h : s.calls = a ++ (i, r, .applied) :: b) :
      Tr Y cfg s (.unlock i) { s with calls := a ++ (i, r, .unlocked) :: b }
  | ret {s} (i : Nat) (r : Y.Req) (a b : List (Nat × Y.Req × Call)) (h : s.calls = a ++ (i, r, .unlocked) :: b) :
      Tr Y cfg s (.ret i r) { s with calls := a ++ b }
  /-- `for ei := range rec` -/
  | intRecv {s} (ei : EventInfo) (q : List EventInfo) (h : s.rq = ei :: q) (hi : s.int = .idle) :
      Tr Y cfg s .intRecv { s with rq := q, int := .waiting ei }
  | intLock {s} (ei : EventInfo) (h : s.int = .waiting ei) (hr : ¬ s.Reading) (hw : ¬ s.CallHolds) :
      Tr Y cfg s .intLock { s with int := .locked ei }
  | intEffect {s} (ei : EventInfo) (t' : Y.σ) (h : s.int = .locked ei) (hst : Y.step s.tree (Y.intern ei) t')
      (hos : cfg.oslock = true → s.os = []) :
      Tr Y cfg s (.intEffect (Y.intern ei)) { s with tree := t', int := .applied ei }
  | intUnlock {s} (ei : EventInfo) (h : s.int = .applied ei) :
      Tr Y cfg s .intUnlock { s with int := .idle }

/-- Executions: finite sequences of transitions, oldest first. -/
inductive Run (Y : Sys) (cfg : Cfg) (s₀ : State Y) : List (Lab Y.Req) → State Y → Prop
  | nil : Run Y cfg s₀ [] s₀
  | snoc {t s l s'} : Run Y cfg s₀ t s → Tr Y cfg s l s' → Run Y cfg s₀ (t ++ [l]) s'

/-- Executions from the start of the program. -/
abbrev Exec (Y : Sys) (cfg : Cfg) (t : List (Lab Y.Req)) (s : State Y) : Prop := Run Y cfg (State.init Y) t s

end Sched
end Verif
