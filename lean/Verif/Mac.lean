/-
The whole program on macOS as one transition system: users' calls, tree, dispatch, watcher and FSEvents.

Combines `Sched` with the tree of `Rec` (/repo/tree_recursive.go, /repo/tree.go:7-22), `Streams` (/repo/watcher_fsevents_cgo.go) and the watches of
`Fsevents` (/repo/watcher_fsevents.go).  New here are the points at which the parts meet:
* FSEvents calls `gostream` with a batch of one stream (watcher_fsevents_cgo.go:55-83), on a serial dispatch queue (lines 43-46), so one
  callback runs at a time; `gostream` finds the watch in the registry and runs its `Dispatch` (watcher_fsevents.go:119-163), which loads the
  event set, then whether it is recursive (lines 120-121), then handles the batch with these two values, whatever a call stores meanwhile;
* `Dispatch` sends on `w.c` (line 157), the channel `c` that `newTree` makes and `dispatch` receives from (tree_recursive.go:125); the send
  waits while its buffer is full;
* under the tree's lock, a Watch or a Stop calls the watcher, one call after the other (tree_recursive.go:206-210, 241, 257-276, 285-289, 317-329); the
  callback, dispatch and FSEvents go on meanwhile, between these calls and in the middle of each: a `Rewatch` first swaps the event set and then
  stores whether the watch is recursive (watcher_fsevents.go:239-242, 285-288), a `RecursiveRewatch` to another path first stops the old stream and
  then starts the new one (296-300).

Simplifications: those of the parts.  What an operation does to the tree happens in one step, after its last call of the watcher; nobody else
looks at the tree between its Lock and its Unlock.  The outcomes of the calls are guessed when the operation begins (`plan`), as in `Linux`.
Executions end where the program panics.  Reported paths, unless of the marker HistoryDone, are absolute, not `/`, and have no empty component.  `Close` is left out.
-/
import Verif.SchedTrees
import Verif.Linux
import Verif.RecHold
import Verif.Streams
import Verif.PropsFsevents2

namespace Verif
namespace Mac
open Linux (Free sigs)

/-- The tree. -/
abbrev Y : Sched.Sys := Sched.recTree Platform.fsevents

/-- `FSEventsEventIdsWrapped` (event_fsevents.go:24-44). -/
def wrapped : Event := 0x8

/-- One change that FSEvents reports. -/
structure Rep where
  path : Path
  flags : Event
  deriving DecidableEq

/-- The marker of the end of the history, or a change of a path. -/
def Rep.Ok (r : Rep) : Prop := r.flags &&& Fsevents.historyDone ≠ 0 ∨ (NonRec.GoodPath r.path ∧ PathStr.Comps r.path)

/-- The callback that is running. -/
structure Cb where
  /-- The stream, and the watch that was found. -/
  k : Nat
  w : Nat
  /-- What is still to be handled. -/
  evs : List Rep
  /-- The values loaded at its start. -/
  events : Option Event := none
  isrec : Option Bool := none
  /-- What is still to be sent for the change handled last. -/
  out : List EventInfo := []

/-- Where the call of the watcher is. -/
inductive Caller
  | idle
  /-- After the swap of the event set of a watch, before `isrec` is stored. -/
  | storing (w : Nat) (f : Bool)
  /-- After the stream of the old path was stopped, before that of the new one is started; whether this succeeds. -/
  | moving (p : Path) (e : Event) (ok : Bool)

/-- A state of the program and FSEvents. -/
structure MSt where
  /-- Tree, lock, goroutines of the tree and of the users. -/
  sys : Sched.State Y
  /-- Table, registry, streams. -/
  str : Streams.S := {}
  /-- The watches by number. -/
  heap : Nat → Fsevents.Watch := fun _ => { path := [], events := 0, isrec := false }
  cb : Option Cb := none
  caller : Caller := .idle
  /-- The operation that holds the lock and has begun: request, and the tree when it is done. -/
  plan : Option (Sched.Req × St) := none
  /-- The calls of the watcher that it still has to begin, with outcomes. -/
  todo : List (Call × Bool) := []
  /-- All calls of the watcher that were begun, newest first. -/
  log : Log := []

/-- At the start of the program. -/
def MSt.init : MSt := { sys := .init Y }

def put (heap : Nat → Fsevents.Watch) (n : Nat) (w : Fsevents.Watch) : Nat → Fsevents.Watch := fun m => if m = n then w else heap m

/-- The operation is an execution of the request. -/
def Fits : Sched.Req → Rec.ROp → Prop
  | .watch p isrec c e, op => PathStr.Comps p ∧ ∃ res, op = .watch p isrec c e res
  | .stop c, op => op = .stop c
  | .internal _, _ => False

/-- What the request may do to the tree; `ops` has the operation, and before it possibly a change of map order. -/
def Plans (rel : Bool) (s : St) (r : Sched.Req) (ops : List Rec.ROp) (t : St) : Prop :=
  Rec.RSteps Platform.fsevents rel s ops t ∧ t.world.panicked = false ∧ ∃ op, Fits r op ∧ (ops = [op] ∨ ops = [.shuffle, op])

/-- `Watch` and `RecursiveWatch` (watcher_fsevents.go:221-223, 249-251). -/
def Opens (c : Call) (p : Path) (e : Event) (f : Bool) : Prop := (c = .watch p e ∧ f = false) ∨ (c = .recWatch p e ∧ f = true)

/-- `Unwatch` and `RecursiveUnwatch` (watcher_fsevents.go:227-229, 257-259). -/
def Shuts (c : Call) (p : Path) : Prop := c = .unwatch p ∨ c = .recUnwatch p

/-- `Rewatch`, and `RecursiveRewatch` of a path to itself with another event set (watcher_fsevents.go:234-244, 280-289). -/
def Swaps (c : Call) (p : Path) (old new : Event) (f : Bool) : Prop :=
  (c = .rewatch p old new ∧ f = false) ∨ (c = .recRewatch p p old new ∧ old ≠ new ∧ f = true)

/-- `gostream` up to the call of `fn` (watcher_fsevents_cgo.go:61-80). -/
def enter (s : Streams.S) (k : Nat) (batch : List Rep) : Option Cb :=
  (s.m.get? k).map fun w => { k := k, w := w, evs := batch.filter (fun r => decide (r.flags &&& wrapped = 0)) }

/-- The event that is sent for a flag of a change (watcher_fsevents.go:157-160, event_fsevents.go:69-72). -/
def info (r : Rep) (e : Event) : EventInfo := { event := e, path := r.path, isDir := some (decide (r.flags &&& Fsevents.isDirFlag ≠ 0)) }

/-- One iteration of the loop of `Dispatch` for the watch `w` with the values loaded at the start. -/
def handle (w : Fsevents.Watch) (e : Event) (f : Bool) (r : Rep) : Fsevents.Watch × List EventInfo :=
  let x := ({ w with events := e, isrec := f }).dispatch1 ⟨PathStr.str r.path, r.flags⟩
  ({ w with prev := x.1.prev, flushed := x.1.flushed }, x.2.map fun y => info r y.2)

/-- One step.  The labels: operations that begin; reports of FSEvents (stream and batch); signals. -/
inductive MStep (cfg : Sched.Cfg) (rel : Bool) : MSt → List Rec.ROp → List (Nat × List Rep) → List (Key × EventInfo) → MSt → Prop
  /-- A goroutine of the tree or of a user. -/
  | go {s} (l : Sched.Lab Sched.Req) (sys' : Sched.State Y) (h : Sched.Tr Y cfg s.sys l sys') (hl : Free l) :
      MStep cfg rel s [] [] (sigs l) { s with sys := sys' }
  /-- FSEvents reports a batch for a stream, which may be stopped already. -/
  | report {s} (k w : Nat) (p : Path) (batch : List Rep) (hk : (k, w, p) ∈ s.str.born) (hb : ∀ r ∈ batch, r.Ok) (hc : s.cb = none) :
      MStep cfg rel s [] [(k, batch)] [] { s with str := Streams.take s.str k, cb := enter s.str k batch }
  /-- `events := atomic.LoadUint32(&w.events)` -/
  | loadEvents {s} (b : Cb) (hc : s.cb = some b) (hb : b.events = none) :
      MStep cfg rel s [] [] [] { s with cb := some { b with events := some (s.heap b.w).events } }
  /-- `isrec := (atomic.LoadInt32(&w.isrec) == 1)` -/
  | loadRec {s} (b : Cb) (e : Event) (hc : s.cb = some b) (he : b.events = some e) (hb : b.isrec = none) :
      MStep cfg rel s [] [] [] { s with cb := some { b with isrec := some (s.heap b.w).isrec } }
  /-- One change is handled. -/
  | next {s} (b : Cb) (e : Event) (f : Bool) (r : Rep) (l : List Rep) (hc : s.cb = some b) (he : b.events = some e) (hf : b.isrec = some f)
      (hl : b.evs = r :: l) (ho : b.out = []) :
      MStep cfg rel s [] [] []
        { s with heap := put s.heap b.w (handle (s.heap b.w) e f r).1,
                 cb := some { b with evs := l, out := (handle (s.heap b.w) e f r).2 } }
  /-- One event is sent to the tree. -/
  | send {s} (b : Cb) (o : EventInfo) (l : List EventInfo) (hc : s.cb = some b) (ho : b.out = o :: l) (hq : s.sys.cq.length < cfg.capC) :
      MStep cfg rel s [] [] [] { s with cb := some { b with out := l }, sys := { s.sys with cq := s.sys.cq ++ [o] } }
  /-- The callback returns. -/
  | done {s} (b : Cb) (e : Event) (f : Bool) (hc : s.cb = some b) (he : b.events = some e) (hf : b.isrec = some f) (hl : b.evs = []) (ho : b.out = []) :
      MStep cfg rel s [] [] [] { s with str := { s.str with busy := s.str.busy.erase (b.k, b.w) }, cb := none }
  /-- An operation begins. -/
  | plan {s} (r : Sched.Req) (ops : List Rec.ROp) (t : St) (new : Log) (i : Nat) (hr : (i, r, Sched.Call.locked) ∈ s.sys.calls) (hp : s.plan = none)
      (ht : Plans rel s.sys.tree r ops t) (hn : t.world.log = new ++ s.sys.tree.world.log) :
      MStep cfg rel s ops [] [] { s with plan := some (r, t), todo := new.reverse }
  /-- `watch`; it may fail. -/
  | watch {s} (c : Call) (p : Path) (e : Event) (f : Bool) (x : Streams.Start) (rest : List (Call × Bool)) (ho : Opens c p e f) (hc : s.caller = .idle)
      (ht : s.todo = (c, (Streams.watch s.str p x).2) :: rest) :
      MStep cfg rel s [] [] []
        { s with str := (Streams.watch s.str p x).1, heap := put s.heap s.str.n { path := PathStr.str p, events := e, isrec := f },
                 todo := rest, log := (c, (Streams.watch s.str p x).2) :: s.log }
  /-- `unwatch` -/
  | unwatch {s} (c : Call) (p : Path) (rest : List (Call × Bool)) (ho : Shuts c p) (hc : s.caller = .idle)
      (ht : s.todo = (c, (Streams.unwatch s.str p).2) :: rest) :
      MStep cfg rel s [] [] []
        { s with str := (Streams.unwatch s.str p).1, todo := rest, log := (c, (Streams.unwatch s.str p).2) :: s.log }
  /-- The compare-and-swap of a Rewatch succeeds. -/
  | swap {s} (c : Call) (p : Path) (old new : Event) (f : Bool) (w k : Nat) (rest : List (Call × Bool)) (ho : Swaps c p old new f) (hc : s.caller = .idle)
      (ht : s.todo = (c, true) :: rest) (hw : s.str.table.get? p = some (w, k)) (he : (s.heap w).events = old) :
      MStep cfg rel s [] [] []
        { s with heap := put s.heap w { s.heap w with events := new }, caller := .storing w f, todo := rest, log := (c, true) :: s.log }
  /-- The rest of it. -/
  | store {s} (w : Nat) (f : Bool) (hc : s.caller = .storing w f) :
      MStep cfg rel s [] [] [] { s with heap := put s.heap w { s.heap w with isrec := f }, caller := .idle }
  /-- `RecursiveRewatch` with nothing changed (watcher_fsevents.go:273-279). -/
  | mark {s} (p : Path) (e : Event) (w k : Nat) (rest : List (Call × Bool)) (hc : s.caller = .idle)
      (ht : s.todo = (.recRewatch p p e e, true) :: rest) (hw : s.str.table.get? p = some (w, k)) :
      MStep cfg rel s [] [] []
        { s with heap := put s.heap w { s.heap w with isrec := true }, todo := rest, log := (.recRewatch p p e e, true) :: s.log }
  /-- `RecursiveRewatch` to another path: the old stream is stopped (watcher_fsevents.go:293-298). -/
  | leave {s} (p p' : Path) (old new : Event) (ok : Bool) (rest : List (Call × Bool)) (hp : p ≠ p') (hc : s.caller = .idle)
      (ht : s.todo = (.recRewatch p p' old new, ok) :: rest) (hn : s.str.table.get? p' = none) (hu : (Streams.unwatch s.str p).2 = true) :
      MStep cfg rel s [] [] []
        { s with str := (Streams.unwatch s.str p).1, caller := .moving p' new ok, todo := rest, log := (.recRewatch p p' old new, ok) :: s.log }
  /-- The new stream is started, or not (line 300). -/
  | arrive {s} (p : Path) (e : Event) (x : Streams.Start) (hc : s.caller = .moving p e (Streams.watch s.str p x).2) :
      MStep cfg rel s [] [] []
        { s with str := (Streams.watch s.str p x).1, heap := put s.heap s.str.n { path := PathStr.str p, events := e, isrec := true }, caller := .idle }
  /-- A Rewatch that finds no watch or another event set, a RecursiveRewatch that finds no watch or a watch at the new path. -/
  | refuse {s} (c : Call) (rest : List (Call × Bool)) (ht : s.todo = (c, false) :: rest) (hc : s.caller = .idle)
      (hf : (∃ p old new f, Swaps c p old new f ∧ ∀ w k, s.str.table.get? p = some (w, k) → (s.heap w).events ≠ old) ∨
        (∃ p e, c = .recRewatch p p e e ∧ s.str.table.get? p = none) ∨
        ∃ p p' old new, c = .recRewatch p p' old new ∧ p ≠ p' ∧ (s.str.table.get? p' ≠ none ∨ s.str.table.get? p = none)) :
      MStep cfg rel s [] [] [] { s with todo := rest, log := (c, false) :: s.log }
  /-- A Watch or Stop is done with the tree. -/
  | effect {s} (i : Nat) (r : Sched.Req) (a b : List (Nat × Sched.Req × Sched.Call)) (t : St) (h : s.sys.calls = a ++ (i, r, .locked) :: b)
      (hp : s.plan = some (r, t)) (ht : s.todo = []) (hc : s.caller = .idle) :
      MStep cfg rel s [] [] [] { s with sys := { s.sys with tree := t, calls := a ++ (i, r, .applied) :: b }, plan := none }

/-- `MRun cfg safe pre s ops reps sigs s'`: an execution from `s`, before which the operations `pre` began, to `s'`; operations that began, reports
of FSEvents and signals, each oldest first.  With `safe` all operations are harmless (`Rec.Safe`). -/
inductive MRun (cfg : Sched.Cfg) (safe : Bool) (pre : List Rec.ROp) (s : MSt) :
    List Rec.ROp → List (Nat × List Rep) → List (Key × EventInfo) → MSt → Prop
  | refl : MRun cfg safe pre s [] [] [] s
  | step {ops reps sg o r g s' s''} : MRun cfg safe pre s ops reps sg s' → MStep cfg safe s' o r g s'' →
      (safe = true → ∀ op ∈ o, Rec.Safe (Rec.rregOf (pre ++ ops)) s'.sys.tree.world.log op) →
      MRun cfg safe pre s (ops ++ o) (reps ++ r) (sg ++ g) s''

/-- Nothing is on its way. -/
def MSt.Quiet (s : MSt) : Prop := s.cb = none ∧ s.sys.cq = [] ∧ s.sys.disp = []

end Mac
end Verif
