/-
The whole program on Windows as one transition system: users' calls, tree, dispatch, watcher and kernel.

Combines `Sched` with the tree of `Rec` (/repo/tree_recursive.go, /repo/tree.go:7-22) and `Dcw` (/repo/watcher_readdcw.go).  New here are the
points at which the parts meet:
* the kernel completes a read with records of changes in the buffer of the grip (at least one, or none if they did not fit), or with none because the
  handle was closed or `unwatch` posted the packet; the packets wait in the queue of the completion port, in this order;
* the loop takes a packet, makes events of its records with the filter that the grip has then (watcher_readdcw.go:401-421 `loopevent`) and sends them one after the other
  (`send`, lines 424-453) on `r.c`, the channel `c` that `newTree` makes and `dispatch` receives from (tree_recursive.go:125); a send waits while its buffer is
  full, and only when all are sent the loop reads again (line 369) and looks at the state of the entry (line 372);
* under the tree's lock, a Watch or a Stop calls the watcher, one call after the other (tree_recursive.go:206-210, 241, 257-276, 285-289, 317-329); the
  loop, dispatch and the kernel go on meanwhile, between these calls and in the middle of a `RecursiveRewatch` to another path, which first unwatches the
  old path and then watches the new one, each under the watcher's lock (watcher_readdcw.go:463-468).

Simplifications: those of the parts.  What an operation does to the tree happens in one step, after its last call of the watcher; nobody else
looks at the tree between its Lock and its Unlock.  The outcomes of the calls are guessed when the operation begins (`plan`), as in `Linux`.
Executions end where the program panics.  The path of an event is the path of the directory followed by the name in the record (event_readdcw.go:`Path`,
`filepath.Join`).  `Close` is left out.
-/
import Verif.PropsReaddcw5
import Verif.PropsMac

namespace Verif
namespace Win
open Linux (Free sigs)

/-- The tree. -/
abbrev Y : Sched.Sys := Sched.recTree Platform.readdcw

/-- One record in the buffer: name relative to the directory, and action. -/
structure Chg where
  name : Path
  act : Dcw.Action
  deriving DecidableEq

/-- Where the call of the watcher is. -/
inductive Caller
  | idle
  /-- After the old path was unwatched, before the new one is watched; whether this succeeds. -/
  | moving (p : Path) (e : Event) (ok : Bool)

/-- A state of the program and the kernel. -/
structure WSt where
  /-- Tree, lock, goroutines of the tree and of the users. -/
  sys : Sched.State Y
  /-- The watcher, and what the kernel has of it. -/
  w : Dcw.St := {}
  /-- The queue of the completion port: grip and records of each packet. -/
  pk : List (Nat × List Chg) := []
  /-- What the loop still has to send of the packet in its hand. -/
  out : List EventInfo := []
  caller : Caller := .idle
  /-- The operation that holds the lock and has begun: request, and the tree when it is done. -/
  plan : Option (Sched.Req × St) := none
  /-- The calls of the watcher that it still has to begin, with outcomes. -/
  todo : List (Call × Bool) := []
  /-- All calls of the watcher that were begun, newest first. -/
  log : Log := []

/-- At the start of the program. -/
def WSt.init : WSt := { sys := .init Y }

/-- The operation is an execution of the request. -/
def Fits : Sched.Req → Rec.ROp → Prop
  | .watch p isrec c e, op => ∃ res, op = .watch p isrec c e res
  | .stop c, op => op = .stop c
  | .internal _, _ => False

/-- What the request may do to the tree; `ops` has the operation, and before it possibly a change of map order. -/
def Plans (rel : Bool) (s : St) (r : Sched.Req) (ops : List Rec.ROp) (t : St) : Prop :=
  Rec.RSteps Platform.readdcw rel s ops t ∧ t.world.panicked = false ∧ ∃ op, Fits r op ∧ (ops = [op] ∨ ops = [.shuffle, op])

/-- `Watch` and `RecursiveWatch` (watcher_readdcw.go:284-292). -/
def Opens (c : Call) (p : Path) (e : Event) (f : Bool) : Prop := (c = .watch p e ∧ f = false) ∨ (c = .recWatch p e ∧ f = true)

/-- `Unwatch` and `RecursiveUnwatch` (watcher_readdcw.go:511-518). -/
def Shuts (c : Call) (p : Path) : Prop := c = .unwatch p ∨ c = .recUnwatch p

/-- `Rewatch`, and `RecursiveRewatch` of a path to itself (watcher_readdcw.go:456-458, 469). -/
def Swaps (c : Call) (p : Path) (old new : Event) (f : Bool) : Prop :=
  (c = .rewatch p old new ∧ f = false) ∨ (c = .recRewatch p p old new ∧ f = true)

/-- The records that a read of the directory may be completed with: names that are not empty, of one component unless the read is for the whole subtree. -/
def Ok (dir : Path) (sub : Bool) (l : List Chg) : Prop := ∀ y ∈ l, y.name ≠ [] ∧ [] ∉ dir ++ y.name ∧ (sub = false → y.name.length = 1)

/-- The events that `loopevent` makes of the records (watcher_readdcw.go:401-453). -/
def events (g : Dcw.Grip) (l : List Chg) : List EventInfo := l.flatMap fun y => Dcw.send g.filter y.act (g.path ++ y.name)

/-- Packets without records, for what was added to the queue. -/
def more (w w' : Dcw.St) : List (Nat × List Chg) := (w'.queue.drop w.queue.length).map fun g => (g, [])

/-- A record of the kernel: the directory whose handle reported, and what. -/
abbrev Note := Path × List Chg

/-- One step.  The labels: operations that begin; what happens in the watcher; reports of the kernel (directory and records); signals. -/
inductive WStep (cfg : Sched.Cfg) (rel : Bool) : WSt → List Rec.ROp → List Dcw.Op → List Note → List (Key × EventInfo) → WSt → Prop
  /-- A goroutine of the tree or of a user. -/
  | go {s} (l : Sched.Lab Sched.Req) (sys' : Sched.State Y) (h : Sched.Tr Y cfg s.sys l sys') (hl : Free l) :
      WStep cfg rel s [] [] [] (sigs l) { s with sys := sys' }
  /-- The kernel completes a read. -/
  | complete {s} (r : Dcw.Read) (l : List Chg) (h : r ∈ s.w.reads) (hl : Ok (s.w.grips r.g).path r.sub l) :
      WStep cfg rel s [] [.tau] [((s.w.grips r.g).path, l)] [] { s with w := Dcw.complete s.w r, pk := s.pk ++ [(r.g, l)] }
  /-- The loop takes a packet. -/
  | take {s} (g : Nat) (l : List Chg) (pk' : List (Nat × List Chg)) (hw : s.w.loop = .idle) (hp : s.pk = (g, l) :: pk') (ho : s.out = []) :
      WStep cfg rel s [] [.tau] [] []
        { s with w := Dcw.take s.w, pk := pk', out := if (s.w.grips g).linked then events (s.w.grips g) l else [] }
  /-- One event is sent to the tree. -/
  | send {s} (o : EventInfo) (l : List EventInfo) (ho : s.out = o :: l) (hq : s.sys.cq.length < cfg.capC) :
      WStep cfg rel s [] [] [] [] { s with out := l, sys := { s.sys with cq := s.sys.cq ++ [o] } }
  /-- The loop reads again. -/
  | again {s} (g : Nat) (ok : Bool) (hw : s.w.loop = .got g) (ho : s.out = []) :
      WStep cfg rel s [] [.tau] [] [] { s with w := Dcw.again s.w ok }
  /-- `loopstate` -/
  | state {s} (g : Nat) (a0 a1 : Dcw.Ans) (w' : Dcw.St) (hw : s.w.loop = .st g) (h : Dcw.loopstate s.w a0 a1 = some w') :
      WStep cfg rel s [] [.tau] [] [] { s with w := w', pk := s.pk ++ more s.w w' }
  /-- An operation begins. -/
  | plan {s} (r : Sched.Req) (ops : List Rec.ROp) (t : St) (new : Log) (i : Nat) (hr : (i, r, Sched.Call.locked) ∈ s.sys.calls) (hp : s.plan = none)
      (ht : Plans rel s.sys.tree r ops t) (hn : t.world.log = new ++ s.sys.tree.world.log) :
      WStep cfg rel s ops [] [] [] { s with plan := some (r, t), todo := new.reverse }
  /-- `watch`; it may fail. -/
  | watch {s} (c : Call) (p : Path) (e : Event) (f : Bool) (a0 a1 : Dcw.Ans) (rest : List (Call × Bool)) (ho : Opens c p e f) (hc : s.caller = .idle)
      (ht : s.todo = (c, (Dcw.watch s.w p e f a0 a1).2) :: rest) :
      WStep cfg rel s [] [.watch p e f (Dcw.watch s.w p e f a0 a1).2] [] []
        { s with w := (Dcw.watch s.w p e f a0 a1).1, pk := s.pk ++ more s.w (Dcw.watch s.w p e f a0 a1).1,
                 todo := rest, log := (c, (Dcw.watch s.w p e f a0 a1).2) :: s.log }
  /-- `unwatch` -/
  | unwatch {s} (c : Call) (p : Path) (gone : Bool) (rest : List (Call × Bool)) (ho : Shuts c p) (hc : s.caller = .idle)
      (ht : s.todo = (c, (Dcw.unwatch s.w p gone).2) :: rest) :
      WStep cfg rel s [] [.unwatch p (Dcw.unwatch s.w p gone).2] [] []
        { s with w := (Dcw.unwatch s.w p gone).1, pk := s.pk ++ more s.w (Dcw.unwatch s.w p gone).1,
                 todo := rest, log := (c, (Dcw.unwatch s.w p gone).2) :: s.log }
  /-- `rewatch` -/
  | rewatch {s} (c : Call) (p : Path) (old new : Event) (f : Bool) (w' : Dcw.St) (ok : Bool) (rest : List (Call × Bool)) (ho : Swaps c p old new f)
      (hc : s.caller = .idle) (h : Dcw.rewatch s.w p old new f = some (w', ok)) (ht : s.todo = (c, ok) :: rest) :
      WStep cfg rel s [] [.rewatch p old new f ok] [] []
        { s with w := w', pk := s.pk ++ more s.w w', todo := rest, log := (c, ok) :: s.log }
  /-- `RecursiveRewatch` to another path: the old path is unwatched (watcher_readdcw.go:464). -/
  | leave {s} (p p' : Path) (old new : Event) (gone ok : Bool) (rest : List (Call × Bool)) (hp : p ≠ p') (hc : s.caller = .idle)
      (ht : s.todo = (.recRewatch p p' old new, ok) :: rest) (hu : (Dcw.unwatch s.w p gone).2 = true) :
      WStep cfg rel s [] [.unwatch p true] [] []
        { s with w := (Dcw.unwatch s.w p gone).1, pk := s.pk ++ more s.w (Dcw.unwatch s.w p gone).1, caller := .moving p' new ok,
                 todo := rest, log := (.recRewatch p p' old new, ok) :: s.log }
  /-- The new path is watched, or not (line 467). -/
  | arrive {s} (p : Path) (e : Event) (a0 a1 : Dcw.Ans) (hc : s.caller = .moving p e (Dcw.watch s.w p e true a0 a1).2) :
      WStep cfg rel s [] [.watch p e true (Dcw.watch s.w p e true a0 a1).2] [] []
        { s with w := (Dcw.watch s.w p e true a0 a1).1, pk := s.pk ++ more s.w (Dcw.watch s.w p e true a0 a1).1, caller := .idle }
  /-- The old path cannot be unwatched (lines 464-466). -/
  | refuse {s} (p p' : Path) (old new : Event) (rest : List (Call × Bool)) (hp : p ≠ p') (hc : s.caller = .idle)
      (ht : s.todo = (.recRewatch p p' old new, false) :: rest) (hu : (Dcw.unwatch s.w p false).2 = false) :
      WStep cfg rel s [] [.unwatch p false] [] [] { s with todo := rest, log := (.recRewatch p p' old new, false) :: s.log }
  /-- A Watch or Stop is done with the tree. -/
  | effect {s} (i : Nat) (r : Sched.Req) (a b : List (Nat × Sched.Req × Sched.Call)) (t : St) (h : s.sys.calls = a ++ (i, r, .locked) :: b)
      (hp : s.plan = some (r, t)) (ht : s.todo = []) (hc : s.caller = .idle) :
      WStep cfg rel s [] [] [] [] { s with sys := { s.sys with tree := t, calls := a ++ (i, r, .applied) :: b }, plan := none }

/-- `WRun cfg safe pre wpre s ops wops reps sigs s'`: an execution from `s`, before which the operations `pre` began and `wpre` happened in the watcher, to
`s'`; operations that began, what happened in the watcher, reports of the kernel and signals, each oldest first.  With `safe` all operations are
harmless (`Rec.Safe`), and the watcher meets none of the races and failures of C60-C62 (`Dcw.CStep`). -/
inductive WRun (cfg : Sched.Cfg) (safe : Bool) (pre : List Rec.ROp) (wpre : List Dcw.Op) (s : WSt) :
    List Rec.ROp → List Dcw.Op → List Note → List (Key × EventInfo) → WSt → Prop
  | refl : WRun cfg safe pre wpre s [] [] [] [] s
  | step {ops wops reps sg o wo r g s' s''} : WRun cfg safe pre wpre s ops wops reps sg s' → WStep cfg safe s' o wo r g s'' →
      (safe = true → (∀ op ∈ o, Rec.Safe (Rec.rregOf (pre ++ ops)) s'.sys.tree.world.log op) ∧
        ∀ op ∈ wo, Dcw.CStep (Dcw.asked (wpre ++ wops)) s'.w op s''.w) →
      WRun cfg safe pre wpre s (ops ++ o) (wops ++ wo) (reps ++ r) (sg ++ g) s''

/-- Nothing is on its way. -/
def WSt.Quiet (s : WSt) : Prop := s.w.queue = [] ∧ s.w.loop = .idle ∧ s.out = [] ∧ s.sys.cq = [] ∧ s.sys.disp = []

end Win
end Verif
