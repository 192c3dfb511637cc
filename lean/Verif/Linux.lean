/-
The whole program on Linux as one transition system: users' calls, tree, dispatch, watcher and kernel.

Combines `Sched` with the tree of `NonRec` (/repo/tree_nonrecursive.go, /repo/tree.go:7-22) and `InotifyPipe` with the tables of
`Inotify` (/repo/watcher_inotify.go).  New here are the points at which the two parts meet:
* a consumer sends an event on `i.c` (watcher_inotify.go:252), the channel `c` that `newTree` makes (tree.go:16) and `dispatch`
  receives from (tree_nonrecursive.go:36); the send waits while its buffer is full;
* under the tree's lock, a Watch, a Stop or the internal goroutine calls the watcher, one call after the other
  (tree_nonrecursive.go:82-114, 178-184, 298-300); consumers, dispatch and kernel go on meanwhile, between these calls and in the
  middle of each.

Simplifications: those of the parts.  What an operation does to the tree happens in one step, after its last call of the
watcher; nobody else looks at the tree between its Lock and its Unlock.  The outcome of the calls is guessed when the operation begins
(`plan`), and executions in which a guess turns out wrong end there: what an operation does up to a call does not depend on the outcomes
of later calls, so each execution of the program is one in which the guesses were right.  Executions are called stable if files are not moved, there
are no hard links, and the calls whose failure the code ignores succeed.  Events of the entries of `/` are left out (`okEv`, see C43).
-/
import Verif.SchedTrees
import Verif.PropsInotify3
import Verif.PropsGap

namespace Verif
namespace Linux
open Inotify (PSt PStep Raw Out)

/-- The tree. -/
abbrev Y : Sched.Sys := Sched.plainTree Platform.inotify

/-- A state of the program and the kernel. -/
structure LSt where
  /-- Tree, lock, goroutines of the tree and of the users. -/
  sys : Sched.State Y
  /-- Watcher, its goroutines, kernel. -/
  pipe : PSt
  /-- The operation that holds the lock and has begun: request, and the tree when it is done. -/
  plan : Option (Sched.Req × St) := none
  /-- The calls of the watcher that it still has to begin, with outcomes. -/
  todo : List (Call × Bool) := []
  /-- All calls of the watcher that were begun, newest first. -/
  log : Log := []

/-- At the start of the program; `n` consumers. -/
def LSt.init (f : Path → Option Nat) (n : Nat) : LSt := { sys := .init Y, pipe := .init f n }

/-- The request that has the lock, and is not done. -/
def LSt.Holds (s : LSt) (r : Sched.Req) : Prop :=
  (∃ i, (i, r, Sched.Call.locked) ∈ s.sys.calls) ∨ ∃ ei, s.sys.int = .locked ei ∧ r = .internal ei

/-- The operation is an execution of the request. -/
def Fits : Sched.Req → NonRec.Op → Prop
  | .watch p isrec c e, op => ∃ res, op = .watch p isrec c e res
  | .stop c, op => op = .stop c
  | .internal ei, op => op = .internal ei

/-- What the request may do to the tree; `ops` has the operation, and before it possibly a change of map order. -/
def Plans (rel : Bool) (s : St) (r : Sched.Req) (ops : List NonRec.Op) (t : St) : Prop :=
  NonRec.Steps Platform.inotify rel s ops t ∧ ∃ op, Fits r op ∧ (ops = [op] ∨ ops = [.shuffle, op])

/-- Steps of `Sched` that do not touch the watcher. -/
def Free : Sched.Lab Sched.Req → Prop
  | .report _ | .push _ | .effect _ _ | .intEffect _ => False
  | _ => True

/-- Sends to channels: the signals. -/
def sigs : Sched.Lab Sched.Req → List (Key × EventInfo)
  | .send _ k ei => [(k, ei)]
  | _ => []

/-- `Watch` or `Rewatch` of the watcher (watcher_inotify.go:74-81). -/
def Asks (c : Call) (p : Path) (e : Event) : Prop := c = .watch p e ∨ ∃ old, c = .rewatch p old e

/-- The watcher after the call that is running. -/
def settle (s : PSt) : Inotify.St :=
  match s.caller with
  | .idle => s.k
  | .added wd p e => { s.k with m := s.k.m.set wd ⟨p, e⟩ }
  | .removed wd => { s.k with m := s.k.m.del wd }

/-- There are no hard links, and the paths in the watcher's table (or about to be put there) lead where they led before. -/
def Keeps (a b : PSt) : Prop :=
  Inotify.NoLinks b.k.inode ∧ ∀ wd w, (settle a).m.get? wd = some w → b.k.inode w.path = a.k.inode w.path

/-- One step.  The labels: operations that begin; records that the kernel adds to its queue; signals.  With `stable`, paths lead where they led before, and
calls of the watcher whose failure the tree ignores succeed. -/
inductive LStep (cfg : Sched.Cfg) (stable : Bool) : LSt → List NonRec.Op → List Raw → List (Key × EventInfo) → LSt → Prop
  /-- A goroutine of the tree or of a user. -/
  | go {s} (l : Sched.Lab Sched.Req) (sys' : Sched.State Y) (h : Sched.Tr Y cfg s.sys l sys') (hl : Free l) :
      LStep cfg stable s [] [] (sigs l) { s with sys := sys' }
  /-- The kernel, the loop of the watcher or a consumer that does not send. -/
  | pipe {s} (raws : List Raw) (p' : PSt) (h : PStep s.pipe raws p') (hc : p'.caller = s.pipe.caller) (ho : p'.out = s.pipe.out)
      (hst : stable = true → Keeps s.pipe p') : LStep cfg stable s [] raws [] { s with pipe := p' }
  /-- A consumer sends an event to the tree. -/
  | send {s} (i : Nat) (o : Out) (l : List Out) (h : s.pipe.cons[i]? = some (.sending (o :: l))) (hc : s.sys.cq.length < cfg.capC)
      (hok : Y.okEv o.info) :
      LStep cfg stable s [] [] []
        { s with pipe := { s.pipe with cons := s.pipe.cons.set i (.sending l), out := s.pipe.out ++ [o] },
                 sys := { s.sys with cq := s.sys.cq ++ [o.info] } }
  /-- An operation begins. -/
  | plan {s} (r : Sched.Req) (ops : List NonRec.Op) (t : St) (new : Log) (hr : s.Holds r) (hp : s.plan = none)
      (ht : Plans stable s.sys.tree r ops t) (hn : t.world.log = new ++ s.sys.tree.world.log) :
      LStep cfg stable s ops [] [] { s with plan := some (r, t), todo := new.reverse }
  /-- `watch` up to and with inotify_add_watch. -/
  | add {s} (c : Call) (p : Path) (e : Event) (rest : List (Call × Bool)) (wd : Nat) (k' : Inotify.St) (ht : s.todo = (c, true) :: rest)
      (ha : Asks c p e) (hc : s.pipe.caller = .idle) (he : Inotify.accepts e = true)
      (hk : Inotify.addWatch s.pipe.k p (Inotify.encode e) = some (wd, k')) :
      LStep cfg stable s [] [] []
        { s with pipe := { s.pipe with k := k', caller := .added wd p e }, todo := rest, log := (c, true) :: s.log }
  /-- The rest of `watch`. -/
  | table {s} (wd : Nat) (p : Path) (e : Event) (hc : s.pipe.caller = .added wd p e) :
      LStep cfg stable s [] [] []
        { s with pipe := { s.pipe with k := { s.pipe.k with m := s.pipe.k.m.set wd ⟨p, e⟩ }, caller := .idle } }
  /-- `Unwatch` up to and with inotify_rm_watch. -/
  | rm {s} (p : Path) (rest : List (Call × Bool)) (wd : Nat) (w : Inotify.Watched) (l : List Raw) (ht : s.todo = (.unwatch p, true) :: rest)
      (hc : s.pipe.caller = .idle) (hf : s.pipe.k.m.find? (fun x => decide (x.2.path = p)) = some (wd, w))
      (hl : l = [] ∨ l = [{ wd := wd, mask := Inotify.inIgnored }]) :
      LStep cfg stable s [] l []
        { s with pipe := { s.pipe with k := { s.pipe.k with watches := s.pipe.k.watches.del wd }, queue := s.pipe.queue ++ l, caller := .removed wd },
                 todo := rest, log := (.unwatch p, true) :: s.log }
  /-- The rest of `Unwatch`. -/
  | forget {s} (wd : Nat) (hc : s.pipe.caller = .removed wd) :
      LStep cfg stable s [] [] []
        { s with pipe := { s.pipe with k := { s.pipe.k with m := s.pipe.k.m.del wd }, caller := .idle } }
  /-- A Watch or Rewatch fails, or an Unwatch, because it finds no descriptor or inotify_rm_watch fails. -/
  | refuse {s} (c : Call) (rest : List (Call × Bool)) (ht : s.todo = (c, false) :: rest) (hc : s.pipe.caller = .idle)
      (hf : (∃ p e, Asks c p e) ∨ ∃ p, c = .unwatch p ∧ (stable = false ∨ s.pipe.k.m.find? (fun x => decide (x.2.path = p)) = none)) :
      LStep cfg stable s [] [] [] { s with todo := rest, log := (c, false) :: s.log }
  /-- A Watch or Stop is done with the tree. -/
  | effect {s} (i : Nat) (r : Sched.Req) (a b : List (Nat × Sched.Req × Sched.Call)) (t : St) (h : s.sys.calls = a ++ (i, r, .locked) :: b)
      (hp : s.plan = some (r, t)) (ht : s.todo = []) (hc : s.pipe.caller = .idle) :
      LStep cfg stable s [] [] [] { s with sys := { s.sys with tree := t, calls := a ++ (i, r, .applied) :: b }, plan := none }
  /-- The internal goroutine is done with the tree. -/
  | intEffect {s} (ei : EventInfo) (t : St) (h : s.sys.int = .locked ei) (hp : s.plan = some (.internal ei, t)) (ht : s.todo = [])
      (hc : s.pipe.caller = .idle) :
      LStep cfg stable s [] [] [] { s with sys := { s.sys with tree := t, int := .applied ei }, plan := none }

/-- `LRun cfg stable I s ops raws sigs s'`: an execution from `s` to `s'` in which all states, including these two, meet `I`;
operations that began, records queued by the kernel and signals, each oldest first. -/
inductive LRun (cfg : Sched.Cfg) (stable : Bool) (I : LSt → Prop) (s : LSt) :
    List NonRec.Op → List Raw → List (Key × EventInfo) → LSt → Prop
  | refl : I s → LRun cfg stable I s [] [] [] s
  | step {ops raws sg o r g s' s''} : LRun cfg stable I s ops raws sg s' → LStep cfg stable s' o r g s'' → I s'' →
      LRun cfg stable I s (ops ++ o) (raws ++ r) (sg ++ g) s''

/-- Nothing is on its way. -/
def LSt.Quiet (s : LSt) : Prop := s.pipe.Quiet ∧ s.sys.cq = [] ∧ s.sys.disp = []

end Linux
end Verif
