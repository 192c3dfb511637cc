/-
The whole program on the BSDs (kqueue) as one transition system: users' calls, tree, dispatch, watcher and kernel.

Combines `Sched` with the tree of `NonRec` (/repo/tree_nonrecursive.go, /repo/tree.go:7-22) and the watcher of `Trigger`
(/repo/watcher_trigger.go, /repo/watcher_kqueue.go).  New here:
* the goroutine of the watcher (`monitor`, watcher_trigger.go:399-416): it waits for a notification (watcher_kqueue.go:140-149), processes it under the
  mutex of `trg` (419-454), and sends the events one after the other on `t.c` (144-148), the channel that `dispatch` receives from; the send waits while
  its buffer is full;
* the kernel keeps, for each registered descriptor, the flags that came up since the last notification of it was retrieved (`pend`; the registration
  is with EV_CLEAR, watcher_kqueue.go:132-133).  Flags that come up meanwhile are merged into one notification.  EV_DELETE (watcher_kqueue.go:120-126) and
  the closing of a descriptor discard them; a further EV_ADD does not (kqueue(2));
* a notification that was retrieved before its descriptor was closed is dropped (`Watched`, watcher_kqueue.go:152-161);
* under the tree's lock, a Watch, a Stop or the internal goroutine calls the watcher, one call after the other; the monitor, dispatch and the kernel
  go on between these calls.

Simplifications: those of the parts.  A call of the watcher and the processing of a notification happen in one step each, as both hold the mutex of
`trg` from start to end; changes of files during the step count as before it or after it.  Descriptors are not reused (see C81).  As in `Linux`, what an
operation does to the tree happens in one step after its last call of the watcher, and the outcomes of the calls are guessed when it begins.  Paths that the watcher skips without telling (sockets, dangling links) are not watched by name.
-/
import Verif.Linux
import Verif.PropsTrigger7

namespace Verif
namespace Bsd
open Trg (kqueue Env)
open Linux (Fits Free sigs)

/-- The tree. -/
abbrev Y : Sched.Sys := Sched.plainTree Platform.kqueue

/-- A state of the program and the kernel. -/
structure KSt where
  /-- Tree, lock, goroutines of the tree and of the users. -/
  sys : Sched.State Y
  /-- The watcher's table and the native watches. -/
  w : Trg.St := {}
  /-- For the entry of a path: flags that came up since the last notification was retrieved. -/
  pend : Path → Event := fun _ => 0
  /-- The notification that `Wait` returned: descriptor, path of its entry, flags. -/
  hand : Option (Nat × Path × Event) := none
  /-- The events that `send` still has to send. -/
  out : List EventInfo := []
  /-- The operation that holds the lock and has begun: request, and the tree when it is done. -/
  plan : Option (Sched.Req × St) := none
  /-- The calls of the watcher that it still has to make, with outcomes. -/
  todo : List (Verif.Call × Bool) := []
  /-- All calls of the watcher that were made, newest first. -/
  log : Log := []

/-- At the start of the program. -/
def KSt.init : KSt := { sys := .init Y }

/-- The request that has the lock, and is not done. -/
def KSt.Holds (s : KSt) (r : Sched.Req) : Prop :=
  (∃ i, (i, r, Sched.Call.locked) ∈ s.sys.calls) ∨ ∃ ei, s.sys.int = .locked ei ∧ r = .internal ei

/-- What the request may do to the tree; `ops` has the operation, and before it possibly a change of map order. -/
def Plans (rel : Bool) (s : St) (r : Sched.Req) (ops : List NonRec.Op) (t : St) : Prop :=
  NonRec.Steps Platform.kqueue rel s ops t ∧ ∃ op, Fits r op ∧ (ops = [op] ∨ ops = [.shuffle, op])

/-- What may happen outside of the program. -/
structure Outside where
  /-- What the OS may answer during a call of the watcher and the processing of a notification. -/
  env : Env → Prop
  /-- Which flags may come up for which file. -/
  chg : Path → Event → Prop
  /-- Calls of the watcher whose failure the tree ignores succeed. -/
  rel : Bool

/-- The call ends the registration of the entry of `q`, even if another one follows (watcher_trigger.go:239-253, 268-295, 381-383). -/
def cuts (E : Env) (c : Verif.Call) (q : Path) : Bool :=
  let at_ (p : Path) : Bool :=
    match E.stat p, E.list p with
    | none, _ => false
    | some true, .ok l => q == p || l.any fun x => q == Trg.join p x.1
    | _, _ => q == p
  match c with
  | .unwatch p => at_ p
  | .rewatch p _ _ => at_ p
  | _ => false

/-- An event as the tree gets it (event_trigger.go:10-23). -/
def info (ev : Trg.Ev) : EventInfo := { event := ev.event, path := ev.path, isDir := some ev.isDir }

/-- `process` of a notification: nothing if the descriptor is not known any more. -/
def handle (E : Env) (w : Trg.St) (fd : Nat) (p : Path) (ge : Event) : Trg.St × List Trg.Ev :=
  if (w.lkp.get? p).map (·.fd) = some fd then Trg.process kqueue E (Trg.retrieved kqueue w p) p ge else (w, [])

/-- Nothing is pending for what is not registered. -/
def live (w : Trg.St) (pend : Path → Event) : Path → Event := fun q => if w.nat.get? q = none then 0 else pend q

/-- One step.  The labels: operations that begin; calls of the watcher; flags that came up; signals. -/
inductive KStep (cfg : Sched.Cfg) (X : Outside) :
    KSt → List NonRec.Op → List (Verif.Call × Bool) → List (Path × Event) → List (Key × EventInfo) → KSt → Prop
  /-- A goroutine of the tree or of a user. -/
  | go {s} (l : Sched.Lab Sched.Req) (sys' : Sched.State Y) (h : Sched.Tr Y cfg s.sys l sys') (hl : Free l) :
      KStep cfg X s [] [] [] (sigs l) { s with sys := sys' }
  /-- Something happens to the file of an entry that the kernel is to report. -/
  | change {s} (p : Path) (fl m : Event) (hx : X.chg p fl) (hm : s.w.nat.get? p = some m) (hf : fl &&& m ≠ 0) :
      KStep cfg X s [] [] [(p, fl)] [] { s with pend := fun q => if q = p then s.pend p ||| (fl &&& m) else s.pend q }
  /-- `Wait` returns. -/
  | wait {s} (p : Path) (w : Trg.W) (hh : s.hand = none) (ho : s.out = []) (hp : s.pend p ≠ 0) (hw : s.w.lkp.get? p = some w) :
      KStep cfg X s [] [] [] []
        { s with hand := some (w.fd, p, s.pend p), pend := fun q => if q = p then 0 else s.pend q }
  /-- `process`. -/
  | process {s} (E : Env) (fd : Nat) (p : Path) (ge : Event) (hx : X.env E) (hh : s.hand = some (fd, p, ge)) :
      KStep cfg X s [] [] [] []
        { s with w := (handle E s.w fd p ge).1, out := (handle E s.w fd p ge).2.map info, hand := none, pend := live (handle E s.w fd p ge).1 s.pend }
  /-- `send` sends an event to the tree. -/
  | send {s} (ei : EventInfo) (l : List EventInfo) (h : s.out = ei :: l) (hc : s.sys.cq.length < cfg.capC) (hok : Y.okEv ei) :
      KStep cfg X s [] [] [] [] { s with out := l, sys := { s.sys with cq := s.sys.cq ++ [ei] } }
  /-- An operation begins. -/
  | plan {s} (r : Sched.Req) (ops : List NonRec.Op) (t : St) (new : Log) (hr : s.Holds r) (hp : s.plan = none)
      (ht : Plans X.rel s.sys.tree r ops t) (hn : t.world.log = new ++ s.sys.tree.world.log) :
      KStep cfg X s ops [] [] [] { s with plan := some (r, t), todo := new.reverse }
  /-- A call of the watcher. -/
  | call {s} (E : Env) (c : Verif.Call) (ok : Bool) (rest : List (Verif.Call × Bool)) (w' : Trg.St) (hx : X.env E) (ht : s.todo = (c, ok) :: rest)
      (hs : Trg.Serves kqueue E s.w c ok w') :
      KStep cfg X s [] [(c, ok)] [] []
        { s with w := w', pend := live w' (fun q => if cuts E c q then 0 else s.pend q), todo := rest, log := (c, ok) :: s.log }
  /-- A Watch or Stop is done with the tree. -/
  | effect {s} (i : Nat) (r : Sched.Req) (a b : List (Nat × Sched.Req × Sched.Call)) (t : St) (h : s.sys.calls = a ++ (i, r, .locked) :: b)
      (hp : s.plan = some (r, t)) (ht : s.todo = []) :
      KStep cfg X s [] [] [] [] { s with sys := { s.sys with tree := t, calls := a ++ (i, r, .applied) :: b }, plan := none }
  /-- The internal goroutine is done with the tree. -/
  | intEffect {s} (ei : EventInfo) (t : St) (h : s.sys.int = .locked ei) (hp : s.plan = some (.internal ei, t)) (ht : s.todo = []) :
      KStep cfg X s [] [] [] [] { s with sys := { s.sys with tree := t, int := .applied ei }, plan := none }

/-- `KRun cfg X s ops calls chgs sigs s'`: an execution from `s` to `s'`; operations that began, calls of the watcher, flags that came up, signals, each
oldest first. -/
inductive KRun (cfg : Sched.Cfg) (X : Outside) (s : KSt) :
    List NonRec.Op → List (Verif.Call × Bool) → List (Path × Event) → List (Key × EventInfo) → KSt → Prop
  | refl : KRun cfg X s [] [] [] [] s
  | step {ops calls chgs sg o k r g s' s''} : KRun cfg X s ops calls chgs sg s' → KStep cfg X s' o k r g s'' →
      KRun cfg X s (ops ++ o) (calls ++ k) (chgs ++ r) (sg ++ g) s''

/-- Nothing is on its way. -/
def KSt.Quiet (s : KSt) : Prop := (∀ q, s.pend q = 0) ∧ s.hand = none ∧ s.out = [] ∧ s.sys.cq = [] ∧ s.sys.disp = []

/-- The set of files stays as it is and there are no errors; files are not removed or renamed. -/
def calm (E : Env) : Outside where
  env := fun E' => E' = E
  chg := fun _ fl => fl &&& (kqueue.nRemove ||| kqueue.nRename) = 0
  rel := true

end Bsd
end Verif
