/-
The whole program on Solaris and illumos (FEN) as one transition system: users' calls, tree, dispatch, watcher and kernel.

As `Bsd`, with the watcher of `Trigger` for FEN (/repo/watcher_trigger.go, /repo/watcher_fen.go, /repo/watcher_fen_cgo.go).  New here:
* the associations that the watcher makes and ends.  port_associate is called with a new file object every time (watcher_fen_cgo.go:71-80), so that it makes
  a further association even if the path has one; port_dissociate ends that of the newest object of the path (82-92).  The functions of the watcher
  are those of `Trigger`, and record the calls of port_associate and port_dissociate that they make (`Rec`);
* the kernel: a change of a file is an event of all its associations that ask for it; the event ends the association (port_associate(3C)).  Until the
  watcher associates the file again (watcher_trigger.go:429-438), further changes are reported by its other associations only;
* the times of the file (fi2fo, watcher_fen.go:93-99): port_associate reports at once if the file has other times than those it is given.  They are those of
  the file, except in `singleunwatch`, where they are what the watcher kept when it began to watch the file (`w.fi`, watcher_trigger.go:389-390);
* `Watched` looks up the path in the notification (watcher_fen.go:74-85).

Simplifications: those of `Bsd` and `Trigger`; events are retrieved in any order; file objects are not reused, and an event has the name of its file (see C79).
A file does not change between the calls of stat and port_associate.
-/
import Verif.Linux
import Verif.PropsTrigger7

namespace Verif
namespace Fen
open Trg (fen Env Res Mode W Ev)
open Linux (Fits Free sigs)

/-- The tree. -/
abbrev Y : Sched.Sys := Sched.plainTree Platform.fen

/-! ### The kernel -/

/-- A call of port_associate, with its outcome, or of port_dissociate; and when the watcher keeps what it knows of a file. -/
inductive NCall
  /-- port_associate with the times that the file has. -/
  | assoc (p : Path) (m : Event) (ok : Bool)
  | dissoc (p : Path)
  /-- port_associate with the times that were kept. -/
  | reassoc (p : Path) (m : Event) (ok : Bool)
  /-- `NewWatched` (watcher_fen.go:51-53): the times of the file are kept. -/
  | keep (p : Path)
  deriving DecidableEq, Repr

/-- Associations and events. -/
structure Kern where
  /-- Path, file object, events asked for. -/
  assoc : List (Path × Nat × Event) := []
  /-- Events that were not retrieved yet: path, file object, flags. -/
  queue : List (Path × Nat × Event) := []
  /-- The newest file object of a path (`p2fo`, watcher_fen_cgo.go:55-58). -/
  p2fo : Path → Option Nat := fun _ => none
  /-- Which times of the file differ from those that the watcher kept. -/
  since : Path → Event := fun _ => 0
  next : Nat := 0

/-- `portAssociate` (watcher_fen_cgo.go:71-80), `portDissociate` (82-92). -/
def Kern.call (k : Kern) : NCall → Kern
  | .assoc p m ok =>
    { k with assoc := if ok then (p, k.next, m) :: k.assoc else k.assoc, p2fo := fun q => if q = p then some k.next else k.p2fo q, next := k.next + 1 }
  | .dissoc p =>
    match k.p2fo p with
    | none => k
    | some a =>
      { k with
        assoc := k.assoc.filter fun x => ¬ (x.1 = p ∧ x.2.1 = a)
        queue := k.queue.filter fun x => ¬ (x.1 = p ∧ x.2.1 = a)
        p2fo := fun q => if q = p then none else k.p2fo q }
  | .reassoc p m ok =>
    { k with
      assoc := if ok = true ∧ k.since p &&& m = 0 then (p, k.next, m) :: k.assoc else k.assoc
      queue := if ok = true ∧ k.since p &&& m ≠ 0 then k.queue ++ [(p, k.next, k.since p &&& m)] else k.queue
      p2fo := fun q => if q = p then some k.next else k.p2fo q, next := k.next + 1 }
  | .keep p => { k with since := fun q => if q = p then 0 else k.since q }

/-- Changes that a file has times of: FILE_ACCESS, FILE_MODIFIED, FILE_ATTRIB. -/
def times : Event := 0x7

/-- Flags that are reported always: FILE_DELETE, FILE_RENAME_TO, FILE_RENAME_FROM, UNMOUNTED, MOUNTEDOVER. -/
def exceptions : Event := 0x60000070

/-- The association reports a change of `p` with flags `fl`. -/
def hit (p : Path) (fl : Event) (x : Path × Nat × Event) : Bool := decide (x.1 = p ∧ fl &&& (x.2.2 ||| exceptions) ≠ 0)

/-- The file `p` changes. -/
def Kern.change (k : Kern) (p : Path) (fl : Event) : Kern :=
  { k with
    assoc := k.assoc.filter fun x => !hit p fl x
    queue := k.queue ++ (k.assoc.filter (hit p fl)).map fun x => (p, x.2.1, fl &&& (x.2.2 ||| exceptions))
    since := fun q => if q = p then k.since p ||| (fl &&& times) else k.since q }

/-! ### The watcher -/

/-- The watcher's table, and the calls of the kernel so far. -/
structure Rec where
  t : Trg.St
  n : List NCall := []

variable (E : Env)

/-- The calls of the kernel in `singlewatch` (watcher_trigger.go:170). -/
def swCalls (t : Trg.St) (p : Path) (e : Event) (m : Mode) (d : Bool) : List NCall :=
  match t.lkp.get? p with
  | none =>
    match E.opn p with
    | .ok => [.keep p, .assoc p (fen.encode (W.add { fd := 0, isDir := d } m e).all d) (E.reg p)]
    | _ => []
  | some w => [.assoc p (fen.encode (w.add m e).all d) (E.reg p)]

/-- `singlewatch` (watcher_trigger.go:151-178). -/
def singlewatch (s : Rec) (p : Path) (e : Event) (m : Mode) (d : Bool) : Rec × Res :=
  (⟨(Trg.singlewatch fen E s.t p e m d).1, s.n ++ swCalls E s.t p e m d⟩, (Trg.singlewatch fen E s.t p e m d).2)

/-- The calls of the kernel in `singleunwatch` (watcher_trigger.go:381, 389). -/
def suCalls (t : Trg.St) (p : Path) (m : Mode) : List NCall :=
  match t.lkp.get? p with
  | none => []
  | some w =>
    let w := w.sub m
    .dissoc p ::
      if E.unreg p = true ∧ w.eNonDir ||| w.eDir ≠ 0 then
        [.reassoc p (fen.encode (w.add (if w.eNonDir ≠ 0 then .ndir else .dir) (w.eNonDir ||| w.eDir)).all w.isDir) (E.reg p)]
      else []

/-- `singleunwatch` (watcher_trigger.go:368-397). -/
def singleunwatch (s : Rec) (p : Path) (m : Mode) : Rec × Res :=
  (⟨(Trg.singleunwatch fen E s.t p m).1, s.n ++ suCalls E s.t p m⟩, (Trg.singleunwatch fen E s.t p m).2)

/-- The callback of `watch` (watcher_trigger.go:204-212). -/
def watchKid (p : Path) (e : Event) (s : Rec) (x : Comp × Bool) : Rec × Res :=
  match singlewatch E s (Trg.join p x.1) e .ndir x.2 with
  | (s, .already) => (s, .ok)
  | r => r

/-- `watch` (watcher_trigger.go:197-218). -/
def watch (s : Rec) (p : Path) (e : Event) (d : Bool) : Rec × Res :=
  match singlewatch E s p e .dir d with
  | (s, .err x) => (s, .err x)
  | (s, .notWatched) => (s, .notWatched)
  | (s, _) => if d then Trg.walk E p (watchKid E p e) s else (s, .ok)

/-- The callback of `unwatch` (watcher_trigger.go:241-247). -/
def unwatchKid (p : Path) (s : Rec) (x : Comp × Bool) : Rec × Res :=
  match singleunwatch E s (Trg.join p x.1) .ndir with
  | (s, .notWatched) => (s, .ok)
  | r => r

/-- `unwatch` (watcher_trigger.go:239-253). -/
def unwatch (s : Rec) (p : Path) (d : Bool) : Rec × Res :=
  if d then
    match Trg.walk E p (unwatchKid E p) s with
    | (s, .ok) => singleunwatch E s p .dir
    | r => r
  else singleunwatch E s p .dir

/-- `Watch` (watcher_trigger.go:256-265). -/
def Watch (s : Rec) (p : Path) (e : Event) : Rec × Res :=
  match E.stat p with
  | none => (s, .err true)
  | some d => watch E s p e d

/-- `Unwatch` (watcher_trigger.go:268-277). -/
def Unwatch (s : Rec) (p : Path) : Rec × Res :=
  match E.stat p with
  | none => (s, .err true)
  | some d => unwatch E s p d

/-- `Rewatch` (watcher_trigger.go:282-295). -/
def Rewatch (s : Rec) (p : Path) (e : Event) : Rec × Res :=
  match E.stat p with
  | none => (s, .err true)
  | some d =>
    match unwatch E s p d with
    | (s, .ok) => ((watch E s p e d).1, .ok)
    | (s, _) => (s, .ok)

/-- The loop over `pthLkp` after a directory has been renamed (watcher_trigger.go:315-329). -/
def moved (p : Path) (w : W) (e : Event) : Rec → List Path → Rec × List Ev
  | s, [] => (s, [])
  | s, q :: l =>
    if Trg.below p q then
      let s := (singleunwatch E s q .both).1
      let r := moved p w e s l
      (r.1, (if w.all &&& (fen.nRename ||| fen.P.rename) ≠ 0 then
        [⟨q, w.all &&& e &^ fen.P.write &^ fen.nWrite, w.isDir⟩] else []) ++ r.2)
    else moved p w e s l

/-- The callback of `dir` (watcher_trigger.go:335-348). -/
def scanKid (p : Path) (w : W) (n : Rec × List Ev) (x : Comp × Bool) : (Rec × List Ev) × Res :=
  let q := Trg.join p x.1
  match singlewatch E n.1 q w.eDir .ndir x.2 with
  | (s, .err true) => ((s, n.2 ++ if w.eDir &&& fen.P.remove ≠ 0 then [⟨q, fen.P.remove, x.2⟩] else []), .ok)
  | (s, .already) => ((s, n.2), .ok)
  | (s, .ok) => ((s, n.2 ++ if w.eDir &&& fen.P.create ≠ 0 then [⟨q, fen.P.create, x.2⟩] else []), .ok)
  | (s, _) => ((s, n.2), .ok)

/-- `Del` (watcher_fen.go:61-63). -/
def del (s : Rec) (p : Path) (w : W) : Rec := { s with t := Trg.del fen s.t p w }

/-- `dir` (watcher_trigger.go:302-357). -/
def dir (s : Rec) (p : Path) (w : W) (e ge : Event) : Rec × List Ev :=
  if ge &&& (fen.nRename ||| fen.nRemove) ≠ 0 then
    let ev : Ev := ⟨p, e &^ fen.P.write &^ fen.nWrite, true⟩
    let r := if ge &&& fen.nRename ≠ 0 then moved E p w e s s.t.lkp.keys else (s, [])
    (del r.1 p w, ev :: r.2)
  else if ge &&& fen.nWrite ≠ 0 then (Trg.walk E p (scanKid E p w) (s, [])).1
  else (s, [])

/-- Renewal of the association (watcher_trigger.go:429-438). -/
def renew (s : Rec) (p : Path) (w : W) (ge : Event) : Rec :=
  ⟨Trg.renew fen E s.t p w ge, s.n ++
    if ge &&& (fen.nRemove ||| fen.nRename) = 0 then
      match E.stat p with
      | none => []
      | some d => [.assoc p (fen.encode w.all d) (E.reg p)]
    else []⟩

/-- `process` (watcher_trigger.go:419-451). -/
def process (s : Rec) (p : Path) (ge : Event) : Rec × List Ev :=
  match s.t.lkp.get? p with
  | none => (s, [])
  | some w =>
    let e := Trg.decode fen.nat2not ge w.all
    let s := renew E s p w ge
    if e = 0 ∧ (w.isDir = false ∨ ge &&& fen.nWrite = 0) then (s, [])
    else
      let r := if w.isDir then dir E s p w e ge else (s, [⟨p, e, w.isDir⟩])
      if ge &&& (fen.nRemove ||| fen.nRename) ≠ 0 then (del r.1 p w, r.2) else r

/-- The watcher serves a call of the tree and tells the outcome.  Paths that are skipped without telling are not watched by name. -/
inductive Serves (s : Rec) : Verif.Call → Bool → Rec → Prop
  | watch (p e) : E.opn p ≠ .skip → Serves s (.watch p e) (decide ((Watch E s p e).2 = .ok)) (Watch E s p e).1
  | rewatch (p old new) : E.opn p ≠ .skip → Serves s (.rewatch p old new) (decide ((Rewatch E s p new).2 = .ok)) (Rewatch E s p new).1
  | unwatch (p) : E.opn p ≠ .skip → Serves s (.unwatch p) (decide ((Unwatch E s p).2 = .ok)) (Unwatch E s p).1

/-! ### The program -/

/-- A state of the program and the kernel. -/
structure FSt where
  /-- Tree, lock, goroutines of the tree and of the users. -/
  sys : Sched.State Y
  /-- The watcher's table; `nat` has for each path what was asked for last. -/
  w : Trg.St := {}
  kern : Kern := {}
  /-- The notification that `Wait` returned: path, flags. -/
  hand : Option (Path × Event) := none
  /-- The events that `send` still has to send. -/
  out : List EventInfo := []
  /-- The operation that holds the lock and has begun: request, and the tree when it is done. -/
  plan : Option (Sched.Req × St) := none
  /-- The calls of the watcher that it still has to make, with outcomes. -/
  todo : List (Verif.Call × Bool) := []
  /-- All calls of the watcher that were made, newest first. -/
  log : Log := []

/-- At the start of the program. -/
def FSt.init : FSt := { sys := .init Y }

/-- The request that has the lock, and is not done. -/
def FSt.Holds (s : FSt) (r : Sched.Req) : Prop :=
  (∃ i, (i, r, Sched.Call.locked) ∈ s.sys.calls) ∨ ∃ ei, s.sys.int = .locked ei ∧ r = .internal ei

/-- What the request may do to the tree; `ops` has the operation, and before it possibly a change of map order. -/
def Plans (rel : Bool) (s : St) (r : Sched.Req) (ops : List NonRec.Op) (t : St) : Prop :=
  NonRec.Steps Platform.fen rel s ops t ∧ ∃ op, Fits r op ∧ (ops = [op] ∨ ops = [.shuffle, op])

/-- What may happen outside of the program. -/
structure Outside where
  /-- What the OS may answer during a call of the watcher and the processing of a notification. -/
  env : Env → Prop
  /-- Which changes may happen to which file. -/
  chg : Path → Event → Prop
  /-- Calls of the watcher whose failure the tree ignores succeed. -/
  rel : Bool

/-- An event as the tree gets it (event_trigger.go:10-23). -/
def info (ev : Ev) : EventInfo := { event := ev.event, path := ev.path, isDir := some ev.isDir }

/-- The watcher after the notification was retrieved, which ended an association of `p`. -/
def FSt.woken (s : FSt) (p : Path) : Rec := ⟨Trg.retrieved fen s.w p, []⟩

/-- One step.  The labels: operations that begin; calls of the watcher; changes of files; signals. -/
inductive FStep (cfg : Sched.Cfg) (X : Outside) :
    FSt → List NonRec.Op → List (Verif.Call × Bool) → List (Path × Event) → List (Key × EventInfo) → FSt → Prop
  /-- A goroutine of the tree or of a user. -/
  | go {s} (l : Sched.Lab Sched.Req) (sys' : Sched.State Y) (h : Sched.Tr Y cfg s.sys l sys') (hl : Free l) :
      FStep cfg X s [] [] [] (sigs l) { s with sys := sys' }
  /-- Something happens to a file. -/
  | change {s} (p : Path) (fl : Event) (hx : X.chg p fl) : FStep cfg X s [] [] [(p, fl)] [] { s with kern := s.kern.change p fl }
  /-- `Wait` returns. -/
  | wait {s} (p : Path) (a : Nat) (fl : Event) (hh : s.hand = none) (ho : s.out = []) (hp : (p, a, fl) ∈ s.kern.queue) :
      FStep cfg X s [] [] [] [] { s with hand := some (p, fl), kern := { s.kern with queue := s.kern.queue.erase (p, a, fl) } }
  /-- `process`. -/
  | process {s} (E : Env) (p : Path) (ge : Event) (hx : X.env E) (hh : s.hand = some (p, ge)) :
      FStep cfg X s [] [] [] []
        { s with
          w := (process E (s.woken p) p ge).1.t, kern := (process E (s.woken p) p ge).1.n.foldl Kern.call s.kern
          out := (process E (s.woken p) p ge).2.map info, hand := none }
  /-- `send` sends an event to the tree. -/
  | send {s} (ei : EventInfo) (l : List EventInfo) (h : s.out = ei :: l) (hc : s.sys.cq.length < cfg.capC) (hok : Y.okEv ei) :
      FStep cfg X s [] [] [] [] { s with out := l, sys := { s.sys with cq := s.sys.cq ++ [ei] } }
  /-- An operation begins. -/
  | plan {s} (r : Sched.Req) (ops : List NonRec.Op) (t : St) (new : Log) (hr : s.Holds r) (hp : s.plan = none)
      (ht : Plans X.rel s.sys.tree r ops t) (hn : t.world.log = new ++ s.sys.tree.world.log) :
      FStep cfg X s ops [] [] [] { s with plan := some (r, t), todo := new.reverse }
  /-- A call of the watcher. -/
  | call {s} (E : Env) (c : Verif.Call) (ok : Bool) (rest : List (Verif.Call × Bool)) (w' : Rec) (hx : X.env E) (ht : s.todo = (c, ok) :: rest)
      (hs : Serves E ⟨s.w, []⟩ c ok w') :
      FStep cfg X s [] [(c, ok)] [] [] { s with w := w'.t, kern := w'.n.foldl Kern.call s.kern, todo := rest, log := (c, ok) :: s.log }
  /-- A Watch or Stop is done with the tree. -/
  | effect {s} (i : Nat) (r : Sched.Req) (a b : List (Nat × Sched.Req × Sched.Call)) (t : St) (h : s.sys.calls = a ++ (i, r, .locked) :: b)
      (hp : s.plan = some (r, t)) (ht : s.todo = []) :
      FStep cfg X s [] [] [] [] { s with sys := { s.sys with tree := t, calls := a ++ (i, r, .applied) :: b }, plan := none }
  /-- The internal goroutine is done with the tree. -/
  | intEffect {s} (ei : EventInfo) (t : St) (h : s.sys.int = .locked ei) (hp : s.plan = some (.internal ei, t)) (ht : s.todo = []) :
      FStep cfg X s [] [] [] [] { s with sys := { s.sys with tree := t, int := .applied ei }, plan := none }

/-- `FRun cfg X s ops calls chgs sigs s'`: an execution from `s` to `s'`; operations that began, calls of the watcher, changes, signals, each
oldest first. -/
inductive FRun (cfg : Sched.Cfg) (X : Outside) (s : FSt) :
    List NonRec.Op → List (Verif.Call × Bool) → List (Path × Event) → List (Key × EventInfo) → FSt → Prop
  | refl : FRun cfg X s [] [] [] [] s
  | step {ops calls chgs sg o k r g s' s''} : FRun cfg X s ops calls chgs sg s' → FStep cfg X s' o k r g s'' →
      FRun cfg X s (ops ++ o) (calls ++ k) (chgs ++ r) (sg ++ g) s''

/-- Nothing is on its way. -/
def FSt.Quiet (s : FSt) : Prop := s.kern.queue = [] ∧ s.hand = none ∧ s.out = [] ∧ s.sys.cq = [] ∧ s.sys.disp = []

/-- The set of files stays as it is and there are no errors; files are not removed or renamed. -/
def calm (E : Env) : Outside where
  env := fun E' => E' = E
  chg := fun _ fl => fl &&& (fen.nRemove ||| fen.nRename) = 0
  rel := true

end Fen
end Verif
