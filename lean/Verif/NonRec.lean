/-
The tree for watchers without native recursion.

Models: /repo/tree_nonrecursive.go.  Each function is the part that runs with the tree's lock
held (or read-locked, for dispatch); locking and goroutines are in module `Sched`.
-/
import Verif.Node
import Verif.Watcher

namespace Verif

/-- `const all = ^Event(0)` (util.go:14). -/
def allEvents : Event := BitVec.allOnes 32

/-- State: `t.root.nd` and the calls made to `t.w`. -/
structure St where
  root : Node
  world : World := {}

namespace NonRec
open GoMap

/-- `newNonrecursiveTree` (tree_nonrecursive.go:19-33). -/
def init : St := { root := Node.new [] }

/-- `nd.Watch` for the node at `p`. -/
def watchAt (nd : Node) (p : Path) : WP := (nd.find p).getD []

/-- The call made for a difference that is neither `none` nor empty on the right
(tree_nonrecursive.go:195-198, 215-218). -/
def diffCall (p : Path) (d : Diff) : Call :=
  if d.1 = 0 then .watch p d.2 else .rewatch p d.1 d.2

/-- `func (t *nonrecursiveTree) recFunc` (tree_nonrecursive.go:207-221): the outcome of the
watcher call is ignored. -/
def recFunc (P : Platform) (O : Oracle) (e : Event) (s : World) (n : Path) (w : WP) : World × WP :=
  let r := w.add P .recCh (e ||| P.omitted ||| P.create)
  (if r.2 = Diff.none then s
   else if r.2.2 = 0 then s.panic
   else (s.exec O (diffCall n r.2)).1, r.1)

/-- `func (t *nonrecursiveTree) watchAdd` (tree_nonrecursive.go:122-129), without the result,
which no caller uses. -/
def watchAdd (P : Platform) (w : WP) (c : Nat) (e : Event) : WP :=
  if e &&& P.recursive ≠ 0 then
    ((w.add P .recCh (e ||| P.create ||| P.omitted)).1.add P (.user c) e).1
  else (w.add P (.user c) e).1

/-- `func (t *nonrecursiveTree) watchDelMin` (tree_nonrecursive.go:132-157). -/
def watchDelMin (P : Platform) (min : Event) (w : WP) (c : Key) (e : Event) : WP × Diff :=
  match w.get? .recCh with
  | none => w.del P c e
  | some old =>
    let r := WP.del P (w.set .recCh min) c e
    let old := old &^ (r.2.1 &^ r.2.2)
    if old ||| P.internal = P.internal then
      let w : WP := GoMap.del r.1 .recCh
      (if w.get? .nil = some 0 ∧ w.length = 1 then GoMap.del w .nil else w, r.2)
    else
      ((r.1.add P .recCh (old ||| P.create)).1,
        if r.2 = Diff.none then r.2
        else if r.2.2 ||| P.create = r.2.1 then Diff.none
        else (r.2.1, r.2.2 ||| P.create))

/-- `func (t *nonrecursiveTree) watch` (tree_nonrecursive.go:187-205), for the node at `p`;
the result is `false` on error. -/
def watch (P : Platform) (O : Oracle) (s : St) (p : Path) (c : Nat) (e : Event) : St × Bool :=
  let r := (watchAt s.root p).add P (.user c) e
  let root := s.root.update p (Node.setWatch r.1)
  if r.2 = Diff.none then ({ s with root := root }, true)
  else if r.2.2 = 0 then ({ root := root, world := s.world.panic }, true)
  else
    let x := s.world.exec O (diffCall p r.2)
    if x.2 then ({ root := root, world := x.1 }, true)
    else ({ root := root.update p (Node.setWatch (r.1.del P (.user c) (Diff.event r.2)).1),
            world := x.1 }, false)

/-- `func (t *nonrecursiveTree) watchrec` (tree_nonrecursive.go:223-250), for the node at `p`;
`d` are the answers of `os.ReadDir`. -/
def watchrec (P : Platform) (O : Oracle) (d : DirTree) (s : St) (p : Path) (c : Nat) (e : Event) :
    St × Bool :=
  let w := watchAt s.root p
  let diff := w.dryAdd P .recCh (e ||| P.create)
  if diff = Diff.none then
    let w := ((watchAdd P w c e).add P .recCh (e ||| P.omitted ||| P.create)).1
    ({ s with root := s.root.update p (Node.setWatch w) }, true)
  else if diff.2 = 0 then ({ s with world := s.world.panic }, true)
  else
    match s.root.get? p with
    | none => (s, false)
    | some nd =>
      let r : World × Node × Bool :=
        if diff.1 = 0 then d.addDir (recFunc P O e) s.world nd
        else
          let x := nd.trav true (fun s _ n w => recFunc P O e s n w) s.world []
          (x.1, x.2, true)
      let root := s.root.update p (fun _ => r.2.1)
      if r.2.2 then
        ({ root := root.update p (Node.setWatch (watchAdd P (watchAt root p) c e)), world := r.1 },
          true)
      else ({ root := root, world := r.1 }, false)

/-- `func (t *nonrecursiveTree) Watch` (tree_nonrecursive.go:165-185) after `cleanpath`, with
the joined event set. -/
def watchOp (P : Platform) (O : Oracle) (d : DirTree) (s : St) (p : Path) (isrec : Bool) (c : Nat)
    (e : Event) : St × Bool :=
  let s := { s with root := s.root.add p }
  if isrec then watchrec P O d s p c (e ||| P.recursive) else watch P O s p c e

/-- The callback of `Stop` (tree_nonrecursive.go:285-297) as called by `walkWatchpoint`
(tree_nonrecursive.go:254-281) with the internal set of the parent. -/
def stopFunc (P : Platform) (O : Oracle) (c : Nat) (s : World) (pw : WP) (n : Path) (w : WP) :
    World × WP :=
  if w.length ≠ 0 then
    let r := watchDelMin P (pw.val .recCh) w (.user c) allEvents
    (if r.2 = Diff.none then s
     else if r.2.2 = 0 then (s.exec O (.unwatch n)).1
     else (s.exec O (.rewatch n r.2.1 r.2.2)).1, r.1)
  else (s, w)

/-- `func (t *nonrecursiveTree) Stop` (tree_nonrecursive.go:284-302). -/
def stop (P : Platform) (O : Oracle) (s : St) (c : Nat) : St :=
  let r := s.root.trav false (stopFunc P O c) s.world []
  { root := r.2, world := r.1 }

/-- The callback for a removed directory (tree_nonrecursive.go:89-92). -/
def unwatchFunc (O : Oracle) (s : World) (_ : WP) (n : Path) (w : WP) : World × WP :=
  if w.length ≠ 0 then ((s.exec O (.unwatch n)).1, w) else (s, w)

/-- The event set chosen by `internal` for a new directory (tree_nonrecursive.go:98-105):
the numerically largest internal set on the way. -/
def pickSet (P : Platform) (ws : List WP) : Event :=
  ws.foldl (fun eset w => if w.val .recCh ≠ 0 ∧ w.val .recCh > eset then w.val .recCh else eset)
    P.internal

/-- The nodes visited by `WalkPath`, all of them. -/
def onPath (nd : Node) (p : Path) : List Node :=
  (nd.walkPath p).1 ++ (nd.walkPath p).2.toList

/-- One iteration of `func (t *nonrecursiveTree) internal` (tree_nonrecursive.go:80-119). -/
def internal (P : Platform) (O : Oracle) (d : DirTree) (s : St) (ei : EventInfo) : St :=
  if ei.event = P.remove then
    match s.root.get? ei.path with
    | none => s
    | some nd =>
      let r := nd.trav false (unwatchFunc O) s.world []
      { root := (s.root.del ei.path).getD s.root, world := r.1 }
  else
    let eset := pickSet P ((onPath s.root ei.path).map Node.watch)
    if eset = P.internal then s
    else
      let root := s.root.add ei.path
      match root.get? ei.path with
      | none => s
      | some nd =>
        let r := d.addDir (recFunc P O eset) s.world nd
        { root := root.update ei.path (fun _ => r.2.1), world := r.1 }

/-- The sends made by one dispatch goroutine (tree_nonrecursive.go:38-66): the channels to
which a send is attempted, in order. -/
def sends (P : Platform) (root : Node) (ei : EventInfo) : List Key :=
  let wp := root.walkPath ei.path.dropLast
  wp.1.flatMap (fun nd => nd.watch.dispatch P ei P.recursive) ++
  match wp.2 with
  | none => []
  | some nd => nd.watch.dispatch P ei 0 ++
    match nd.child.get? (ei.path.getLastD []) with
    | none => []
    | some leaf => leaf.watch.dispatch P ei 0

/-- Whether the dispatch goroutine hands the event to the internal goroutine
(tree_nonrecursive.go:43, 58-74). -/
def toInternal (P : Platform) (root : Node) (ei : EventInfo) : Bool :=
  let wp := root.walkPath ei.path.dropLast
  match wp.2 with
  | none => false
  | some nd =>
    (wp.1.any (fun nd => nd.watch.isRecursive P) || nd.watch.isRecursive P ||
      (match nd.child.get? (ei.path.getLastD []) with
       | none => false
       | some leaf => leaf.watch.isRecursive P)) &&
    decide (ei.event &&& (P.create ||| P.remove) ≠ 0) && ei.isDir == some true

/-- `func joinevents` (util.go:101-110). -/
def joinevents (P : Platform) (es : List Event) : Event :=
  if es = [] then P.All else es.foldl (· ||| ·) 0

/-- Result of the exported `Watch`. -/
inductive WatchResult | ok | error | panic
  deriving DecidableEq

/-- `func (t *nonrecursiveTree) Watch` from its first line (tree_nonrecursive.go:165-185).
`c` is `none` for a nil channel; `clean` is the result of `cleanpath`. -/
def apiWatch (P : Platform) (O : Oracle) (d : DirTree) (s : St) (clean : Option (Path × Bool))
    (c : Option Nat) (es : List Event) : St × WatchResult :=
  match c with
  | none => (s, .panic)
  | some c =>
    if es.length = 0 then (s, .ok)
    else match clean with
      | none => (s, .error)
      | some (p, isrec) =>
        let r := watchOp P O d s p isrec c (joinevents P es)
        (r.1, if r.2 then .ok else .error)

end NonRec
end Verif
