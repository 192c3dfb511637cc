/-
The tree for watchers with native recursion (FSEvents, ReadDirectoryChangesW).

Models: /repo/tree_recursive.go.  Each function is the part that runs with the tree's lock held
(or read-locked, for dispatch); locking and goroutines are in module `Sched`.

A node keeps the registrations made below it (its inactive watchpoints) in a child with the empty
key.  Simplifications: `cur.Child[""] = node{}` (tree_recursive.go:245, 261) is modelled as removal of
the key, which no reader can tell apart, since reading a missing key gives `node{}`; so a missing key
is a nil map and an existing one is not.  Paths are those of platforms without volume names.
-/
import Verif.NonRec

namespace Verif
namespace Rec
open GoMap

/-- `newRecursiveTree` (tree_recursive.go:109-121). -/
def init : St := { root := Node.new [] }

/-- `nd.Child[""].Watch`; `none` is the nil map. -/
def inact? (nd : Node) : Option WP := (nd.child.get? []).map Node.watch

/-- `nd.Child[""].Watch` for reading. -/
def inact (nd : Node) : WP := (inact? nd).getD []

/-- `nd.Child[""] = node{Watch: wp}`, or a change of the map in place. -/
def setInact (w : WP) : Node → Node
  | .mk n w0 ch => .mk n w0 (ch.put [] (.mk [] w .nil))

/-- `cur.Child[""] = node{}; delete(cur.Watch, c)` (tree_recursive.go:245-246, 259-260). -/
def clean (c : Nat) : Node → Node
  | .mk n w ch => .mk n (GoMap.del w (.user c)) (ch.del [])

/-- The end of `watchAdd`, `watchAddInactive` and `watchDel`. -/
def orDiff (d : Diff) (a b : Event) : Diff :=
  if d.1 ||| a = d.2 ||| b then Diff.none else (d.1 ||| a, d.2 ||| b)

/-- `func watchAdd` (tree_recursive.go:10-21). -/
def watchAdd (P : Platform) (nd : Node) (k : Key) (e : Event) : Node × Diff :=
  let r := nd.watch.add P k e
  (nd.setWatch r.1,
    if (inact nd).length ≠ 0 then
      let t := (inact nd).total P
      orDiff r.2 t t
    else r.2)

/-- `func watchAddInactive` (tree_recursive.go:24-38). -/
def watchAddInactive (P : Platform) (nd : Node) (k : Key) (e : Event) : Node × Diff :=
  let r := (inact nd).add P k e
  let t := nd.watch.total P
  (setInact r.1 nd, orDiff r.2 t t)

/-- The entries of a watchpoint other than the total. -/
def users (w : WP) : WP := w.filter fun x => decide (x.1 ≠ Key.nil)

/-- `func watchCopy` (tree_recursive.go:41-57).  The second component tells whether the write to a
nil map (line 54) was reached. -/
def watchCopy (P : Platform) (src dst : Node) : Node × Bool :=
  let dst := (users src.watch).foldl (fun d x => (watchAddInactive P d x.1 x.2).1) dst
  if (inact src).length ≠ 0 then
    match inact? dst with
    | none => (dst, !(users (inact src)).isEmpty)
    | some w => (setInact ((users (inact src)).foldl (fun w x => (WP.add P w x.1 x.2).1) w) dst, false)
  else (dst, false)

/-- `func watchDel` (tree_recursive.go:60-73). -/
def watchDel (P : Platform) (nd : Node) (k : Key) (e : Event) : Node × Diff :=
  let r := nd.watch.del P k e
  let nd1 := nd.setWatch r.1
  if (inact nd).length ≠ 0 then
    let ri := (inact nd).del P k e
    let t := ri.1.total P
    (setInact ri.1 nd1, orDiff r.2 (ri.2.1 ||| t) (ri.2.2 ||| t))
  else (nd1, r.2)

/-- `func watchTotal` (tree_recursive.go:76-82). -/
def watchTotal (P : Platform) (nd : Node) : Event :=
  if (inact nd).length ≠ 0 then nd.watch.total P ||| (inact nd).total P else nd.watch.total P

/-- `func watchIsRecursive` (tree_recursive.go:85-95). -/
def watchIsRecursive (P : Platform) (nd : Node) : Bool :=
  if (inact nd).length ≠ 0 then true else nd.watch.isRecursive P

/-- The walk looking for a parent watch (tree_recursive.go:177-186, node.go:169-204): the first node on
the way with a non-empty total.  The result is its path; it is `self` if that is the whole path. -/
def parentOf (P : Platform) : Node → Path → Option Path
  | nd, [] => if watchTotal P nd ≠ 0 then some [] else none
  | nd, b :: rest =>
    if watchTotal P nd ≠ 0 then some []
    else match nd.child.get? b with
      | none => none
      | some c => (parentOf P c rest).map (b :: ·)

end Rec

mutual
/-- The walk collecting `children` (tree_recursive.go:228-235, node.go:144-167): the topmost nodes with
a non-empty watchpoint, as paths relative to the start.  The order among siblings is that of the list. -/
def Node.tops : Node → List Path
  | .mk _ w ch => if w.length ≠ 0 then [[]] else ch.tops
def Forest.tops : Forest → List Path
  | .nil => []
  | .cons b nd rest => if b = [] then rest.tops else nd.tops.map (b :: ·) ++ rest.tops
end

namespace Rec
open GoMap

/-- The node at a path. -/
def nodeAt (root : Node) (p : Path) : Node := (root.get? p).getD (Node.new [])

/-- `watchAdd(cur, c, eventset)` without its result. -/
def addAt (P : Platform) (root : Node) (p : Path) (c : Nat) (e : Event) : Node :=
  root.update p (fun nd => (watchAdd P nd (.user c) e).1)

/-- Case 1 of `Watch` (tree_recursive.go:188-223): `q` is the path of the parent. -/
def watchUnder (P : Platform) (O : Oracle) (s : St) (q p : Path) (isrec : Bool) (c : Nat) (e : Event) :
    St × Bool :=
  let r := if q = p then watchAdd P (nodeAt s.root q) (.user c) e
    else watchAddInactive P (nodeAt s.root q) (.user c) e
  let root := s.root.update q (fun _ => r.1)
  if r.2 = Diff.none then
    ({ s with root := if q = p then root else addAt P root p c e }, true)
  else if r.2.1 = 0 then ({ root := root, world := s.world.panic }, true)
  else
    let call :=
      if isrec || watchIsRecursive P r.1 then Call.recRewatch r.1.name r.1.name r.2.1 r.2.2
      else Call.rewatch r.1.name r.2.1 r.2.2
    let x := s.world.exec O call
    if x.2 then ({ root := addAt P root p c e, world := x.1 }, true)
    else ({ root := root.update q (fun nd => (watchDel P nd (.user c) (Diff.event r.2)).1), world := x.1 }, false)

/-- Copy the registrations of each child to `cur` (tree_recursive.go:240, 253-255). -/
def copyAll (P : Platform) (p : Path) : List Path → St → St
  | [], s => s
  | r :: rs, s =>
    let x := watchCopy P (nodeAt s.root (p ++ r)) (nodeAt s.root p)
    copyAll P p rs { root := s.root.update p (fun _ => x.1), world := if x.2 then s.world.panic else s.world }

/-- The calls unwatching the children (tree_recursive.go:264-277); `false` if one failed. -/
def unwatchAll (P : Platform) (O : Oracle) (root : Node) (p : Path) : List Path → World → World × Bool
  | [], w => (w, true)
  | r :: rs, w =>
    let nd := nodeAt root (p ++ r)
    let x := w.exec O (if watchIsRecursive P nd then .recUnwatch nd.name else .unwatch nd.name)
    let y := unwatchAll P O root p rs x.1
    (y.1, x.2 && y.2)

/-- Cases 2 and 3 of `Watch` (tree_recursive.go:224-298): no parent was found; `cur` is the node at `p`. -/
def watchTop (P : Platform) (O : Oracle) (s : St) (p : Path) (isrec : Bool) (c : Nat) (e : Event) : St × Bool :=
  match (nodeAt s.root p).tops with
  | [] =>
    let r := watchAdd P (nodeAt s.root p) (.user c) e
    let root := s.root.update p (fun _ => r.1)
    if r.2 = Diff.none then ({ root := root, world := s.world.panic }, true)
    else if r.2.1 = 0 then
      let x := s.world.exec O (if isrec then .recWatch r.1.name r.2.2 else .watch r.1.name r.2.2)
      if x.2 then ({ root := root, world := x.1 }, true)
      else ({ root := root.update p (fun nd => (watchDel P nd (.user c) (Diff.event r.2)).1), world := x.1 }, false)
    else ({ root := root, world := s.world.panic }, true)
  | [r] =>
    let s := copyAll P p [r] { s with root := addAt P s.root p c e }
    let x := s.world.exec O (.recRewatch (nodeAt s.root (p ++ r)).name (nodeAt s.root p).name
      (watchTotal P (nodeAt s.root (p ++ r))) (watchTotal P (nodeAt s.root p)))
    if x.2 then ({ s with world := x.1 }, true)
    else ({ root := s.root.update p (clean c), world := x.1 }, false)
  | rs =>
    let s := copyAll P p rs { s with root := addAt P s.root p c e }
    let x := s.world.exec O (.recWatch (nodeAt s.root p).name (watchTotal P (nodeAt s.root p)))
    if x.2 then
      let y := unwatchAll P O s.root p rs x.1
      ({ s with world := y.1 }, y.2)
    else ({ root := s.root.update p (clean c), world := x.1 }, false)

/-- `func (t *recursiveTree) Watch` (tree_recursive.go:156-299) after `cleanpath`, with the joined event
set. -/
def watchOp (P : Platform) (O : Oracle) (s : St) (p : Path) (isrec : Bool) (c : Nat) (e : Event) : St × Bool :=
  let eventset := if isrec then e ||| P.recursive else e
  let par := parentOf P s.root p
  let s := { s with root := s.root.add p }
  match par with
  | some q => watchUnder P O s q p isrec c eventset
  | none => watchTop P O s p isrec c eventset

/-- The call made by `Stop` for a node whose difference is not `none` (tree_recursive.go:317-329). -/
def stopCall (P : Platform) (nd : Node) (d : Diff) : Call :=
  if d.2 = 0 then (if watchIsRecursive P nd then .recUnwatch nd.name else .unwatch nd.name)
  else if watchIsRecursive P nd then .recRewatch nd.name nd.name d.1 d.2
  else .rewatch nd.name d.1 d.2

end Rec

mutual
/-- `nd.Walk(fn)` with the inner callback of `Stop` (tree_recursive.go:330-334). -/
def Node.delAll (P : Platform) (c : Nat) : Node → Node
  | .mk n w ch => (Rec.watchDel P (.mk n w (ch.delAll P c)) (.user c) allEvents).1
def Forest.delAll (P : Platform) (c : Nat) : Forest → Forest
  | .nil => .nil
  | .cons b nd rest => .cons b (if b = [] then nd else nd.delAll P c) (rest.delAll P c)
end

mutual
/-- `t.root.Walk("", fn)` with the callback of `Stop` (tree_recursive.go:306-347). -/
def Node.stopWalk (P : Platform) (O : Oracle) (c : Nat) (s : World) : Node → World × Node
  | .mk n w ch =>
    let r := Rec.watchDel P (.mk n w ch) (.user c) allEvents
    if r.2 = Diff.none ∧ Rec.watchTotal P r.1 = 0 then
      let x := Forest.stopWalk P O c s ch
      (x.1, (Rec.watchDel P (.mk n w x.2) (.user c) allEvents).1)
    else
      (if r.2 = Diff.none then s else (s.exec O (Rec.stopCall P r.1 r.2)).1, r.1.delAll P c)
def Forest.stopWalk (P : Platform) (O : Oracle) (c : Nat) (s : World) : Forest → World × Forest
  | .nil => (s, .nil)
  | .cons b nd rest =>
    let r := if b = [] then (s, nd) else Node.stopWalk P O c s nd
    let r' := Forest.stopWalk P O c r.1 rest
    (r'.1, .cons b r.2 r'.2)
end

namespace Rec

/-- `func (t *recursiveTree) Stop` (tree_recursive.go:306-347). -/
def stop (P : Platform) (O : Oracle) (s : St) (c : Nat) : St :=
  let r := s.root.stopWalk P O c s.world
  { root := r.2, world := r.1 }

/-- The sends made by one dispatch goroutine (tree_recursive.go:124-153). -/
def sends (P : Platform) (root : Node) (ei : EventInfo) : List Key :=
  let wp := root.walkPath ei.path.dropLast
  wp.1.flatMap (fun nd => nd.watch.dispatch P ei P.recursive) ++
  match wp.2 with
  | none => []
  | some nd => nd.watch.dispatch P ei 0 ++
    match nd.child.get? (ei.path.getLastD []) with
    | none => []
    | some leaf => leaf.watch.dispatch P ei 0

/-- `func (t *recursiveTree) Watch` from its first line (tree_recursive.go:156-173).  `c` is `none` for a
nil channel; `clean` is the result of `cleanpath`. -/
def apiWatch (P : Platform) (O : Oracle) (s : St) (clean : Option (Path × Bool)) (c : Option Nat)
    (es : List Event) : St × NonRec.WatchResult :=
  match c with
  | none => (s, .panic)
  | some c =>
    if es.length = 0 then (s, .ok)
    else match clean with
      | none => (s, .error)
      | some (p, isrec) =>
        let r := watchOp P O s p isrec c (NonRec.joinevents P es)
        (r.1, if r.2 then .ok else .error)

end Rec

/-! ### Meaning of a log for the recursive interface -/

/-- The watch held on a path after the calls of the log: event set and whether it is recursive
(watcher.go:22-85).  Unwatch and RecursiveUnwatch do the same (watcher.go:52-56). -/
def osRec : Log → Path → Option (Event × Bool)
  | [], _ => none
  | (c, ok) :: l, q =>
    if !ok then osRec l q
    else match c with
      | .watch p e => if q = p then some (e, false) else osRec l q
      | .unwatch p => if q = p then none else osRec l q
      | .rewatch p _ e => if q = p then some (e, false) else osRec l q
      | .recWatch p e => if q = p then some (e, true) else osRec l q
      | .recUnwatch p => if q = p then none else osRec l q
      | .recRewatch p p' _ e => if q = p' then some (e, true) else if q = p then none else osRec l q

/-- The contract of one call: watches are set where there is none, removed or changed where there is
one, the old event set passed is the one the OS has, and event sets are non-empty without internal
bits. -/
def Call.ValidRec (P : Platform) (os : Path → Option (Event × Bool)) : Call → Prop
  | .watch p e | .recWatch p e => os p = none ∧ e ≠ 0 ∧ e &&& P.internal = 0
  | .unwatch p | .recUnwatch p => os p ≠ none
  | .rewatch p old new => (∃ f, os p = some (old, f)) ∧ new ≠ 0 ∧ new &&& P.internal = 0
  | .recRewatch p p' old new => (∃ f, os p = some (old, f)) ∧ (p' = p ∨ os p' = none) ∧ new ≠ 0 ∧
      new &&& P.internal = 0

/-- Every call of the log met its contract when it was made. -/
def ValidLogRec (P : Platform) : Log → Prop
  | [] => True
  | (c, _) :: l => c.ValidRec P (osRec l) ∧ ValidLogRec P l

end Verif
