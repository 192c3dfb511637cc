/-
Drives and shares: the recursive tree on Windows (C75).

Models /repo/node.go: `root` (206-275) where `filepath.VolumeName` is not empty; and `Watch` and `dispatch` of
/repo/tree_recursive.go (124-153, 156-299) where they go through it.  Below the node of the volume everything is as on other
platforms (`Node`, `Rec`).

A path is a volume name such as `C:` or `\\server\share`, which is one component (also if it contains separators), followed by
the names: `C:\a\b` is [`C:`, `a`, `b`], `C:\` is [`C:`, ``] and `\\server\share` is [`\\server\share`].

The node of `C:\` is the child with the empty name of the node of `C:`, which the recursive tree also uses for inactive watchpoints.
`Rec.setInact` then forgets the name `C:\` and the nodes below, which Go keeps; no theorem uses them after such a change.
-/
import Verif.Rec

namespace Verif
namespace Vol

/-- `func (r root) addroot` (node.go:210-219): the tree in which the node of the volume exists. -/
def addroot (r : Node) (vol : Comp) : Node := r.addchild [vol] vol

/-- `func (r root) root` (node.go:221-230); `none` is `errnotexist`. -/
def root (r : Node) (vol : Comp) : Option Node := r.child.get? vol

/-- `func (r root) Add` (node.go:232-234); `none` is the zero node, returned for the name of the volume itself, since
`indexrel` is -1 (node.go:52-55, util.go:128-134). -/
def add (r : Node) (vol : Comp) (rest : Path) : Option Node :=
  if rest = [] then none else some ((addroot r vol).update [vol] (·.add rest))

/-- The walk looking for a parent watch (tree_recursive.go:177-186, `root.WalkPath` node.go:269-275).  It starts at the node of the
volume, if there is one. -/
def parentOf (P : Platform) (r : Node) (vol : Comp) (rest : Path) : Option Path :=
  match root r vol with
  | none => none
  | some nd => if rest = [] then none else (Rec.parentOf P nd rest).map (vol :: ·)

/-- `Watch` (tree_recursive.go:156-299) after `cleanpath`.  The zero node has no maps: `watchAdd` writes to a nil map, which panics. -/
def watchOp (P : Platform) (O : Oracle) (s : St) (vol : Comp) (rest : Path) (isrec : Bool) (c : Nat) (e : Event) : St × Bool :=
  let eventset := if isrec then e ||| P.recursive else e
  let par := parentOf P s.root vol rest
  match add s.root vol rest with
  | none => ({ root := addroot s.root vol, world := s.world.panic }, true)
  | some root =>
    match par with
    | some q => Rec.watchUnder P O { s with root := root } q (vol :: rest) isrec c eventset
    | none => Rec.watchTop P O { s with root := root } (vol :: rest) isrec c eventset

/-- The sends made by one dispatch goroutine (tree_recursive.go:124-153) for the event on `vol` followed by `rest`. -/
def sends (P : Platform) (r : Node) (vol : Comp) (rest : Path) (ei : EventInfo) : List Key :=
  match root r vol with
  | none => []
  | some nd =>
    let wp := nd.walkPath rest.dropLast
    wp.1.flatMap (fun nd => nd.watch.dispatch P ei P.recursive) ++
    match wp.2 with
    | none => []
    | some nd => nd.watch.dispatch P ei 0 ++
      match nd.child.get? (rest.getLastD []) with
      | none => []
      | some leaf => leaf.watch.dispatch P ei 0

end Vol
end Verif
