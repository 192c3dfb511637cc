/-
The path tree.

Models: /repo/node.go.  A Go `node` is a handle to two maps; every node is stored in exactly
one parent map and all accesses happen under the tree's lock, so the tree is modelled as a
value and updates are functional.  Paths are lists of components (see `Verif.Path`).
`root` (node.go:206-275) is modelled here for platforms without volume names
(`filepath.VolumeName(name) == ""`), where all its methods delegate to the root node; see `Volumes`.
-/
import Verif.Watchpoint

namespace Verif

mutual
/-- `type node struct { Name; Watch; Child }` (node.go:28-32). -/
inductive Node where
  | mk (name : Path) (watch : WP) (child : Forest)
/-- `map[string]node`: the children of a node, keyed by base name. -/
inductive Forest where
  | nil
  | cons (base : Comp) (nd : Node) (rest : Forest)
end

namespace Forest

/-- `child, ok := nd.Child[base]`. -/
def get? : Forest → Comp → Option Node
  | .nil, _ => none
  | .cons b nd rest, k => if b = k then some nd else rest.get? k

/-- `nd.Child[base] = child`. -/
def put : Forest → Comp → Node → Forest
  | .nil, k, x => .cons k x .nil
  | .cons b nd rest, k, x => if b = k then .cons k x rest else .cons b nd (rest.put k x)

/-- `delete(nd.Child, base)`. -/
def del : Forest → Comp → Forest
  | .nil, _ => .nil
  | .cons b nd rest, k => if b = k then rest.del k else .cons b nd (rest.del k)

/-- `len(nd.Child) == 0`. -/
def isEmpty : Forest → Bool
  | .nil => true
  | .cons .. => false

/-- The keys in range order. -/
def keys : Forest → List Comp
  | .nil => []
  | .cons b _ rest => b :: rest.keys

end Forest

namespace Node

def name : Node → Path | .mk n _ _ => n
def watch : Node → WP | .mk _ w _ => w
def child : Node → Forest | .mk _ _ c => c

/-- `func newnode(name string) node` (node.go:34-40). -/
def new (n : Path) : Node := .mk n [] .nil

/-- `func (nd node) addchild` (node.go:42-49), returning the updated parent. -/
def addchild (nd : Node) (name : Path) (base : Comp) : Node :=
  match nd.child.get? base with
  | some _ => nd
  | none => .mk nd.name nd.watch (nd.child.put base (new name))

/-- `func (nd node) Add` (node.go:51-61), with the path given relative to `nd`: make every
node on the way exist.  The empty relative path is the case `indexrel == -1`, in which Go
returns a zero node; callers never do that (see `PathStr` for `indexrel`). -/
def add : Node → Path → Node
  | nd, [] => nd
  | .mk n w ch, b :: rest =>
    .mk n w (ch.put b (((ch.get? b).getD (new (n ++ [b]))).add rest))

/-- `func (nd node) Get` (node.go:95-111), with the path given relative to `nd`; `none` is
`errnotexist`.  The empty path gives the node itself, as `root.Get` does
(node.go:248-259). -/
def get? : Node → Path → Option Node
  | nd, [] => some nd
  | .mk _ _ ch, b :: rest => (ch.get? b).bind (·.get? rest)

/-- The watchpoint at a relative path. -/
def find (nd : Node) (q : Path) : Option WP := (nd.get? q).map watch

/-- Apply `f` to the node at a relative path (Go mutates the maps through the handle). -/
def update : Node → Path → (Node → Node) → Node
  | nd, [], f => f nd
  | .mk n w ch, b :: rest, f =>
    match ch.get? b with
    | none => .mk n w ch
    | some c => .mk n w (ch.put b (c.update rest f))

/-- Replace the watchpoint of a node. -/
def setWatch (w : WP) : Node → Node | .mk n _ ch => .mk n w ch

/-- The condition of the pruning loop in `Del` (node.go:133), negated. -/
def prunable (nd : Node) : Bool := decide (nd.watch.length ≤ 1) && nd.child.isEmpty

/-- `func (nd node) Del` (node.go:113-142), relative path; `none` is `errnotexist`.
The loop that prunes ancestors upwards until one has a watchpoint or a child becomes a test
after the recursive call; once a node is kept its parent has a child and is kept too. -/
def del : Node → Path → Option Node
  | _, [] => none
  | .mk n w ch, [b] =>
    match ch.get? b with
    | none => none
    | some _ => some (.mk n w (ch.del b))
  | .mk n w ch, b :: b' :: rest =>
    match ch.get? b with
    | none => none
    | some c =>
      match c.del (b' :: rest) with
      | none => none
      | some c' => some (.mk n w (if c'.prunable then ch.del b else ch.put b c'))

/-- `func (nd node) WalkPath` (node.go:169-204) for a callback that never returns an error:
the nodes visited with `isbase == false`, in order, and the node visited with
`isbase == true` if the walk got there.  The empty relative path is `indexrel == -1`. -/
def walkPath : Node → Path → List Node × Option Node
  | _, [] => ([], none)
  | nd, b :: rest =>
    match nd.child.get? b with
    | none => ([nd], none)
    | some c =>
      match rest with
      | [] => ([nd], some c)
      | _ :: _ => (nd :: (walkPath c rest).1, (walkPath c rest).2)

end Node

mutual
/-- Depth-first traversal calling `fn` on each node before its children: `Walk`
(node.go:144-167) for a callback that never returns an error and `walkWatchpoint`
(tree_nonrecursive.go:254-281).  `fn` gets the state, the (already updated) watchpoint of the
parent, the node's name and its watchpoint.  With `skip` children with the empty key are not
visited (node.go:157-162).  The order among siblings is the order of the list. -/
def Node.trav {σ : Type} (skip : Bool) (fn : σ → WP → Path → WP → σ × WP) (s : σ) (pw : WP) :
    Node → σ × Node
  | .mk n w ch =>
    let r := fn s pw n w
    let r' := Forest.trav skip fn r.1 r.2 ch
    (r'.1, .mk n r.2 r'.2)
/-- The children part of `Node.trav`. -/
def Forest.trav {σ : Type} (skip : Bool) (fn : σ → WP → Path → WP → σ × WP) (s : σ) (pw : WP) :
    Forest → σ × Forest
  | .nil => (s, .nil)
  | .cons b nd rest =>
    if skip && b == [] then
      let r := Forest.trav skip fn s pw rest
      (r.1, .cons b nd r.2)
    else
      let r := Node.trav skip fn s pw nd
      let r' := Forest.trav skip fn r.1 pw rest
      (r'.1, .cons b r.2 r'.2)
end

mutual
/-- The answers `os.ReadDir` gives during one traversal: an error or a list of entries. -/
inductive DirTree where
  | err
  | dir (es : Entries)
/-- Entries of a listing: name, whether the entry is a directory and not a symbolic link
(node.go:86), and for directories the answer for its own listing. -/
inductive Entries where
  | nil
  | cons (name : Comp) (isDir : Bool) (sub : DirTree) (rest : Entries)
end

/-- `name := filepath.Join(nd.Name, fi.Name())` (node.go:87).  Joining to `/` gives a
one-component path. -/
def joinName (n : Path) (b : Comp) : Path := if n = [[]] then [b] else n ++ [b]

/-- `name[len(nd.Name)+1:]` (node.go:88): for `nd.Name == "/"` this cuts the first letter of
the entry's name. -/
def joinBase (n : Path) (b : Comp) : Comp := if n = [[]] then b.drop 1 else b

/-- The `addchild` calls for one listing (node.go:85-90). -/
def Entries.addChildren : Entries → Node → Node
  | .nil, nd => nd
  | .cons b isDir _ rest, nd =>
    rest.addChildren (if isDir then nd.addchild (joinName nd.name b) (joinBase nd.name b) else nd)

mutual
/-- `func (nd node) AddDir` (node.go:63-93) for a callback that never returns an error.
Children of one listing are pushed on a stack and popped last first; a listing error aborts
the traversal.  Returns `false` on error. -/
def DirTree.addDir {σ : Type} (fn : σ → Path → WP → σ × WP) :
    DirTree → σ → Node → σ × Node × Bool
  | .err, s, .mk n w ch =>
    let r := fn s n w
    (r.1, .mk n r.2 ch, false)
  | .dir es, s, .mk n w ch =>
    let r := fn s n w
    let nd := es.addChildren (.mk n r.2 ch)
    let r' := Entries.addDir fn es n r.1 nd.child
    (r'.1, .mk n r.2 r'.2.1, r'.2.2)
/-- Processing of the children of one listing, last entry first. -/
def Entries.addDir {σ : Type} (fn : σ → Path → WP → σ × WP) :
    Entries → Path → σ → Forest → σ × Forest × Bool
  | .nil, _, s, ch => (s, ch, true)
  | .cons b isDir sub rest, n, s, ch =>
    let r := Entries.addDir fn rest n s ch
    if !r.2.2 then r
    else if isDir then
      match r.2.1.get? (joinBase n b) with
      | none => r
      | some c =>
        let r' := DirTree.addDir fn sub r.1 c
        (r'.1, r.2.1.put (joinBase n b) r'.2.1, r'.2.2)
    else r
end

end Verif
