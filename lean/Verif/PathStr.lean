/-
Paths as strings.

Models: the path functions of /repo/util.go on platforms whose separator is `/`, and the string loops of
/repo/node.go.  A string is a list of characters; Go indexes bytes, but `/` is a single byte that is part of
no other UTF-8 sequence, so every index computed here falls between characters.  The index -1 is `none`.
The tree functions of module `Node` take lists of components; here are the versions with the loops over
the string as Go has them.  `PropsPath` proves that they agree.
-/
import Verif.Node

namespace Verif
namespace PathStr

/-- A Go string. -/
abbrev Str := List Char

/-- `os.PathSeparator`. -/
def sep : Char := '/'

/-- `func indexSep` (util.go:136-143). -/
def indexSep : Str → Option Nat
  | [] => none
  | c :: s => if c = sep then some 0 else (indexSep s).map (· + 1)

/-- `func lastIndexSep` (util.go:145-152). -/
def lastIndexSep : Str → Option Nat
  | [] => none
  | c :: s =>
    match lastIndexSep s with
    | some i => some (i + 1)
    | none => if c = sep then some 0 else none

/-- `func split` (util.go:112-117). -/
def split (s : Str) : Str × Str :=
  match lastIndexSep s with
  | some i => (s.take i, s.drop (i + 1))
  | none => ([], s)

/-- `func base` (util.go:119-124). -/
def base (s : Str) : Str :=
  match lastIndexSep s with
  | some i => s.drop (i + 1)
  | none => s

/-- `func indexrel` (util.go:128-134). -/
def indexrel (root name : Str) : Option Nat :=
  if name.length > root.length ∧ name.take root.length = root ∧ name[root.length]? = some sep then
    some (root.length + 1)
  else none

/-- The string of a list of components: `["a","b"]` is `/a/b`. -/
def str (p : Path) : Str := p.flatMap (sep :: ·)

/-- The text before the first separator, and the components after it. -/
def cut : Str → Str × Path
  | [] => ([], [])
  | c :: s => if c = sep then ([], (cut s).1 :: (cut s).2) else (c :: (cut s).1, (cut s).2)

/-- The components of a string, as stored in the names of the model's nodes. -/
def ofStr (s : Str) : Path := (cut s).2

theorem indexSep_lt {s : Str} {j : Nat} (h : indexSep s = some j) : j < s.length := by
  induction s generalizing j with
  | nil => simp [indexSep] at h
  | cons c s ih =>
    unfold indexSep at h
    split at h
    · simp at h; simp [← h]
    · cases hs : indexSep s with
      | none => simp [hs] at h
      | some k =>
        have := ih hs
        simp [hs] at h
        simp; omega

theorem loop_lt {name : Str} {i j : Nat} (h : indexSep (name.drop i) = some j) : name.length - (i + j + 1) < name.length - i := by
  have := indexSep_lt h
  simp at this
  omega

/-- The loop shared by `Add`, `Get`, `Del` and `WalkPath` (node.go:56-60, 101-107, 120-126, 175-187): the pairs
`(name[:i+j], name[i:i+j])` it goes through, and at the end `(name, name[i:])`. -/
def steps (name : Str) (i : Nat) : List (Str × Str) :=
  match h : indexSep (name.drop i) with
  | some j => (name.take (i + j), (name.drop i).take j) :: steps name (i + j + 1)
  | none => [(name, name.drop i)]
termination_by name.length - i
decreasing_by exact loop_lt h

/-- The loop of `node.Add` (node.go:56-60). -/
def addLoop (nd : Node) (name : Str) (i : Nat) : Node :=
  match h : indexSep (name.drop i) with
  | some j =>
    let key := (name.drop i).take j
    let nd' := nd.addchild (ofStr (name.take (i + j))) key
    .mk nd'.name nd'.watch (nd'.child.put key
      (addLoop ((nd'.child.get? key).getD (Node.new [])) name (i + j + 1)))
  | none => nd.addchild (ofStr name) (name.drop i)
termination_by name.length - i
decreasing_by exact loop_lt h

/-- `func (nd node) Add` (node.go:51-61); `none` is the case in which it returns `node{}` without a change. -/
def add (nd : Node) (name : Str) : Option Node :=
  (indexrel (str nd.name) name).map (addLoop nd name)

/-- The loop of `node.Get` (node.go:101-110). -/
def getLoop (nd : Node) (name : Str) (i : Nat) : Option Node :=
  match h : indexSep (name.drop i) with
  | some j =>
    match nd.child.get? ((name.drop i).take j) with
    | none => none
    | some c => getLoop c name (i + j + 1)
  | none => nd.child.get? (name.drop i)
termination_by name.length - i
decreasing_by exact loop_lt h

/-- `func (nd node) Get` (node.go:95-111). -/
def get (nd : Node) (name : Str) : Option Node :=
  (indexrel (str nd.name) name).bind (getLoop nd name)

/-- `func (r root) Get` (node.go:248-259) without volume names. -/
def rootGet (nd : Node) (name : Str) : Option Node := if str nd.name = name then some nd else get nd name

/-- `p.Child[name] = cur` for the handle `cur`, which sits in `p` under the base of its name. -/
def putBack (p cur : Node) : Node := .mk p.name p.watch (p.child.put (base (str cur.name)) cur)

/-- The tree with the changed node `cur` below the nodes of the stack (nearest first).  Go changes the maps in
place; here the nodes above are rebuilt. -/
def plug (cur : Node) : List Node → Node
  | [] => cur
  | p :: rest => plug (putBack p cur) rest

/-- The loop of `node.Del` going up (node.go:131-140), from its second iteration on.  (The first one looks up
the entry that has just been deleted, finds a zero node and deletes the entry again.) -/
def upLoop (cur : Node) : List Node → Node
  | [] => cur
  | p :: rest =>
    if cur.watch.length > 1 ∨ cur.child.isEmpty = false then plug cur (p :: rest)
    else upLoop (.mk p.name p.watch (p.child.del (base (str cur.name)))) rest

/-- The loop of `node.Del` going down (node.go:120-130); the stack is without `nd` itself. -/
def delLoop (nd : Node) (name : Str) (i : Nat) (stack : List Node) : Option Node :=
  match h : indexSep (name.drop i) with
  | some j =>
    match nd.child.get? ((name.drop i).take j) with
    | none => none
    | some c => delLoop c name (i + j + 1) (nd :: stack)
  | none =>
    match nd.child.get? (name.drop i) with
    | none => none
    | some _ => some (upLoop (.mk nd.name nd.watch (nd.child.del (name.drop i))) stack)
termination_by name.length - i
decreasing_by exact loop_lt h

/-- `func (nd node) Del` (node.go:113-142). -/
def del (nd : Node) (name : Str) : Option Node :=
  (indexrel (str nd.name) name).bind fun i => delLoop nd name i []

/-- The loop of `node.WalkPath` (node.go:175-203) for a callback that never returns an error: the nodes visited
with `isbase == false` and the one visited with `isbase == true`. -/
def walkLoop (nd : Node) (name : Str) (i : Nat) : List Node × Option Node :=
  match h : indexSep (name.drop i) with
  | some j =>
    match nd.child.get? ((name.drop i).take j) with
    | none => ([nd], none)
    | some c => (nd :: (walkLoop c name (i + j + 1)).1, (walkLoop c name (i + j + 1)).2)
  | none => ([nd], nd.child.get? (name.drop i))
termination_by name.length - i
decreasing_by all_goals exact loop_lt h

/-- `func (nd node) WalkPath` (node.go:169-204). -/
def walkPath (nd : Node) (name : Str) : List Node × Option Node :=
  match indexrel (str nd.name) name with
  | none => ([], none)
  | some i => walkLoop nd name i

end PathStr
end Verif
