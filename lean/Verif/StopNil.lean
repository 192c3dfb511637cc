/-
Stop for any key of the watchpoint maps.

Models `Stop` of both trees again (/repo/tree_nonrecursive.go:284-302 with walkWatchpoint, 254-281, and
/repo/tree_recursive.go:306-347), for an argument that need not be a channel that was ever passed to Watch: notify.go:72-74 hands
the argument on without looking at it, so it can be nil, which is the key under which a watchpoint keeps its total set
(watchpoint.go:16-23).  `stopKey_user` shows that for a channel this is the function of `NonRec` and `Rec`.
-/
import Verif.Rec

namespace Verif
open GoMap

namespace NonRec

/-- The callback of `Stop` (tree_nonrecursive.go:285-297) as called by `walkWatchpoint` (254-281). -/
def stopFuncKey (P : Platform) (O : Oracle) (k : Key) (s : World) (pw : WP) (n : Path) (w : WP) : World × WP :=
  if w.length ≠ 0 then
    let r := watchDelMin P (pw.val .recCh) w k allEvents
    (if r.2 = Diff.none then s
     else if r.2.2 = 0 then (s.exec O (.unwatch n)).1
     else (s.exec O (.rewatch n r.2.1 r.2.2)).1, r.1)
  else (s, w)

/-- `func (t *nonrecursiveTree) Stop` (tree_nonrecursive.go:284-302). -/
def stopKey (P : Platform) (O : Oracle) (s : St) (k : Key) : St :=
  let r := s.root.trav false (stopFuncKey P O k) s.world []
  { root := r.2, world := r.1 }

theorem stopKey_user (P : Platform) (O : Oracle) (s : St) (c : Nat) : stopKey P O s (.user c) = stop P O s c := rfl

end NonRec

mutual
/-- `nd.Walk(fn)` with the inner callback of `Stop` (tree_recursive.go:330-334). -/
def Node.delAllKey (P : Platform) (k : Key) : Node → Node
  | .mk n w ch => (Rec.watchDel P (.mk n w (ch.delAllKey P k)) k allEvents).1
def Forest.delAllKey (P : Platform) (k : Key) : Forest → Forest
  | .nil => .nil
  | .cons b nd rest => .cons b (if b = [] then nd else nd.delAllKey P k) (rest.delAllKey P k)
end

mutual
/-- `t.root.Walk("", fn)` with the callback of `Stop` (tree_recursive.go:306-347). -/
def Node.stopWalkKey (P : Platform) (O : Oracle) (k : Key) (s : World) : Node → World × Node
  | .mk n w ch =>
    let r := Rec.watchDel P (.mk n w ch) k allEvents
    if r.2 = Diff.none ∧ Rec.watchTotal P r.1 = 0 then
      let x := Forest.stopWalkKey P O k s ch
      (x.1, (Rec.watchDel P (.mk n w x.2) k allEvents).1)
    else
      (if r.2 = Diff.none then s else (s.exec O (Rec.stopCall P r.1 r.2)).1, r.1.delAllKey P k)
def Forest.stopWalkKey (P : Platform) (O : Oracle) (k : Key) (s : World) : Forest → World × Forest
  | .nil => (s, .nil)
  | .cons b nd rest =>
    let r := if b = [] then (s, nd) else Node.stopWalkKey P O k s nd
    let r' := Forest.stopWalkKey P O k r.1 rest
    (r'.1, .cons b r.2 r'.2)
end

mutual
theorem Node.delAllKey_user (P : Platform) (c : Nat) : (nd : Node) → nd.delAllKey P (.user c) = nd.delAll P c
  | .mk n w ch => by rw [Node.delAllKey, Node.delAll, Forest.delAllKey_user P c ch]
theorem Forest.delAllKey_user (P : Platform) (c : Nat) : (f : Forest) → f.delAllKey P (.user c) = f.delAll P c
  | .nil => rfl
  | .cons b nd rest => by
    rw [Forest.delAllKey, Forest.delAll, Node.delAllKey_user P c nd, Forest.delAllKey_user P c rest]
end

mutual
theorem Node.stopWalkKey_user (P : Platform) (O : Oracle) (c : Nat) : (nd : Node) → (s : World) →
    nd.stopWalkKey P O (.user c) s = nd.stopWalk P O c s
  | .mk n w ch, s => by
    rw [Node.stopWalkKey, Node.stopWalk, Forest.stopWalkKey_user P O c ch s, Node.delAllKey_user]
theorem Forest.stopWalkKey_user (P : Platform) (O : Oracle) (c : Nat) : (f : Forest) → (s : World) →
    f.stopWalkKey P O (.user c) s = f.stopWalk P O c s
  | .nil, s => rfl
  | .cons b nd rest, s => by
    simp only [Forest.stopWalkKey, Forest.stopWalk]
    rw [Node.stopWalkKey_user P O c nd s, Forest.stopWalkKey_user P O c rest]
end

namespace Rec

/-- `func (t *recursiveTree) Stop` (tree_recursive.go:306-347). -/
def stopKey (P : Platform) (O : Oracle) (s : St) (k : Key) : St :=
  let r := s.root.stopWalkKey P O k s.world
  { root := r.2, world := r.1 }

theorem stopKey_user (P : Platform) (O : Oracle) (s : St) (c : Nat) : stopKey P O s (.user c) = stop P O s c := by
  simp only [stopKey, stop, Node.stopWalkKey_user]

end Rec
end Verif
