/-
Directory scans on the non-recursive tree that run while directories are being created: the
interleavings of the kernel with `AddDir` (node.go:63-93), the dispatch goroutines
(tree_nonrecursive.go:35-77) and the internal goroutine (tree_nonrecursive.go:80-119).

Simplifications.  Directories are created, never removed (what removals do is in `PropsScan`).  OS
calls succeed.  The tree lock is held by `Watch` (tree_nonrecursive.go:178-179) and by one iteration
of the internal goroutine (tree_nonrecursive.go:82, 114) for the whole scan, so no dispatch happens
in the middle of one; the kernel does not care about the lock, so directories do appear in the
middle of one.  The queues (`t.c`, the dispatch goroutines, `t.rec`) are unordered here: an element
may be taken from any position.
-/
import Verif.PropsNonRec2

namespace Verif
namespace NonRec
open GoMap Spec

/-- The kernel reports to the watcher the directories created in `q`. -/
def Hears (P : Platform) (w : World) (q : Path) : Prop := P.create ⊑ osOf w.log q

/-- A scan of `p` that ended with the listings `dt`, while the set of directories grew from `fs` to
`fs'`, and during which the kernel reported the creation of (at least) the directories `new`.

`F t` is the set of directories at the instant `t` of the scan.  At the instant `w q` the scan gives
`q` its OS watch, and at the later instant `l q` it reads the entries of `q`: `AddDir` calls `fn`
before `os.ReadDir` (node.go:68-81).  The listing of `q` is what is there at that instant.  A
directory created in a directory that has an OS watch with Create is reported. -/
structure Scanned (hears : Path → Prop) (p : Path) (dt : DirTree) (fs fs' : Path → Prop) (new : List Path)
    (n : Nat) (F : Nat → Path → Prop) (w l : Path → Nat) : Prop where
  first : F 0 = fs
  last : F n = fs'
  grow : ∀ t q, F t q → F (t + 1) q
  tree : ∀ t q b, F t (q ++ [b]) → F t q
  order : ∀ r ∈ dt.dirs, w (p ++ r) < l (p ++ r) ∧ l (p ++ r) ≤ n
  list : ∀ r ∈ dt.dirs, ∀ b, r ++ [b] ∈ dt.dirs ↔ F (l (p ++ r)) (p ++ r ++ [b])
  told : ∀ t < n, ∀ q b, ¬ F t (q ++ [b]) → F (t + 1) (q ++ [b]) →
    (hears q ∨ ∃ r ∈ dt.dirs, q = p ++ r ∧ w q ≤ t) → q ++ [b] ∈ new

/-- The state of the tree, the directories that exist, the creation events not dispatched yet and
those dispatched and not handled yet. -/
structure Cfg where
  st : St
  fs : Path → Prop
  ev : List Path
  rq : List Path

/-- The event for the creation of the directory `q`. -/
def mkEvent (P : Platform) (q : Path) : EventInfo := { event := P.create, path := q, isDir := some true }

/-- The set the internal goroutine picks for the new directory `q` (tree_nonrecursive.go:98-105). -/
def picked (P : Platform) (root : Node) (q : Path) : Event := pickSet P ((onPath root q).map Node.watch)

inductive CStep (P : Platform) : Cfg → Cfg → Prop
  /-- A directory is created while no scan is running. -/
  | create {c : Cfg} {q : Path} {b : Comp} {new : List Path} : c.fs q → ¬ c.fs (q ++ [b]) →
      (Hears P c.st.world q → q ++ [b] ∈ new) → (∀ x ∈ new, GoodPath x) →
      CStep P c { c with fs := fun x => c.fs x ∨ x = q ++ [b], ev := c.ev ++ new }
  /-- A creation event is dispatched. -/
  | dispatch {c : Cfg} {x : Path} {l₁ l₂ : List Path} : c.ev = l₁ ++ x :: l₂ →
      CStep P c { c with ev := l₁ ++ l₂,
                         rq := if toInternal P c.st.root (mkEvent P x) then c.rq ++ [x] else c.rq }
  /-- The internal goroutine finds no recursive watch for the event: no scan. -/
  | skip {c : Cfg} {x : Path} {l₁ l₂ : List Path} {dt : DirTree} : c.rq = l₁ ++ x :: l₂ →
      picked P c.st.root x = P.internal →
      CStep P c { c with st := internal P .ok dt c.st (mkEvent P x), rq := l₁ ++ l₂ }
  /-- The internal goroutine scans the new directory. -/
  | scan {c : Cfg} {x : Path} {l₁ l₂ : List Path} {dt : DirTree} {fs' : Path → Prop} {new : List Path}
      {n : Nat} {F : Nat → Path → Prop} {w l : Path → Nat} : c.rq = l₁ ++ x :: l₂ →
      picked P c.st.root x ≠ P.internal → dt.Named → dt.NoErr → (∀ y ∈ new, GoodPath y) →
      Scanned (Hears P c.st.world) x dt c.fs fs' new n F w l →
      CStep P c { st := internal P .ok dt c.st (mkEvent P x), fs := fs', ev := c.ev ++ new, rq := l₁ ++ l₂ }

/-- Configurations reached from the return of a recursive Watch by channel `c` on `p` with `e`. -/
inductive Reached (P : Platform) (s₀ : St) (fs₀ : Path → Prop) (p : Path) (c : Nat) (e : Event) : Cfg → Prop
  /-- The recursive Watch itself, its scan interleaved with creations. -/
  | watch {dt : DirTree} {fs : Path → Prop} {new : List Path} {n : Nat} {F : Nat → Path → Prop}
      {w l : Path → Nat} : dt.Named → dt.NoErr → (∀ y ∈ new, GoodPath y) →
      Scanned (Hears P s₀.world) p dt fs₀ fs new n F w l →
      Reached P s₀ fs₀ p c e { st := (watchOp P .ok dt s₀ p true c e).1, fs := fs, ev := new, rq := [] }
  | step {k k' : Cfg} : Reached P s₀ fs₀ p c e k → CStep P k k' → Reached P s₀ fs₀ p c e k'

end NonRec
end Verif
