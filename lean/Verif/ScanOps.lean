/-
Directory scans on the non-recursive tree that run while directories are being created and other channels call Watch and Stop.

Adds to `Scan` what else takes the tree's lock: Watch (tree_nonrecursive.go:165-205), Stop (tree_nonrecursive.go:284-302) and the
handling of events elsewhere by the internal goroutine (tree_nonrecursive.go:80-119).  Directories are created during each of these too.

Simplifications: those of `Scan`, except that directories that are not below `p` may also be removed.  Below `p` there are no removals.
-/
import Verif.Scan

namespace Verif
namespace NonRec

/-- Operations that neither stop `c` nor are recursive Watches on a path above or below `p` (or `p`); events handled are not about
such a path either. -/
def Apart (c : Nat) (p : Path) : Op → Prop
  | .watch q true _ _ _ => ¬ q <+: p ∧ ¬ p <+: q
  | .watch _ false _ _ _ => True
  | .stop d => d ≠ c
  | .internal ei => ¬ ei.path <+: p ∧ ¬ p <+: ei.path
  | .shuffle => True

/-- What is reported below `p` is there. -/
def Real (p : Path) (k : Cfg) : Prop := ∀ x ∈ k.ev, p <+: x → k.fs x

inductive XStep (P : Platform) (c : Nat) (p : Path) : Cfg → Cfg → Prop
  /-- A creation, an event that is dispatched, an event that is handled. -/
  | core {k k' : Cfg} : CStep P k k' → Real p k' → XStep P c p k k'
  /-- An operation.  Directories that appear meanwhile in a directory that has an OS watch with Create before and after the
  operation (and so, by C89, all the time) are reported. -/
  | other {k : Cfg} {op : Op} {st' : St} {fs' : Path → Prop} {new : List Path} : Step P true k.st op st' → Apart c p op →
      (∀ q, p <+: q → k.fs q → fs' q) → (∀ q b, fs' (q ++ [b]) → fs' q) →
      (∀ q b, p <+: q → ¬ k.fs (q ++ [b]) → fs' (q ++ [b]) → Hears P k.st.world q → Hears P st'.world q → q ++ [b] ∈ new) →
      (∀ x ∈ new, GoodPath x ∧ (p <+: x → fs' x)) →
      XStep P c p k { st := st', fs := fs', ev := k.ev ++ new, rq := k.rq }

/-- What may happen between the recursive Watch of `p` by channel `c` with `e`, in the configuration `k₀`, and the configuration. -/
inductive XReached (P : Platform) (k₀ : Cfg) (p : Path) (c : Nat) (e : Event) : Cfg → Prop
  /-- The recursive Watch itself, its scan interleaved with creations. -/
  | watch {dt : DirTree} {fs : Path → Prop} {new : List Path} {n : Nat} {F : Nat → Path → Prop}
      {w l : Path → Nat} : dt.Named → dt.NoErr → (∀ y ∈ new, GoodPath y ∧ (p <+: y → fs y)) →
      Scanned (Hears P k₀.st.world) p dt k₀.fs fs new n F w l →
      XReached P k₀ p c e { st := (watchOp P .ok dt k₀.st p true c e).1, fs := fs, ev := k₀.ev ++ new, rq := k₀.rq }
  | step {k k' : Cfg} : XReached P k₀ p c e k → XStep P c p k k' → XReached P k₀ p c e k'

end NonRec
end Verif
