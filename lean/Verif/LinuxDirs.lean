/-
The program on Linux together with the directories at and below one path.

Adds to `Linux` the scans: `AddDir` (/repo/node.go:63-93), called by a recursive Watch (/repo/tree_nonrecursive.go:214-246) and by
the internal goroutine (/repo/tree_nonrecursive.go:80-119), gives a directory its OS watch and then reads its entries (node.go:68, 81),
while the kernel goes on creating directories and telling the watcher about them.

Simplifications: those of `Linux`.  Directories at and below the path appear, by mkdir or by renaming a whole tree from elsewhere, and
are not removed; elsewhere anything may happen.  The kernel's queue does not overflow when one appears.  Reading a directory below the
path succeeds and gives the directories that are there at that moment.  What a scan will read is guessed when it begins, as is the
outcome of the calls; each `read` confirms a part of it, and executions in which a guess is wrong end there.
-/
import Verif.Linux
import Verif.ScanOps

namespace Verif
namespace Linux
open Inotify (PSt Raw FromKernel)
open NonRec (Op GoodPath Apart picked)

/-- Program, kernel and directories. -/
structure DSt where
  l : LSt
  /-- The directories at and below the path. -/
  dirs : Path → Prop
  /-- The scan that is under way: the directory where it begins, what it finds, and the directories that it has read, relative to
  the first one. -/
  scan : Option (Path × DirTree × List Path) := none

/-- The path of a call. -/
def target : Call → Path
  | .watch p _ | .unwatch p | .rewatch p _ _ | .recWatch p _ | .recUnwatch p | .recRewatch _ p _ _ => p

/-- The same tree, but for the order of maps. -/
def Like (s s' : St) : Prop := s' = s ∨ NonRec.Step Platform.inotify true s .shuffle s'

/-- One step.  `c` and `p` are the channel and the path of a recursive watch.  The labels are those of `LStep`. -/
inductive DStep (cfg : Sched.Cfg) (c : Nat) (p : Path) : DSt → List Op → List Raw → List (Key × EventInfo) → DSt → Prop
  /-- Anything that neither begins nor ends an operation. -/
  | run {s : DSt} {raws : List Raw} {sg : List (Key × EventInfo)} {l' : LSt} (h : LStep cfg true s.l [] raws sg l')
      (hp : l'.plan = s.l.plan) : DStep cfg c p s [] raws sg { s with l := l' }
  /-- A directory `b` appears in `q`, possibly with others below it.  The kernel tells everybody who watches `q` for it. -/
  | appear {s : DSt} (q : Path) (b : Comp) (bit : Event) (raws : List Raw) (D : Path → Prop) (k' : Inotify.St) (hq : s.dirs q)
      (hnew : ¬ s.dirs (q ++ [b])) (hmade : D (q ++ [b])) (hsub : ∀ y, s.dirs y → D y) (hD : ∀ y, D y → s.dirs y ∨ q ++ [b] <+: y)
      (htree : ∀ y x, D (y ++ [x]) → p <+: y → D y) (hgood : ∀ y, D y → GoodPath y)
      (hbit : bit = Inotify.inCreate ∨ bit = Inotify.inMovedTo) (hraws : ∀ r ∈ raws, FromKernel r)
      (htold : ∀ wd kw, s.l.pipe.k.watches.get? wd = some kw → s.l.pipe.k.inode q = some kw.inode → bit ⊑ kw.mask →
        ∃ r ∈ raws, r.wd = wd ∧ r.name = b ∧ r.mask = bit ||| Inotify.inIsdir)
      (hfs : Inotify.FsStep s.l.pipe.k k') (hk : Keeps s.l.pipe { s.l.pipe with k := k' }) :
      DStep cfg c p s [] raws []
        { s with l := { s.l with pipe := { s.l.pipe with k := k', queue := s.l.pipe.queue ++ raws } }, dirs := D }
  /-- An operation begins that is not about `p` or a path above or below, or is a plain Watch or the Stop of another channel. -/
  | other {s : DSt} {ops : List Op} {l' : LSt} (h : LStep cfg true s.l ops [] [] l') (hp : s.l.plan = none) (hp' : l'.plan ≠ none)
      (ha : ∀ op ∈ ops, Apart c p op) : DStep cfg c p s ops [] [] { s with l := l' }
  /-- The internal goroutine begins with an event other than a removal, and finds that there is nothing to do. -/
  | skip {s : DSt} {ops : List Op} {l' : LSt} {ei : EventInfo} {tree' : St} (dt : DirTree) (h : LStep cfg true s.l ops [] [] l')
      (hp : s.l.plan = none) (hl : Like s.l.sys.tree tree') (hei : ei.event ≠ Platform.inotify.remove)
      (hpick : picked Platform.inotify tree'.root ei.path = Platform.inotify.internal)
      (hp' : l'.plan = some (.internal ei, NonRec.internal Platform.inotify .ok dt tree' ei)) :
      DStep cfg c p s ops [] [] { s with l := l' }
  /-- The internal goroutine begins with the scan of a directory. -/
  | scan {s : DSt} {ops : List Op} {l' : LSt} {ei : EventInfo} {tree' : St} (dt : DirTree) (h : LStep cfg true s.l ops [] [] l')
      (hp : s.l.plan = none) (hl : Like s.l.sys.tree tree') (hei : ei.event ≠ Platform.inotify.remove)
      (hpick : picked Platform.inotify tree'.root ei.path ≠ Platform.inotify.internal)
      (hx : ei.path <+: p ∨ p <+: ei.path ∧ s.dirs ei.path) (hd : dt.Named) (hne : dt.NoErr)
      (hp' : l'.plan = some (.internal ei, NonRec.internal Platform.inotify .ok dt tree' ei)) :
      DStep cfg c p s ops [] [] { s with l := l', scan := some (ei.path, dt, []) }
  /-- The scan reads a directory that has got its OS watch. -/
  | read {s : DSt} {x : Path} {dt : DirTree} {lst : List Path} (a : Path) (hs : s.scan = some (x, dt, lst)) (ha : a ∈ dt.dirs)
      (hq : s.dirs (x ++ a)) (hc : s.l.pipe.caller = .idle) (ht : ∀ y ∈ s.l.todo, target y.1 ≠ x ++ a)
      (hl : ∀ b, a ++ [b] ∈ dt.dirs ↔ s.dirs (x ++ a ++ [b])) :
      DStep cfg c p s [] [] [] { s with scan := some (x, dt, a :: lst) }
  /-- The operation ends; if it was a scan, all directories that were found have been read. -/
  | done {s : DSt} {l' : LSt} (h : LStep cfg true s.l [] [] [] l') (hp : s.l.plan ≠ none) (hp' : l'.plan = none)
      (hall : ∀ x dt lst, s.scan = some (x, dt, lst) → ∀ a ∈ dt.dirs, a ∈ lst) :
      DStep cfg c p s [] [] [] { s with l := l', scan := none }

/-- `D` may be the directories at and below `p`. -/
structure DirsOk (p : Path) (D : Path → Prop) : Prop where
  top : D p
  tree : ∀ y b, D (y ++ [b]) → p <+: y → D y
  good : ∀ y, D y → p <+: y ∧ GoodPath y

/-- What may happen from the moment when a recursive Watch of `p` by `c` has the lock, in `s₀`. -/
inductive DRun (cfg : Sched.Cfg) (s₀ : LSt) (D : Path → Prop) (c : Nat) (p : Path) (e : Event) :
    List Op → List Raw → List (Key × EventInfo) → DSt → Prop
  /-- The Watch begins. -/
  | watch {ops : List Op} {l' : LSt} {tree' : St} (dt : DirTree) (h : LStep cfg true s₀ ops [] [] l') (hl : Like s₀.sys.tree tree')
      (hd : dt.Named) (hne : dt.NoErr)
      (hp' : l'.plan = some (.watch p true c e, (NonRec.watchOp Platform.inotify .ok dt tree' p true c e).1)) :
      DRun cfg s₀ D c p e ops [] [] { l := l', dirs := D, scan := some (p, dt, []) }
  | step {ops raws sg o r g s s'} : DRun cfg s₀ D c p e ops raws sg s → DStep cfg c p s o r g s' →
      DRun cfg s₀ D c p e (ops ++ o) (raws ++ r) (sg ++ g) s'

end Linux
end Verif
