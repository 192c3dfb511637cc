/-
The interface between a tree and the operating system.

Models: the `watcher` and `recursiveWatcher` interfaces of /repo/watcher.go (lines 22-85).
The implementation behind the interface is an arbitrary oracle that decides, knowing all
earlier calls and their outcomes, whether a call succeeds.  Assumption: a call that fails
leaves the watches as they were.
-/
import Verif.Watchpoint

namespace Verif

/-- One call of the `watcher` / `recursiveWatcher` interface. -/
inductive Call
  | watch (p : Path) (e : Event)
  | unwatch (p : Path)
  | rewatch (p : Path) (old new : Event)
  | recWatch (p : Path) (e : Event)
  | recUnwatch (p : Path)
  | recRewatch (oldp newp : Path) (olde newe : Event)
  deriving DecidableEq, Repr

/-- Calls made so far with their outcomes, newest first. -/
abbrev Log := List (Call × Bool)

/-- Decides whether the next call succeeds. -/
abbrev Oracle := Log → Call → Bool

/-- The oracle under which every call succeeds. -/
def Oracle.ok : Oracle := fun _ _ => true

/-- What a tree operation does to the outside: the calls and whether one of the
`panic` statements was reached. -/
structure World where
  log : Log := []
  panicked : Bool := false
  deriving DecidableEq

/-- Make a call. -/
def World.exec (O : Oracle) (s : World) (c : Call) : World × Bool :=
  ({ s with log := (c, O s.log c) :: s.log }, O s.log c)

/-- Reach a `panic` statement. -/
def World.panic (s : World) : World := { s with panicked := true }

/-! ### Meaning of a log for the non-recursive interface -/

/-- The event set watched on a path after the calls of the log; `0` means not watched.
(watcher.go:22-44; recursive calls do not occur on this interface and are ignored.) -/
def osOf : Log → Path → Event
  | [], _ => 0
  | (c, ok) :: l, q =>
    match c, ok with
    | .watch p e, true => if p = q then e else osOf l q
    | .unwatch p, true => if p = q then 0 else osOf l q
    | .rewatch p _ e, true => if p = q then e else osOf l q
    | _, _ => osOf l q

/-- The contract of one call (comments in watcher.go:24-43): `Watch` is for a path that is not
watched, `Rewatch` for a watched path with its current event set and a new non-empty one,
`Unwatch` for a watched path; event sets are non-empty and carry no internal bits. -/
def Call.Valid (P : Platform) (os : Path → Event) : Call → Prop
  | .watch p e => os p = 0 ∧ e ≠ 0 ∧ e &&& P.internal = 0
  | .unwatch p => os p ≠ 0
  | .rewatch p old new => os p = old ∧ old ≠ 0 ∧ new ≠ 0 ∧ old ≠ new ∧ new &&& P.internal = 0
  | _ => False

/-- Every call of the log met its contract when it was made. -/
def ValidLog (P : Platform) : Log → Prop
  | [] => True
  | (c, _) :: l => c.Valid P (osOf l) ∧ ValidLog P l

end Verif
