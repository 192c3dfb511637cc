/-
Specification vocabulary for the OS watches of the recursive tree, in terms of the registration table and of
the OS watches themselves.  Nothing here mentions nodes or watchpoints.
-/
import Verif.Spec
import Verif.Rec

namespace Verif
namespace Spec

/-- Some channel is registered on the path. -/
def Registered (r : Reg) (q : Path) : Prop := ∃ c, r c q ≠ none

/-- Some channel asked for the event with bit `i` on the path itself. -/
def asks (r : Reg) (q : Path) (i : Nat) : Prop := ∃ c E f, r c q = some (E, f) ∧ BitVec.getLsbD E i = true

/-- Some channel asked for the event with bit `i` somewhere strictly below the path. -/
def asksBelow (r : Reg) (q : Path) (i : Nat) : Prop := ∃ x, q <+: x ∧ x ≠ q ∧ asks r x i

/-- `E` is the union of everything asked for at and below the path. -/
def IsUnion (r : Reg) (q : Path) (E : Event) : Prop :=
  ∀ i, BitVec.getLsbD E i = true ↔ asks r q i ∨ asksBelow r q i

/-- The OS watches are the right ones for the table: each registered path has one at or above it, each
carries exactly the events asked for at and below its path, and no two are nested. -/
structure Mirror (r : Reg) (log : Log) : Prop where
  covers : ∀ q, Registered r q → ∃ t, t <+: q ∧ osRec log t ≠ none
  exact : ∀ q E f, osRec log q = some (E, f) → E ≠ 0 ∧ IsUnion r q E
  apart : ∀ q x, osRec log q ≠ none → osRec log x ≠ none → q <+: x → q = x

/-- Everything the channel asked for is covered by OS watches. -/
def Covered (r : Reg) (log : Log) (c : Nat) : Prop :=
  ∀ q E f, r c q = some (E, f) → ∃ t E' f', t <+: q ∧ osRec log t = some (E', f') ∧ E ⊑ E'

/-- Stopping `c` is harmless for the OS watch on `q`: either `c` alone asked for one of the events on `q`
itself, or others ask for everything `c` asked for below, or others ask below for everything that is asked
for on `q`. -/
def SafeStop (r : Reg) (c : Nat) (q : Path) : Prop :=
  (∃ i, asks r q i ∧ ¬ asks (r.stop c) q i) ∨ (∀ i, asksBelow r q i → asksBelow (r.stop c) q i) ∨
  (∀ i, asks r q i → asksBelow (r.stop c) q i)

/-- Watching `p` is harmless: there is an OS watch at or above it, or every OS watch below it is on a path
that is registered itself. -/
def SafeWatch (r : Reg) (log : Log) (p : Path) : Prop :=
  (∃ t, t <+: p ∧ osRec log t ≠ none) ∨ ∀ x, p <+: x → osRec log x ≠ none → Registered r x

end Spec
end Verif
