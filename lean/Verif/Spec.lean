/-
Specification vocabulary: what users asked for, and who should be sent an event.  Nothing here
mentions watchpoints, nodes or trees.
-/
import Verif.Watchpoint

namespace Verif
namespace Spec

/-- What each channel has registered on each path: accumulated event set and whether it is
recursive. -/
abbrev Reg := Nat → Path → Option (Event × Bool)

def Reg.empty : Reg := fun _ _ => none

/-- A successful Watch adds the events to what the channel has there and makes it recursive if
requested. -/
def Reg.watch (r : Reg) (c : Nat) (p : Path) (e : Event) (isrec : Bool) : Reg := fun d q =>
  if d = c ∧ q = p then
    match r c p with
    | none => some (e, isrec)
    | some (e', f) => some (e' ||| e, f || isrec)
  else r d q

/-- Stop forgets everything about the channel. -/
def Reg.stop (r : Reg) (c : Nat) : Reg := fun d q => if d = c then none else r d q

/-- Removal of a directory forgets everything at and below it. -/
def Reg.remove (r : Reg) (p : Path) : Reg := fun d q => if p <+: q then none else r d q

/-- The channel asked for `E` on `q`. -/
def wants (r : Reg) (c : Nat) (E : Event) (q : Path) : Bool :=
  match r c q with
  | none => false
  | some (ev, _) => decide (E ⊑ ev)

/-- The channel asked for `E` on everything below `q`. -/
def wantsBelow (r : Reg) (c : Nat) (E : Event) (q : Path) : Bool :=
  match r c q with
  | none => false
  | some (ev, f) => f && decide (E ⊑ ev)

/-- How many copies of event `E` on path `p` the channel is to be sent: one for a matching
watchpoint on `p`, one for a matching one on the parent, one for each matching recursive one on
a proper ancestor of the parent. -/
def copies (r : Reg) (c : Nat) (E : Event) (p : Path) : Nat :=
  (List.range p.dropLast.length).countP (fun i => wantsBelow r c E (p.dropLast.take i)) +
  ((if wants r c E p.dropLast then 1 else 0) + (if wants r c E p then 1 else 0))

end Spec
end Verif
