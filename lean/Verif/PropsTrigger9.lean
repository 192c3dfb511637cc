/-
C80, while a notification is being handled.
-/
import Verif.PropsTrigger6

namespace Verif
namespace Trg

namespace Ex9
/-- `/d` with the files `f` and `g`. -/
def E : Env where
  stat := fun p => some (decide (p = [['d']]))
  opn := fun _ => .ok
  reg := fun _ => true
  unreg := fun _ => true
  list := fun _ => .ok [(['f'], false), (['g'], false)]

/-- The same after port_get(3C) has returned an event of `/d/f`: its association has ended, so that port_dissociate(3C) fails (watcher_fen_cgo.go:82-92). -/
def E' : Env := { E with unreg := fun p => p != [['d'], ['f']] }

def s : St := (Watch fen E {} [['d']] 0x400).1
end Ex9

/-- **C80 is false of FEN while a notification is being handled.**  `/d` is watched and `/d/f` changes.  If Unwatch of `/d` runs after `Wait` has returned and before the
notification is handled, it fails and leaves `/d`, `/d/f` and `/d/g` in the table and natively watched; handling the notification associates `/d/f` again. -/
theorem C80_inflight_refuted : let r := Unwatch fen Ex9.E' (retrieved fen Ex9.s [['d'], ['f']]) [['d']]
    r.2 = .err false ∧ r.1.nat.get? [['d']] ≠ none ∧ r.1.nat.get? [['d'], ['g']] ≠ none ∧ look r.1 [['d']] = some (true, 0x400, 0) ∧
    (process fen Ex9.E (Unwatch fen Ex9.E' (retrieved fen Ex9.s [['d'], ['f']]) [['d']]).1 [['d'], ['f']] 0x2).1.nat.get? [['d'], ['f']] = some 0 := by
  decide

end Trg
end Verif
