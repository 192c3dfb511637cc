/-
Calls of the FSEvents watcher that are documented to fail (C78).
-/
import Verif.PropsFsevents2

namespace Verif
namespace Fsevents
open Verif.Rec PathStr

/-- The call is one that must fail by the documentation of the methods (watcher_fsevents.go:218-220, 225-226, 231-233, 246-248, 253-254, 260-267), given the
watches `os` that there are. -/
def MustFail (os : Path → Option (Event × Bool)) : Call → Prop
  | .watch p _ => os p ≠ none
  | .unwatch p => os p = none
  | .rewatch p old _ => ∀ r, os p ≠ some (old, r)
  | .recWatch p _ => os p ≠ none
  | .recUnwatch p => os p = none
  | .recRewatch p p' old _ => (∀ r, os p ≠ some (old, r)) ∨ (p ≠ p' ∧ os p' ≠ none)

/-- The only fault of the call is the old set of a `RecursiveRewatch` that keeps the set or moves the watch. -/
def OldSetOnly (os : Path → Option (Event × Bool)) : Call → Prop
  | .recRewatch p p' old new => os p ≠ none ∧ (p = p' → old = new) ∧ (p ≠ p' → os p' = none)
  | _ => False

theorem tab_get {t : Table} {p : Path} : tab t p = none ↔ t.get? p = none := by
  unfold tab; simp

/-- **C78.**  A call that must fail does fail, and the watches are as before, except for a `RecursiveRewatch` whose only fault is the old set. -/
theorem C78_refuses_partial (start : Bool) (t : Table) (c : Call) (h : MustFail (tab t) c) (hn : ¬ OldSetOnly (tab t) c) :
    (serve start t c).2 = false ∧ ∀ q, tab (serve start t c).1 q = tab t q := by
  suffices hs : serve start t c = (t, false) by rw [hs]; exact ⟨rfl, fun _ => rfl⟩
  have hw : ∀ p e f, tab t p ≠ none → watch start t p e f = (t, false) := by
    intro p e f hp
    unfold watch
    cases hg : t.get? p with
    | none => exact absurd (tab_get.mpr hg) hp
    | some w => rfl
  have hu : ∀ p, tab t p = none → unwatch t p = (t, false) := by
    intro p hp
    unfold unwatch
    rw [tab_get.mp hp]
  cases c with
  | watch p e => exact hw p e _ h
  | recWatch p e => exact hw p e _ h
  | unwatch p => exact hu p h
  | recUnwatch p => exact hu p h
  | rewatch p old new =>
    simp only [serve, rewatch]
    cases hg : t.get? p with
    | none => rfl
    | some w =>
      simp only
      rw [if_neg]
      rintro rfl
      exact h w.isrec (by unfold tab; rw [hg]; rfl)
  | recRewatch p p' old new =>
    simp only [serve, recRewatch]
    by_cases hpp : p = p'
    · subst hpp
      rw [if_pos rfl]
      rcases h with h | h
      · cases hg : t.get? p with
        | none => split <;> rfl
        | some w =>
          have hne : w.events ≠ old := by
            rintro rfl
            exact h w.isrec (by unfold tab; rw [hg]; rfl)
          by_cases hee : old = new
          · exact absurd ⟨fun hh => by rw [tab_get.mp hh] at hg; (cases hg), fun _ => hee, fun hh => absurd rfl hh⟩ hn
          · rw [if_neg hee]; simp only; rw [if_neg hne]
      · exact absurd rfl h.1
    · rw [if_neg hpp]
      cases hg : t.get? p' with
      | some w => rfl
      | none =>
        simp only
        have hp : tab t p = none := by
          cases ho : tab t p with
          | none => rfl
          | some x => exact absurd ⟨by rw [ho]; simp, fun hh => absurd hh hpp, fun _ => tab_get.mpr hg⟩ hn
        rw [hu p hp, if_pos rfl]

namespace Ex3
def t : Table := (watch true [] [Rec.Ex.a] Rec.Ex.W true).1
end Ex3

/-- Watching a watched path, changing it with a wrong old set, moving an unwatched one. -/
example : MustFail (tab Ex3.t) (.watch [Rec.Ex.a] Rec.Ex.W) ∧ MustFail (tab Ex3.t) (.rewatch [Rec.Ex.a] 0x1 Rec.Ex.W) ∧
    MustFail (tab Ex3.t) (.recRewatch [Rec.Ex.b] [Rec.Ex.a] Rec.Ex.W Rec.Ex.W) ∧ ¬ OldSetOnly (tab Ex3.t) (.recRewatch [Rec.Ex.b] [Rec.Ex.a] Rec.Ex.W Rec.Ex.W) :=
  ⟨show tab Ex3.t [Rec.Ex.a] ≠ none by decide, by intro r; cases r <;> decide, .inl (by intro r; cases r <;> decide), fun h => h.1 (by decide)⟩

/-- **C78 is false of the code** in those two cases: `RecursiveRewatch` accepts an old set that is not the one of the watch. -/
theorem C78_refuted : (MustFail (tab Ex3.t) (.recRewatch [Rec.Ex.a] [Rec.Ex.a] 0x1 0x1) ∧ (serve true Ex3.t (.recRewatch [Rec.Ex.a] [Rec.Ex.a] 0x1 0x1)).2 = true) ∧
    (MustFail (tab Ex3.t) (.recRewatch [Rec.Ex.a] [Rec.Ex.b] 0x1 0x2) ∧ (serve true Ex3.t (.recRewatch [Rec.Ex.a] [Rec.Ex.b] 0x1 0x2)).2 = true) :=
  ⟨⟨.inl (by intro r; cases r <;> decide), by decide⟩, ⟨.inl (by intro r; cases r <;> decide), by decide⟩⟩

end Fsevents
end Verif
