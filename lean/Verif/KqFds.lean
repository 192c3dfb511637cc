/-
kqueue: descriptors between `Wait` and `process` (C81).

Models /repo/watcher_kqueue.go: `NewWatched` (59-79), `Record` (82-84), `Del` (87-91), `Wait` (140-149), `Watched` (152-161); and /repo/watcher_trigger.go: `monitor`
(399-416), the first lines of `process` (419-426) and the last `Del` in it (449-451), as far as descriptors are concerned.

`Wait` returns the number of a descriptor.  The monitor goroutine takes the lock only afterwards, so that calls of Watch and Unwatch run in between.  open(2) returns a
number that is not in use.  A file is identified by a number (its vnode).

Simplifications: a call watches or unwatches one entry; registration succeeds.  Whether an event was requested is not considered here (C40).
-/
import Verif.Watchpoint

namespace Verif
namespace KqFds
open GoMap

structure S where
  /-- Open descriptors and their files. -/
  opn : GoMap Nat Nat := []
  /-- `idLkp`. -/
  id : GoMap Nat Path := []
  /-- `pthLkp`. -/
  pth : GoMap Path Nat := []
  /-- `Wait` has returned: the descriptor and the flags; and the file that changed, which is not part of the notification. -/
  hand : Option (Nat × Nat × Event) := none
  /-- Events reported: the path, the file that is open for this path, the file that changed, the flags. -/
  out : List (Path × Option Nat × Nat × Event) := []
  deriving DecidableEq

/-- `NewWatched`, `Watch`, `Record` for the file `v`, opened as `fd`. -/
def watch (s : S) (p : Path) (v fd : Nat) : S := { s with opn := s.opn.set fd v, id := s.id.set fd p, pth := s.pth.set p fd }

/-- `Del`. -/
def del (s : S) (p : Path) (fd : Nat) : S := { s with opn := s.opn.del fd, id := s.id.del fd, pth := s.pth.del p }

def unwatch (s : S) (p : Path) : S :=
  match s.pth.get? p with
  | none => s
  | some fd => del s p fd

/-- `Wait` returns. -/
def wait (s : S) (fd : Nat) (f : Event) : S :=
  match s.hand, s.opn.get? fd with
  | none, some v => { s with hand := some (fd, v, f) }
  | _, _ => s

/-- `process`. -/
def process (s : S) : S :=
  match s.hand with
  | none => s
  | some (fd, v, f) =>
    match s.id.get? fd with
    | none => { s with hand := none }
    | some p =>
      let s := { s with hand := none, out := s.out ++ [(p, s.opn.get? fd, v, f)] }
      if f &&& 0x21 ≠ 0 then del s p fd else s

/-- Histories.  `reuse`: open(2) also returns the number of the notification that is between `Wait` and `process`. -/
inductive Hist (reuse : Bool) : S → Prop
  | nil : Hist reuse {}
  | watch {s} (p v fd) : Hist reuse s → s.pth.get? p = none → s.opn.get? fd = none → (reuse = false → ∀ x, s.hand = some x → x.1 ≠ fd) → Hist reuse (watch s p v fd)
  | unwatch {s} (p) : Hist reuse s → Hist reuse (unwatch s p)
  | wait {s} (fd f) : Hist reuse s → Hist reuse (wait s fd f)
  | process {s} : Hist reuse s → Hist reuse (process s)

/-- The tables agree with each other and with the open descriptors. -/
structure Inv (s : S) : Prop where
  id : ∀ fd p, s.id.get? fd = some p ↔ s.pth.get? p = some fd
  opn : ∀ fd, s.opn.get? fd = none ↔ s.id.get? fd = none

theorem Inv.del {s : S} (h : Inv s) {p : Path} {fd : Nat} (hp : s.pth.get? p = some fd) : Inv (del s p fd) := by
  refine ⟨fun fd' q => ?_, fun fd' => ?_⟩
  · simp only [KqFds.del, get?_del]
    by_cases h1 : fd = fd'
    · subst h1
      by_cases h2 : p = q
      · simp [h2]
      · rw [if_pos rfl, if_neg h2, ← h.id, (h.id fd p).mpr hp]
        constructor
        · intro hh; cases hh
        · intro hh; cases hh; exact absurd rfl h2
    · by_cases h2 : p = q
      · subst h2
        rw [if_neg h1, if_pos rfl, h.id, hp]
        constructor
        · intro hh; cases hh; exact absurd rfl h1
        · intro hh; cases hh
      · rw [if_neg h1, if_neg h2]; exact h.id fd' q
  · simp only [KqFds.del, get?_del]
    by_cases h1 : fd = fd'
    · simp [h1]
    · rw [if_neg h1, if_neg h1]; exact h.opn fd'

theorem Hist.inv {reuse : Bool} {s : S} (h : Hist reuse s) : Inv s := by
  induction h with
  | nil => exact ⟨by simp, by simp⟩
  | @watch s p v fd _ hp hfd _ ih =>
    have hid : s.id.get? fd = none := (ih.opn fd).mp hfd
    refine ⟨fun fd' q => ?_, fun fd' => ?_⟩
    · simp only [KqFds.watch, get?_set]
      by_cases h1 : fd = fd'
      · subst h1
        by_cases h2 : p = q
        · simp [h2]
        · rw [if_pos rfl, if_neg h2, ← ih.id, hid]
          constructor
          · intro hh; cases hh; exact absurd rfl h2
          · intro hh; cases hh
      · by_cases h2 : p = q
        · subst h2
          rw [if_neg h1, if_pos rfl, ih.id, hp]
          constructor
          · intro hh; cases hh
          · intro hh; cases hh; exact absurd rfl h1
        · rw [if_neg h1, if_neg h2]; exact ih.id fd' q
    · simp only [KqFds.watch, get?_set]
      by_cases h1 : fd = fd'
      · simp [h1]
      · rw [if_neg h1, if_neg h1]; exact ih.opn fd'
  | @unwatch s p _ ih =>
    unfold KqFds.unwatch
    cases hp : s.pth.get? p with
    | none => exact ih
    | some fd => exact ih.del hp
  | @wait s fd f _ ih =>
    unfold KqFds.wait
    split
    · exact ⟨ih.id, ih.opn⟩
    · exact ih
  | @process s _ ih =>
    unfold KqFds.process
    split
    · exact ih
    · split
      · exact ⟨ih.id, ih.opn⟩
      · rename_i fd v f _ _ p hp
        simp only
        have h' : Inv { s with hand := none, out := s.out ++ [(p, s.opn.get? fd, v, f)] } := ⟨ih.id, ih.opn⟩
        split
        · exact h'.del ((ih.id fd p).mp hp)
        · exact h'

/-- **C81, tables.**  In every history, whatever number open(2) returns: every entry has an open descriptor, found by its path and by its number; and every descriptor the
watcher has open belongs to an entry. -/
theorem C81_tables {reuse : Bool} {s : S} (h : Hist reuse s) :
    (∀ p fd, s.pth.get? p = some fd → s.id.get? fd = some p ∧ s.opn.get? fd ≠ none) ∧ ∀ fd, s.opn.get? fd ≠ none → ∃ p, s.pth.get? p = some fd := by
  have hi := h.inv
  refine ⟨fun p fd hp => ⟨(hi.id fd p).mpr hp, fun hn => ?_⟩, fun fd hn => ?_⟩
  · have := (hi.id fd p).mpr hp; rw [(hi.opn fd).mp hn] at this; cases this
  · cases hid : s.id.get? fd with
    | none => exact absurd ((hi.opn fd).mpr hid) hn
    | some p => exact ⟨p, (hi.id fd p).mp hid⟩

theorem del_opn {s : S} {p : Path} {fd fd' : Nat} {v : Nat} (h : s.opn.get? fd' = some v ∨ s.opn.get? fd' = none) :
    (del s p fd).opn.get? fd' = some v ∨ (del s p fd).opn.get? fd' = none := by
  simp only [del, get?_del]
  split
  · exact .inr rfl
  · exact h

/-- **C81, files.**  If open(2) does not return the number of a notification that is being handled, every event is reported for a path whose open file is the file that
changed. -/
theorem C81_files_partial {s : S} (h : Hist false s) : ∀ x ∈ s.out, x.2.1 = some x.2.2.1 := by
  suffices hs : (∀ fd v f, s.hand = some (fd, v, f) → s.opn.get? fd = some v ∨ s.opn.get? fd = none) ∧ ∀ x ∈ s.out, x.2.1 = some x.2.2.1 from hs.2
  induction h with
  | nil => simp
  | @watch s p v fd _ hp hfd hr ih =>
    refine ⟨fun fd' v' f hh => ?_, ih.2⟩
    have := hr rfl _ hh
    simp only [KqFds.watch, get?_set]
    rw [if_neg (Ne.symm this)]; exact ih.1 fd' v' f hh
  | @unwatch s p _ ih =>
    unfold KqFds.unwatch
    cases hp : s.pth.get? p with
    | none => exact ih
    | some fd => exact ⟨fun fd' v' f hh => del_opn (ih.1 fd' v' f hh), ih.2⟩
  | @wait s fd f _ ih =>
    unfold KqFds.wait
    split
    · rename_i v _ hv
      refine ⟨fun fd' v' f' hh => ?_, ih.2⟩
      simp only [Option.some.injEq, Prod.mk.injEq] at hh
      obtain ⟨rfl, rfl, rfl⟩ := hh
      exact .inl hv
    · exact ih
  | @process s h ih =>
    unfold KqFds.process
    split
    · exact ih
    · rename_i fd v f hh
      split
      · exact ⟨by simp, ih.2⟩
      · rename_i p hp
        have hout : ∀ x ∈ s.out ++ [(p, s.opn.get? fd, v, f)], x.2.1 = some x.2.2.1 := by
          intro x hx
          rcases List.mem_append.mp hx with hx | hx
          · exact ih.2 x hx
          · rw [List.mem_singleton] at hx; subst hx
            rcases ih.1 fd v f hh with h1 | h1
            · exact h1
            · rw [(h.inv.opn fd).mp h1] at hp; cases hp
        simp only
        split
        · exact ⟨by simp [del], hout⟩
        · exact ⟨by simp, hout⟩

/-- **C81, what handling a notification does.**  It is reported once for the path that the descriptor belongs to, and not at all if there is none.  Removal and renaming end
the watch of this path, other changes do not, and no other watch is touched. -/
theorem C81_handled {reuse : Bool} {s : S} (h : Hist reuse s) {fd v : Nat} {f : Event} (hh : s.hand = some (fd, v, f)) :
    (process s).hand = none ∧ (∀ q, s.pth.get? q ≠ some fd → (process s).pth.get? q = s.pth.get? q) ∧
    ((∀ q, s.pth.get? q ≠ some fd) → (process s).out = s.out) ∧
    ∀ p, s.pth.get? p = some fd → (process s).out = s.out ++ [(p, s.opn.get? fd, v, f)] ∧
      (process s).pth.get? p = if f &&& 0x21 ≠ 0 then none else some fd := by
  have hi := h.inv
  unfold process
  rw [hh]
  simp only
  cases hp : s.id.get? fd with
  | none =>
    refine ⟨rfl, fun _ _ => rfl, fun _ => rfl, fun p hp' => ?_⟩
    rw [(hi.id fd p).mpr hp'] at hp; cases hp
  | some p =>
    have hpp := (hi.id fd p).mp hp
    refine ⟨?_, fun q hq => ?_, fun hn => absurd hpp (hn p), fun q hq => ?_⟩
    · simp only; split <;> rfl
    · have hpq : p ≠ q := fun hpq => hq (hpq ▸ hpp)
      simp only
      split
      · simp only [del, get?_del]; rw [if_neg hpq]
      · rfl
    · have hqp := (hi.id fd q).mpr hq
      rw [hp] at hqp; cases hqp
      simp only
      split
      · exact ⟨rfl, by simp [del, get?_del]⟩
      · exact ⟨rfl, hq⟩

namespace Ex
def a : Path := [['a']]
def b : Path := [['b']]

/-- `/a` is watched, changes and the change is reported. -/
example : ∃ s, Hist false s ∧ s.out = [(a, some 10, 10, 0x2)] :=
  ⟨_, .process (.wait 5 0x2 (.watch a 10 5 .nil rfl rfl (fun _ _ h => by cases h))), by decide⟩
end Ex

/-- **C81 is false of the code.**  `/a` is removed; after `Wait` has returned, but before the notification is handled, `/a` is unwatched and `/b` is watched, for which
open(2) returns the number that became free.  The removal is then reported for `/b`, and `/b` is no longer watched. -/
theorem C81_refuted : ∃ s, Hist true s ∧ s.out = [(Ex.b, some 20, 10, 0x1)] ∧ s.pth.get? Ex.b = none ∧ s.opn = [] :=
  ⟨_, .process (.watch Ex.b 20 5 (.unwatch Ex.a (.wait 5 0x1 (.watch Ex.a 10 5 .nil rfl rfl (fun h => by cases h)))) (by decide) (by decide) (fun h => by cases h)),
    by decide, by decide, by decide⟩

end KqFds
end Verif
