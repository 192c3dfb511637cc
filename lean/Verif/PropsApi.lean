/-
The beginning of Watch on both trees: what the arguments mean (C47).
-/
import Verif.Rec

namespace Verif

/-- The bit is in one of the events. -/
def InSome (es : List Event) (i : Nat) : Prop := ∃ e ∈ es, BitVec.getLsbD e i = true

theorem bit_foldl_or (es : List Event) (a : Event) (i : Nat) :
    BitVec.getLsbD (es.foldl (· ||| ·) a) i = true ↔ BitVec.getLsbD a i = true ∨ InSome es i := by
  induction es generalizing a with
  | nil => simp [InSome]
  | cons e es ih =>
    rw [List.foldl_cons, ih, BitVec.getLsbD_or, Bool.or_eq_true]
    simp only [InSome, List.mem_cons, exists_eq_or_imp, or_assoc]

theorem joinevents_bit (P : Platform) {es : List Event} (h : es ≠ []) (i : Nat) :
    BitVec.getLsbD (NonRec.joinevents P es) i = true ↔ InSome es i := by
  unfold NonRec.joinevents
  rw [if_neg h, bit_foldl_or]
  simp

theorem joinevents_congr (P : Platform) {es es' : List Event} (h : es ≠ []) (h' : es' ≠ [])
    (heq : ∀ i, InSome es i ↔ InSome es' i) : NonRec.joinevents P es = NonRec.joinevents P es' := by
  rw [Event.bext]
  intro i
  rw [Bool.eq_iff_iff, joinevents_bit P h, joinevents_bit P h', heq i]

/-- **C47, non-recursive tree.**  Only the union of the events passed to Watch matters: two non-empty lists
of events with the same bits have the same effect and result; and a Watch with a nil channel panics before
it does anything. -/
theorem C47_nonrec (P : Platform) (O : Oracle) (d : DirTree) (s : St) (clean : Option (Path × Bool)) :
    (∀ c es es', es ≠ [] → es' ≠ [] → (∀ i, InSome es i ↔ InSome es' i) →
      NonRec.apiWatch P O d s clean (some c) es = NonRec.apiWatch P O d s clean (some c) es') ∧
    (∀ c e, NonRec.apiWatch P O d s clean (some c) [e] =
      match clean with
      | none => (s, .error)
      | some (p, isrec) => ((NonRec.watchOp P O d s p isrec c e).1,
          if (NonRec.watchOp P O d s p isrec c e).2 = true then .ok else .error)) ∧
    ∀ es, NonRec.apiWatch P O d s clean none es = (s, .panic) := by
  refine ⟨fun c es es' h h' heq => ?_, fun c e => ?_, fun es => rfl⟩
  · unfold NonRec.apiWatch
    have hl : es.length ≠ 0 := fun h0 => h (List.length_eq_zero_iff.1 h0)
    have hl' : es'.length ≠ 0 := fun h0 => h' (List.length_eq_zero_iff.1 h0)
    simp only [hl, hl', if_false, joinevents_congr P h h' heq]
  · have hj : NonRec.joinevents P [e] = e := by
      simp [NonRec.joinevents]
    unfold NonRec.apiWatch
    simp only [List.length_cons, List.length_nil, hj]
    rw [if_neg (by omega)]
    cases clean <;> rfl

/-- **C47, recursive tree.** -/
theorem C47_rec (P : Platform) (O : Oracle) (s : St) (clean : Option (Path × Bool)) :
    (∀ c es es', es ≠ [] → es' ≠ [] → (∀ i, InSome es i ↔ InSome es' i) →
      Rec.apiWatch P O s clean (some c) es = Rec.apiWatch P O s clean (some c) es') ∧
    (∀ c e, Rec.apiWatch P O s clean (some c) [e] =
      match clean with
      | none => (s, .error)
      | some (p, isrec) => ((Rec.watchOp P O s p isrec c e).1,
          if (Rec.watchOp P O s p isrec c e).2 = true then .ok else .error)) ∧
    ∀ es, Rec.apiWatch P O s clean none es = (s, .panic) := by
  refine ⟨fun c es es' h h' heq => ?_, fun c e => ?_, fun es => rfl⟩
  · unfold Rec.apiWatch
    have hl : es.length ≠ 0 := fun h0 => h (List.length_eq_zero_iff.1 h0)
    have hl' : es'.length ≠ 0 := fun h0 => h' (List.length_eq_zero_iff.1 h0)
    simp only [hl, hl', if_false, joinevents_congr P h h' heq]
  · have hj : NonRec.joinevents P [e] = e := by
      simp [NonRec.joinevents]
    unfold Rec.apiWatch
    simp only [List.length_cons, List.length_nil, hj]
    rw [if_neg (by omega)]
    cases clean <;> rfl

/-- Create and Write in either order, or as one event. -/
example : ∀ i, InSome [(0x100000 : Event), 0x400000] i ↔ InSome [(0x500000 : Event)] i := by
  intro i
  have h : (0x500000 : Event) = 0x100000 ||| 0x400000 := by decide
  simp only [InSome, List.mem_cons, List.not_mem_nil, or_false, exists_eq_or_imp, exists_eq_left, h,
    BitVec.getLsbD_or, Bool.or_eq_true]

end Verif
