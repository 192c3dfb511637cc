/-
kqueue and FEN: masks and translation (C40).
-/
import Verif.Trigger
import Verif.SpecTrigger
import Verif.PropsInotify

namespace Verif
namespace Trg
open Spec.Trg Event WP

/-! ### Bits -/

/-- An event of one bit. -/
def One (f : Event) : Prop := ∃ k, k < 32 ∧ f = BitVec.twoPow 32 k

theorem one_and {f : Event} (h : One f) (o : Event) : o &&& f ≠ 0 ↔ f ⊑ o := by
  obtain ⟨k, hk, rfl⟩ := h
  rw [Inotify.and_pow o hk, Inotify.sub_pow o hk]

/-- What one entry of the table adds. -/
def contrib (o w : Event) (fn : Event × Event) : Event :=
  if o &&& fn.1 ≠ 0 then (if w &&& fn.1 ≠ 0 then fn.1 else 0) ||| (if w &&& fn.2 ≠ 0 then fn.2 else 0) else 0

theorem decode1_eq (o w e : Event) (fn : Event × Event) : decode1 o w e fn = e ||| contrib o w fn := by
  unfold decode1 contrib
  simp only
  split
  · split <;> split <;> simp [BitVec.or_assoc]
  · simp

theorem decode_bit_aux (o w : Event) (i : Nat) : ∀ (tab : List (Event × Event)) (e : Event),
    bit (tab.foldl (decode1 o w) e) i = true ↔ bit e i = true ∨ ∃ fn ∈ tab, bit (contrib o w fn) i = true
  | [], e => by simp
  | fn :: tab, e => by
    rw [List.foldl_cons, decode_bit_aux o w i tab, decode1_eq]
    simp [bit, or_assoc]

theorem decode_bit (tab : List (Event × Event)) (o w : Event) (i : Nat) :
    bit (decode tab o w) i = true ↔ ∃ fn ∈ tab, bit (contrib o w fn) i = true := by
  unfold decode
  rw [decode_bit_aux]
  simp [bit]

/-- The result of `decode` does not depend on the order in which the table is traversed. -/
theorem decode_perm {tab tab' : List (Event × Event)} (h : tab.Perm tab') (o w : Event) : decode tab o w = decode tab' o w := by
  rw [bext]
  intro i
  apply Bool.eq_iff_iff.2
  rw [decode_bit, decode_bit]
  constructor
  · rintro ⟨fn, h1, h2⟩; exact ⟨fn, h.mem_iff.1 h1, h2⟩
  · rintro ⟨fn, h1, h2⟩; exact ⟨fn, h.mem_iff.2 h1, h2⟩

theorem contrib_bit {o w : Event} {fn : Event × Event} (h1 : One fn.1) (h2 : fn.2 = 0 ∨ One fn.2) (i : Nat) :
    bit (contrib o w fn) i = true ↔
      fn.1 ⊑ o ∧ ((fn.1 ⊑ w ∧ bit fn.1 i = true) ∨ (fn.2 ⊑ w ∧ bit fn.2 i = true)) := by
  unfold contrib
  by_cases ho : o &&& fn.1 ≠ 0
  · rw [if_pos ho]
    have ho' := (one_and h1 o).1 ho
    simp only [bit, BitVec.getLsbD_or, Bool.or_eq_true, ho', true_and]
    have e1 : BitVec.getLsbD (if w &&& fn.1 ≠ 0 then fn.1 else 0) i = true ↔ fn.1 ⊑ w ∧ BitVec.getLsbD fn.1 i = true := by
      by_cases h : w &&& fn.1 ≠ 0
      · rw [if_pos h]; simp [(one_and h1 w).1 h]
      · rw [if_neg h]
        have : ¬ fn.1 ⊑ w := fun hs => h ((one_and h1 w).2 hs)
        simp [this]
    have e2 : BitVec.getLsbD (if w &&& fn.2 ≠ 0 then fn.2 else 0) i = true ↔ fn.2 ⊑ w ∧ BitVec.getLsbD fn.2 i = true := by
      rcases h2 with h2 | h2
      · rw [h2]; simp
      · by_cases h : w &&& fn.2 ≠ 0
        · rw [if_pos h]; simp [(one_and h2 w).1 h]
        · rw [if_neg h]
          have : ¬ fn.2 ⊑ w := fun hs => h ((one_and h2 w).2 hs)
          simp [this]
    rw [e1, e2]
  · rw [if_neg ho]
    have : ¬ fn.1 ⊑ o := fun hs => ho ((one_and h1 o).2 hs)
    simp [this]

/-- Entries of the table against pairs of the specification. -/
theorem decode_means {tab means : List (Event × Event)}
    (h1 : ∀ fn ∈ tab, One fn.1 ∧ (fn.2 = 0 ∨ One fn.2))
    (h2 : ∀ fn ∈ tab, (fn.1, fn.1) ∈ means ∧ (fn.2 = 0 ∨ (fn.2, fn.1) ∈ means))
    (h3 : ∀ x ∈ means, ∃ fn ∈ tab, x.2 = fn.1 ∧ (x.1 = fn.1 ∨ x.1 = fn.2)) (o w : Event) (i : Nat) :
    bit (decode tab o w) i = true ↔ ∃ E f, (E, f) ∈ means ∧ f ⊑ o ∧ E ⊑ w ∧ bit E i = true := by
  rw [decode_bit]
  constructor
  · rintro ⟨fn, hm, hb⟩
    obtain ⟨ho, h | h⟩ := (contrib_bit (h1 fn hm).1 (h1 fn hm).2 i).1 hb
    · exact ⟨fn.1, fn.1, (h2 fn hm).1, ho, h.1, h.2⟩
    · rcases (h2 fn hm).2 with h0 | h0
      · rw [h0] at h; simp [bit] at h
      · exact ⟨fn.2, fn.1, h0, ho, h.1, h.2⟩
  · rintro ⟨E, f, hm, ho, hw, hb⟩
    obtain ⟨fn, hfn, h4, h5⟩ := h3 _ hm
    simp only at h4 h5
    subst h4
    refine ⟨fn, hfn, (contrib_bit (h1 fn hfn).1 (h1 fn hfn).2 i).2 ⟨ho, ?_⟩⟩
    rcases h5 with rfl | rfl
    · exact .inl ⟨hw, hb⟩
    · exact .inr ⟨hw, hb⟩

def isOne (f : Event) : Bool := (List.range 32).any fun k => f == BitVec.twoPow 32 k

theorem one_of {f : Event} (h : isOne f = true) : One f := by
  unfold isOne at h
  rw [List.any_eq_true] at h
  obtain ⟨k, hk, h⟩ := h
  exact ⟨k, List.mem_range.1 hk, by simpa using h⟩

/-- **C40, translation on kqueue.**  For every order of the table: the events reported for native flags `o` of an entry
with request `w` are those that one of the flags means and that were requested. -/
theorem C40_decode_kqueue {tab : List (Event × Event)} (ht : tab.Perm kqueue.nat2not) (o w : Event) (i : Nat) :
    bit (decode tab o w) i = true ↔ ∃ E f, (E, f) ∈ kqMeans ∧ f ⊑ o ∧ E ⊑ w ∧ bit E i = true := by
  rw [decode_perm ht]
  have h : ∀ fn ∈ kqueue.nat2not, isOne fn.1 = true ∧ (fn.2 = 0 ∨ isOne fn.2 = true) := by decide
  exact decode_means (fun fn hf => ⟨one_of (h fn hf).1, (h fn hf).2.imp id one_of⟩) (by decide) (by decide) o w i

/-- **C40, translation on FEN.** -/
theorem C40_decode_fen {tab : List (Event × Event)} (ht : tab.Perm fen.nat2not) (o w : Event) (i : Nat) :
    bit (decode tab o w) i = true ↔ ∃ E f, (E, f) ∈ fenMeans ∧ f ⊑ o ∧ E ⊑ w ∧ bit E i = true := by
  rw [decode_perm ht]
  have h : ∀ fn ∈ fen.nat2not, isOne fn.1 = true ∧ (fn.2 = 0 ∨ isOne fn.2 = true) := by decide
  exact decode_means (fun fn hf => ⟨one_of (h fn hf).1, (h fn hf).2.imp id one_of⟩) (by decide) (by decide) o w i

theorem decode_sub (N : Native) (hN : N = kqueue ∨ N = fen) (o w : Event) : decode N.nat2not o w ⊑ w := by
  intro i hi
  rcases hN with rfl | rfl
  · obtain ⟨E, f, _, _, hw, hb⟩ := (C40_decode_kqueue (List.Perm.refl _) o w i).1 hi
    exact hw i hb
  · obtain ⟨E, f, _, _, hw, hb⟩ := (C40_decode_fen (List.Perm.refl _) o w i).1 hi
    exact hw i hb

/-! ### Masks -/

theorem and_bit {e : Event} {f : Event} {k : Nat} (hk : k < 32) (hf : f = BitVec.twoPow 32 k) :
    (e &&& f ≠ 0) ↔ e.getLsbD k = true := by rw [hf]; exact Inotify.and_pow e hk

theorem sub_bit {e : Event} {f : Event} {k : Nat} (hk : k < 32) (hf : f = BitVec.twoPow 32 k) :
    f ⊑ e ↔ e.getLsbD k = true := by rw [hf]; exact Inotify.sub_pow e hk

theorem kq_encode_bit (e : Event) (d : Bool) {j : Nat} (hj : j < 32) :
    (kqueue.encode e d).getLsbD j =
      ((e.getLsbD j && !(j == 8 || j == 9 || j == 10 || j == 11)) ||
       (j == 1 && ((e.getLsbD 8 && d) || e.getLsbD 10)) || (j == 5 && e.getLsbD 11) || (j == 0 && e.getLsbD 9)) := by
  have l1 : ∀ j < 32, (0x100 : Event).getLsbD j = (j == 8) := by decide
  have l2 : ∀ j < 32, (0x200 : Event).getLsbD j = (j == 9) := by decide
  have l3 : ∀ j < 32, (0x400 : Event).getLsbD j = (j == 10) := by decide
  have l4 : ∀ j < 32, (0x800 : Event).getLsbD j = (j == 11) := by decide
  have l5 : ∀ j < 32, (0x2 : Event).getLsbD j = (j == 1) := by decide
  have l6 : ∀ j < 32, (0x20 : Event).getLsbD j = (j == 5) := by decide
  have l7 : ∀ j < 32, (0x1 : Event).getLsbD j = (j == 0) := by decide
  have c1 : (e &&& 0x100 ≠ 0) ↔ e.getLsbD 8 = true := and_bit (k := 8) (by decide) (by decide)
  have c2 : (e &&& 0x200 ≠ 0) ↔ e.getLsbD 9 = true := and_bit (k := 9) (by decide) (by decide)
  have c3 : (e &&& 0x400 ≠ 0) ↔ e.getLsbD 10 = true := and_bit (k := 10) (by decide) (by decide)
  have c4 : (e &&& 0x800 ≠ 0) ↔ e.getLsbD 11 = true := and_bit (k := 11) (by decide) (by decide)
  simp only [kqueue, c1, c2, c3, c4]
  have st : ∀ (c : Prop) [Decidable c] (x y : Event), (if c then x else y).getLsbD j = if c then x.getLsbD j else y.getLsbD j := by
    intro c _ x y; split <;> rfl
  simp only [st, BitVec.getLsbD_or, bit_andNot, l1 j hj, l2 j hj, l3 j hj, l4 j hj, l5 j hj, l6 j hj, l7 j hj]
  by_cases j8 : j = 8
  · subst j8
    generalize e.getLsbD 8 = b8; generalize e.getLsbD 9 = b9; generalize e.getLsbD 10 = b10; generalize e.getLsbD 11 = b11
    revert b8 b9 b10 b11 d; decide
  by_cases j9 : j = 9
  · subst j9
    generalize e.getLsbD 8 = b8; generalize e.getLsbD 9 = b9; generalize e.getLsbD 10 = b10; generalize e.getLsbD 11 = b11
    revert b8 b9 b10 b11 d; decide
  by_cases j10 : j = 10
  · subst j10
    generalize e.getLsbD 8 = b8; generalize e.getLsbD 9 = b9; generalize e.getLsbD 10 = b10; generalize e.getLsbD 11 = b11
    revert b8 b9 b10 b11 d; decide
  by_cases j11 : j = 11
  · subst j11
    generalize e.getLsbD 8 = b8; generalize e.getLsbD 9 = b9; generalize e.getLsbD 10 = b10; generalize e.getLsbD 11 = b11
    revert b8 b9 b10 b11 d; decide
  rw [beq_false_of_ne j8, beq_false_of_ne j9, beq_false_of_ne j10, beq_false_of_ne j11]
  generalize e.getLsbD 8 = b8; generalize e.getLsbD 9 = b9; generalize e.getLsbD 10 = b10; generalize e.getLsbD 11 = b11
  generalize e.getLsbD j = b; generalize (j == 1) = j1; generalize (j == 5) = j5; generalize (j == 0) = j0
  clear hj l1 l2 l3 l4 l5 l6 l7 c1 c2 c3 c4 st j8 j9 j10 j11
  revert b8 b9 b10 b11 b j1 j5 j0 d; decide

theorem fen_encode_bit (e : Event) (d : Bool) {j : Nat} (hj : j < 32) :
    (fen.encode e d).getLsbD j =
      (((e.getLsbD j && !(j == 8 || j == 10)) || (j == 1 && ((e.getLsbD 8 && d) || e.getLsbD 10))) &&
        !(j == 11 || j == 9 || j == 4 || j == 5 || j == 6 || j == 29 || j == 30)) := by
  have l1 : ∀ j < 32, (0x100 : Event).getLsbD j = (j == 8) := by decide
  have l3 : ∀ j < 32, (0x400 : Event).getLsbD j = (j == 10) := by decide
  have l5 : ∀ j < 32, (0x2 : Event).getLsbD j = (j == 1) := by decide
  have lm : ∀ j < 32, (~~~0x800#32 &&& ~~~0x200 &^ 0x10 &^ 0x20 &^ 0x40 &^ 0x20000000 &^ 0x40000000 : Event).getLsbD j =
    !(j == 11 || j == 9 || j == 4 || j == 5 || j == 6 || j == 29 || j == 30) := by decide
  have c1 : (e &&& 0x100 ≠ 0) ↔ e.getLsbD 8 = true := and_bit (k := 8) (by decide) (by decide)
  have c3 : (e &&& 0x400 ≠ 0) ↔ e.getLsbD 10 = true := and_bit (k := 10) (by decide) (by decide)
  simp only [fen, c1, c3]
  rw [BitVec.getLsbD_and, lm j hj]
  congr 1
  have st : ∀ (c : Prop) [Decidable c] (x y : Event), (if c then x else y).getLsbD j = if c then x.getLsbD j else y.getLsbD j := by
    intro c _ x y; split <;> rfl
  simp only [st, BitVec.getLsbD_or, bit_andNot, l1 j hj, l3 j hj, l5 j hj]
  by_cases j8 : j = 8
  · subst j8
    generalize e.getLsbD 8 = b8; generalize e.getLsbD 10 = b10
    revert b8 b10 d; decide
  by_cases j10 : j = 10
  · subst j10
    generalize e.getLsbD 8 = b8; generalize e.getLsbD 10 = b10
    revert b8 b10 d; decide
  rw [beq_false_of_ne j8, beq_false_of_ne j10]
  generalize e.getLsbD 8 = b8; generalize e.getLsbD 10 = b10
  generalize e.getLsbD j = b; generalize (j == 1) = j1
  clear hj l1 l3 l5 lm c1 c3 st j8 j10
  revert b8 b10 b j1 d; decide

theorem means_of (means : List (Event × Event)) (f e : Event) :
    (∃ E, (E, f) ∈ means ∧ E ⊑ e) ↔ ∃ E, E ∈ (means.filter fun x => x.2 == f).map (·.1) ∧ E ⊑ e := by
  constructor
  · rintro ⟨E, h1, h2⟩
    exact ⟨E, List.mem_map.2 ⟨(E, f), List.mem_filter.2 ⟨h1, by simp⟩, rfl⟩, h2⟩
  · rintro ⟨E, h1, h2⟩
    obtain ⟨⟨E', f'⟩, h3, h4⟩ := List.mem_map.1 h1
    obtain ⟨h5, h6⟩ := List.mem_filter.1 h3
    simp only [beq_iff_eq] at h6 h4
    subst h4; subst h6
    exact ⟨E', h5, h2⟩

/-- **C40, mask on kqueue.**  For an event set of Create, Remove, Write, Rename and native flags the native mask has native
flags only, and exactly those that mean a requested event, and NOTE_WRITE for a directory whose new entries are wanted. -/
theorem C40_mask_kqueue (e : Event) (he : e ⊑ 0xf7f) (d : Bool) :
    kqueue.encode e d ⊑ 0x7f ∧
    ∀ f ∈ kqFlags, f ⊑ kqueue.encode e d ↔ (∃ E, (E, f) ∈ kqMeans ∧ E ⊑ e) ∨ (f = 0x2 ∧ d = true ∧ 0x100 ⊑ e) := by
  constructor
  · intro j hj
    by_cases h32 : j < 32
    · rw [kq_encode_bit e d h32] at hj
      have hl : ∀ j < 32, (0xf7f : Event).getLsbD j = (j < 7 || j == 8 || j == 9 || j == 10 || j == 11) := by decide
      have hl2 : ∀ j < 32, (0x7f : Event).getLsbD j = decide (j < 7) := by decide
      rw [hl2 j h32]
      have he' := he j
      rw [hl j h32] at he'
      simp only [Bool.or_eq_true, Bool.and_eq_true, Bool.not_eq_true', beq_iff_eq, decide_eq_true_eq] at hj he' ⊢
      rcases hj with ((⟨h1, h2⟩ | h) | h) | h
      · have := he' h1
        simp only [Bool.or_eq_false_iff, beq_eq_false_iff_ne] at h2
        omega
      · omega
      · omega
      · omega
    · rw [BitVec.getLsbD_of_ge _ _ (by omega)] at hj; cases hj
  · have s100 : (0x100 : Event) ⊑ e ↔ e.getLsbD 8 = true := sub_bit (by decide) (by decide)
    have s200 : (0x200 : Event) ⊑ e ↔ e.getLsbD 9 = true := sub_bit (by decide) (by decide)
    have s400 : (0x400 : Event) ⊑ e ↔ e.getLsbD 10 = true := sub_bit (by decide) (by decide)
    have s800 : (0x800 : Event) ⊑ e ↔ e.getLsbD 11 = true := sub_bit (by decide) (by decide)
    have sl : ∀ {f : Event} {k : Nat}, k < 32 → f = BitVec.twoPow 32 k → (f ⊑ e ↔ e.getLsbD k = true) := fun hk hf =>
      sub_bit hk hf
    intro f hf
    rw [means_of kqMeans f e]
    simp only [kqFlags, List.mem_cons, List.not_mem_nil, or_false] at hf
    rcases hf with rfl | rfl | rfl | rfl | rfl | rfl | rfl
    · rw [sub_bit (k := 0) (by decide) (by decide), kq_encode_bit e d (by decide),
        show (kqMeans.filter fun x => x.2 == 0x1).map (·.1) = [0x200, 0x1] by decide]
      simp only [List.mem_cons, List.not_mem_nil, or_false, exists_eq_or_imp, exists_eq_left, s100, s200, s400, s800,
        sl (f := 0x1) (k := 0) (by decide) (by decide)]
      simp [or_comm]
    · rw [sub_bit (k := 1) (by decide) (by decide), kq_encode_bit e d (by decide),
        show (kqMeans.filter fun x => x.2 == 0x2).map (·.1) = [0x400, 0x2] by decide]
      simp only [List.mem_cons, List.not_mem_nil, or_false, exists_eq_or_imp, exists_eq_left, s100, s200, s400, s800,
        sl (f := 0x2) (k := 1) (by decide) (by decide)]
      generalize e.getLsbD 8 = b8; generalize e.getLsbD 10 = b10; generalize e.getLsbD 1 = b1; generalize e.getLsbD 11 = b11
      generalize e.getLsbD 9 = b9
      clear s100 s200 s400 s800 sl he
      revert b8 b10 b1 b11 b9 d; decide
    · rw [sub_bit (k := 2) (by decide) (by decide), kq_encode_bit e d (by decide),
        show (kqMeans.filter fun x => x.2 == 0x4).map (·.1) = [0x4] by decide]
      simp only [List.mem_cons, List.not_mem_nil, or_false, exists_eq_or_imp, exists_eq_left, s100, s200, s400, s800,
        sl (f := 0x4) (k := 2) (by decide) (by decide)]
      simp
    · rw [sub_bit (k := 3) (by decide) (by decide), kq_encode_bit e d (by decide),
        show (kqMeans.filter fun x => x.2 == 0x8).map (·.1) = [0x8] by decide]
      simp only [List.mem_cons, List.not_mem_nil, or_false, exists_eq_or_imp, exists_eq_left, s100, s200, s400, s800,
        sl (f := 0x8) (k := 3) (by decide) (by decide)]
      simp
    · rw [sub_bit (k := 4) (by decide) (by decide), kq_encode_bit e d (by decide),
        show (kqMeans.filter fun x => x.2 == 0x10).map (·.1) = [0x10] by decide]
      simp only [List.mem_cons, List.not_mem_nil, or_false, exists_eq_or_imp, exists_eq_left, s100, s200, s400, s800,
        sl (f := 0x10) (k := 4) (by decide) (by decide)]
      simp
    · rw [sub_bit (k := 5) (by decide) (by decide), kq_encode_bit e d (by decide),
        show (kqMeans.filter fun x => x.2 == 0x20).map (·.1) = [0x800, 0x20] by decide]
      simp only [List.mem_cons, List.not_mem_nil, or_false, exists_eq_or_imp, exists_eq_left, s100, s200, s400, s800,
        sl (f := 0x20) (k := 5) (by decide) (by decide)]
      simp [or_comm]
    · rw [sub_bit (k := 6) (by decide) (by decide), kq_encode_bit e d (by decide),
        show (kqMeans.filter fun x => x.2 == 0x40).map (·.1) = [0x40] by decide]
      simp only [List.mem_cons, List.not_mem_nil, or_false, exists_eq_or_imp, exists_eq_left, s100, s200, s400, s800,
        sl (f := 0x40) (k := 6) (by decide) (by decide)]
      simp

/-- **C40, mask on FEN.**  For an event set of Create, Remove, Write, Rename and native flags the native mask has flags
that may be asked for only, and exactly those that mean a requested event, and FILE_MODIFIED for a directory whose new
entries are wanted. -/
theorem C40_mask_fen (e : Event) (he : e ⊑ 0x70100f77) (d : Bool) :
    fen.encode e d ⊑ 0x10100007 ∧
    ∀ f ∈ fenAsked, f ⊑ fen.encode e d ↔ (∃ E, (E, f) ∈ fenMeans ∧ E ⊑ e) ∨ (f = 0x2 ∧ d = true ∧ 0x100 ⊑ e) := by
  constructor
  · intro j hj
    by_cases h32 : j < 32
    · rw [fen_encode_bit e d h32] at hj
      have hl : ∀ j < 32, (0x70100f77 : Event).getLsbD j = (j < 3 || j == 4 || j == 5 || j == 6 || j == 8 || j == 9 || j == 10 ||
        j == 11 || j == 20 || j == 28 || j == 29 || j == 30) := by decide
      have hl2 : ∀ j < 32, (0x10100007 : Event).getLsbD j = (decide (j < 3) || j == 20 || j == 28) := by decide
      rw [hl2 j h32]
      have he' := he j
      rw [hl j h32] at he'
      simp only [Bool.or_eq_true, Bool.and_eq_true, Bool.not_eq_true', beq_iff_eq, decide_eq_true_eq, Bool.or_eq_false_iff,
        beq_eq_false_iff_ne] at hj he' ⊢
      obtain ⟨h0, h⟩ := hj
      rcases h0 with ⟨h1, h2⟩ | h1
      · have := he' h1
        omega
      · omega
    · rw [BitVec.getLsbD_of_ge _ _ (by omega)] at hj; cases hj
  · have s100 : (0x100 : Event) ⊑ e ↔ e.getLsbD 8 = true := sub_bit (by decide) (by decide)
    have s400 : (0x400 : Event) ⊑ e ↔ e.getLsbD 10 = true := sub_bit (by decide) (by decide)
    have sl : ∀ {f : Event} {k : Nat}, k < 32 → f = BitVec.twoPow 32 k → (f ⊑ e ↔ e.getLsbD k = true) := fun hk hf =>
      sub_bit hk hf
    intro f hf
    rw [means_of fenMeans f e]
    simp only [fenAsked, List.mem_cons, List.not_mem_nil, or_false] at hf
    rcases hf with rfl | rfl | rfl | rfl | rfl
    · rw [sub_bit (k := 0) (by decide) (by decide), fen_encode_bit e d (by decide),
        show (fenMeans.filter fun x => x.2 == 0x1).map (·.1) = [0x1] by decide]
      simp only [List.mem_cons, List.not_mem_nil, or_false, exists_eq_or_imp, exists_eq_left, s100, s400,
        sl (f := 0x1) (k := 0) (by decide) (by decide)]
      simp
    · rw [sub_bit (k := 1) (by decide) (by decide), fen_encode_bit e d (by decide),
        show (fenMeans.filter fun x => x.2 == 0x2).map (·.1) = [0x400, 0x2] by decide]
      simp only [List.mem_cons, List.not_mem_nil, or_false, exists_eq_or_imp, exists_eq_left, s100, s400,
        sl (f := 0x2) (k := 1) (by decide) (by decide)]
      generalize e.getLsbD 8 = b8; generalize e.getLsbD 10 = b10; generalize e.getLsbD 1 = b1
      clear s100 s400 sl he
      revert b8 b10 b1 d; decide
    · rw [sub_bit (k := 2) (by decide) (by decide), fen_encode_bit e d (by decide),
        show (fenMeans.filter fun x => x.2 == 0x4).map (·.1) = [0x4] by decide]
      simp only [List.mem_cons, List.not_mem_nil, or_false, exists_eq_or_imp, exists_eq_left, s100, s400,
        sl (f := 0x4) (k := 2) (by decide) (by decide)]
      simp
    · rw [sub_bit (k := 20) (by decide) (by decide), fen_encode_bit e d (by decide),
        show (fenMeans.filter fun x => x.2 == 0x100000).map (·.1) = [0x100000] by decide]
      simp only [List.mem_cons, List.not_mem_nil, or_false, exists_eq_or_imp, exists_eq_left, s100, s400,
        sl (f := 0x100000) (k := 20) (by decide) (by decide)]
      simp
    · rw [sub_bit (k := 28) (by decide) (by decide), fen_encode_bit e d (by decide),
        show (fenMeans.filter fun x => x.2 == 0x10000000).map (·.1) = [0x10000000] by decide]
      simp only [List.mem_cons, List.not_mem_nil, or_false, exists_eq_or_imp, exists_eq_left, s100, s400,
        sl (f := 0x10000000) (k := 28) (by decide) (by decide)]
      simp

/-! ### Events of a notification -/

theorem moved_events (N : Native) (E : Env) (p : Path) (w : W) (e : Event) : ∀ (l : List Path) (s : St) (ev : Ev),
    ev ∈ (moved N E p w e s l).2 →
      ev.path ∈ l ∧ below p ev.path = true ∧ ev.event = w.all &&& e &^ N.P.write &^ N.nWrite ∧
        w.all &&& (N.nRename ||| N.P.rename) ≠ 0
  | [], s, ev, h => by simp [moved] at h
  | q :: l, s, ev, h => by
    rw [moved] at h
    split at h
    · rename_i hb
      simp only at h
      rcases List.mem_append.1 h with h | h
      · split at h
        · rename_i hw
          have : ev = _ := List.mem_singleton.1 h
          subst this
          exact ⟨List.mem_cons_self, hb, rfl, hw⟩
        · cases h
      · obtain ⟨h1, h2⟩ := moved_events N E p w e l _ ev h
        exact ⟨List.mem_cons_of_mem _ h1, h2⟩
    · obtain ⟨h1, h2⟩ := moved_events N E p w e l _ ev h
      exact ⟨List.mem_cons_of_mem _ h1, h2⟩

/-- The callback of `dir` never stops the walk. -/
theorem scanKid_ok (N : Native) (E : Env) (p : Path) (w : W) (n : St × List Ev) (x : Comp × Bool) :
    (scanKid N E p w n x).2 = .ok := by
  unfold scanKid
  simp only
  split <;> rfl

/-- The walk of `dir` as a fold. -/
theorem scan_fold (N : Native) (E : Env) (p : Path) (w : W) : ∀ (l : List (Comp × Bool)) (n : St × List Ev),
    walkLoop (scanKid N E p w) n l = (l.foldl (fun n x => (scanKid N E p w n x).1) n, .ok)
  | [], n => rfl
  | x :: l, n => by
    rw [walkLoop]
    have h := scanKid_ok N E p w n x
    split
    · rename_i s' h'
      rw [scan_fold N E p w l s', List.foldl_cons, h']
    · rename_i s' r hr h'
      rw [h'] at h
      exact absurd h hr

/-- Events of one entry of a scan. -/
def scanEvents (N : Native) (E : Env) (p : Path) (w : W) (s : St) (x : Comp × Bool) : List Ev :=
  match (singlewatch N E s (join p x.1) w.eDir .ndir x.2).2 with
  | .err true => if w.eDir &&& N.P.remove ≠ 0 then [⟨join p x.1, N.P.remove, x.2⟩] else []
  | .ok => if w.eDir &&& N.P.create ≠ 0 then [⟨join p x.1, N.P.create, x.2⟩] else []
  | _ => []

theorem scanKid_eq (N : Native) (E : Env) (p : Path) (w : W) (n : St × List Ev) (x : Comp × Bool) :
    (scanKid N E p w n x).1 =
      ((singlewatch N E n.1 (join p x.1) w.eDir .ndir x.2).1, n.2 ++ scanEvents N E p w n.1 x) := by
  unfold scanKid scanEvents
  simp only
  rcases h : singlewatch N E n.1 (join p x.1) w.eDir .ndir x.2 with ⟨s, r⟩
  cases r with
  | ok => rfl
  | already => simp
  | notWatched => simp
  | err b => cases b <;> simp

theorem scan_events (N : Native) (E : Env) (p : Path) (w : W) : ∀ (l : List (Comp × Bool)) (n : St × List Ev) (ev : Ev),
    ev ∈ (l.foldl (fun n x => (scanKid N E p w n x).1) n).2 →
      ev ∈ n.2 ∨ ∃ x ∈ l, ev.path = join p x.1 ∧
        ((ev.event = N.P.remove ∧ w.eDir &&& N.P.remove ≠ 0) ∨ (ev.event = N.P.create ∧ w.eDir &&& N.P.create ≠ 0))
  | [], n, ev, h => .inl h
  | x :: l, n, ev, h => by
    rw [List.foldl_cons] at h
    rcases scan_events N E p w l _ ev h with h | ⟨y, hy, h⟩
    · rw [scanKid_eq] at h
      rcases List.mem_append.1 h with h | h
      · exact .inl h
      · right
        refine ⟨x, List.mem_cons_self, ?_⟩
        unfold scanEvents at h
        split at h
        · split at h
          · rename_i hr
            have : ev = _ := List.mem_singleton.1 h
            subst this
            exact ⟨rfl, .inl ⟨rfl, hr⟩⟩
          · cases h
        · split at h
          · rename_i hr
            have : ev = _ := List.mem_singleton.1 h
            subst this
            exact ⟨rfl, .inr ⟨rfl, hr⟩⟩
          · cases h
        · cases h
    · exact .inr ⟨y, List.mem_cons_of_mem _ hy, h⟩

/-- All events of a notification. -/
theorem process_events (N : Native) (E : Env) (s : St) (p : Path) (ge : Event) {w : W} (hw : s.lkp.get? p = some w) (ev : Ev)
    (h : ev ∈ (process N E s p ge).2) :
    (w.isDir = false ∧ ev.path = p ∧ ev.event = decode N.nat2not ge w.all ∧ ev.event ≠ 0) ∨
    (w.isDir = true ∧ ge &&& (N.nRename ||| N.nRemove) ≠ 0 ∧ ev.path = p ∧
      ev.event = decode N.nat2not ge w.all &^ N.P.write &^ N.nWrite) ∨
    (w.isDir = true ∧ ge &&& N.nRename ≠ 0 ∧ below p ev.path = true ∧
      ev.event = w.all &&& decode N.nat2not ge w.all &^ N.P.write &^ N.nWrite ∧ w.all &&& (N.nRename ||| N.P.rename) ≠ 0) ∨
    (w.isDir = true ∧ ge &&& (N.nRename ||| N.nRemove) = 0 ∧ ge &&& N.nWrite ≠ 0 ∧ (∃ c, ev.path = join p c) ∧
      ((ev.event = N.P.remove ∧ w.eDir &&& N.P.remove ≠ 0) ∨ (ev.event = N.P.create ∧ w.eDir &&& N.P.create ≠ 0))) := by
  unfold process at h
  rw [hw] at h
  simp only at h
  split at h
  · cases h
  · rename_i hz
    have h' : ev ∈ (if w.isDir then dir N E (renew N E s p w ge) p w (decode N.nat2not ge w.all) ge else
        (renew N E s p w ge, [⟨p, decode N.nat2not ge w.all, w.isDir⟩])).2 := by
      by_cases hc : ge &&& (N.nRemove ||| N.nRename) ≠ 0
      · rw [if_pos hc] at h; exact h
      · rw [if_neg hc] at h; exact h
    clear h
    revert h'
    generalize renew N E s p w ge = s'
    intro h
    cases hd : w.isDir with
    | false =>
      rw [hd, if_neg (by simp)] at h
      have : ev = _ := List.mem_singleton.1 h
      subst this
      exact .inl ⟨rfl, rfl, rfl, fun h0 => hz ⟨h0, .inl hd⟩⟩
    | true =>
      rw [hd, if_pos rfl] at h
      right
      unfold dir at h
      split at h
      · rename_i hr
        simp only at h
        rcases List.mem_cons.1 h with h | h
        · left
          subst h
          exact ⟨rfl, hr, rfl, rfl⟩
        · right; left
          split at h
          · rename_i hr2
            obtain ⟨_, h2, h3, h4⟩ := moved_events N E p w _ _ _ ev h
            exact ⟨rfl, hr2, h2, h3, h4⟩
          · cases h
      · rename_i hr
        right; right
        have hr : ge &&& (N.nRename ||| N.nRemove) = 0 := Decidable.byContradiction hr
        split at h
        · rename_i hwr
          unfold walk at h
          split at h
          · cases h
          · rw [scan_fold] at h
            rcases scan_events N E p w _ _ ev h with h | ⟨x, _, h1, h2⟩
            · cases h
            · exact ⟨rfl, hr, hwr, ⟨x.1, h1⟩, h2⟩
        · cases h

theorem P_one (N : Native) (hN : N = kqueue ∨ N = fen) : One N.P.create ∧ One N.P.remove := by
  rcases hN with rfl | rfl <;> exact ⟨one_of (by decide), one_of (by decide)⟩

/-- **C40, reports (partial).**  Every event reported for a native notification is contained in what was requested for
the entry of the notification, and belongs to its path or, if it is a directory, to a path below it.  The full claim, that
it is contained in what was requested for its own path or the directory of that path, is false: `C40_refuted`. -/
theorem C40_reports_partial (N : Native) (hN : N = kqueue ∨ N = fen) (E : Env) (s : St) (p : Path) (ge : Event) (ev : Ev)
    (h : ev ∈ (process N E s p ge).2) :
    ∃ w, s.lkp.get? p = some w ∧ ev.event ⊑ w.all ∧
      (ev.path = p ∨ (w.isDir = true ∧ (below p ev.path = true ∨ ∃ c, ev.path = join p c))) := by
  cases hw : s.lkp.get? p with
  | none => unfold process at h; rw [hw] at h; cases h
  | some w =>
    refine ⟨w, rfl, ?_⟩
    have hdec := decode_sub N hN ge w.all
    rcases process_events N E s p ge hw ev h with h | h | h | h
    · exact ⟨by rw [h.2.2.1]; exact hdec, .inl h.2.1⟩
    · refine ⟨?_, .inl h.2.2.1⟩
      rw [h.2.2.2]
      intro i hi
      rw [bit_andNot, bit_andNot, Bool.and_eq_true, Bool.and_eq_true] at hi
      exact hdec i hi.1.1
    · refine ⟨?_, .inr ⟨h.1, .inl h.2.2.1⟩⟩
      rw [h.2.2.2.1]
      intro i hi
      rw [bit_andNot, bit_andNot, BitVec.getLsbD_and, Bool.and_eq_true, Bool.and_eq_true, Bool.and_eq_true] at hi
      exact hi.1.1.1
    · refine ⟨?_, .inr ⟨h.1, .inr h.2.2.2.1⟩⟩
      have hall : w.eDir ⊑ w.all := sub_or_left _ _
      rcases h.2.2.2.2 with h | h
      · rw [h.1]; exact ((one_and (P_one N hN).2 _).1 h.2).trans hall
      · rw [h.1]; exact ((one_and (P_one N hN).1 _).1 h.2).trans hall

end Trg
end Verif
