/-
Lemmas about the watchpoint operations of the non-recursive tree.
-/
import Verif.NonRec
import Verif.NodeLemmas
import Mathlib.Tactic.Set
import Mathlib.Tactic.ByContra

namespace Verif
namespace NonRec
open GoMap

/-- Invariant of a watchpoint in the non-recursive tree. -/
structure NR (P : Platform) (w : WP) : Prop where
  inv : w.Inv P
  /-- The internal channel's set has the internal bits and `Create`. -/
  recv : ∀ v, w.get? .recCh = some v → (P.create ||| P.internal) ⊑ v
  /-- A user's set is not empty and does not have the `omit` bit. -/
  user : ∀ c v, w.get? (.user c) = some v → v &^ P.internal ≠ 0 ∧ v &&& P.omitted = 0

variable {P : Platform} {w : WP}

theorem nr_nil (P : Platform) : NR P [] := ⟨WP.inv_nil P, by simp, by simp⟩

theorem val_of_some {w : WP} {k : Key} {v : Event} (h : w.get? k = some v) : w.val k = v := by
  simp [WP.val, h]

theorem NR.add_user (h : NR P w) {c : Nat} {e : Event} (he : e &^ P.internal ≠ 0)
    (ho : e &&& P.omitted = 0) : NR P (w.add P (.user c) e).1 where
  inv := h.inv.add (by simp) e
  recv := by
    intro v hv
    rw [WP.get?_add P w (by simp)] at hv
    simp only [reduceCtorEq, if_false] at hv
    exact h.recv v hv
  user := by
    intro d v hv
    rw [WP.get?_add P w (by simp)] at hv
    simp only [reduceCtorEq, if_false] at hv
    split at hv
    · next hd =>
      simp only [Option.some.injEq] at hv
      subst hv
      cases hg : w.get? (.user c) with
      | none => simp only [WP.val_eq_zero_of_none hg]; constructor <;> ebits
      | some u =>
        have := h.user c u hg
        rw [val_of_some hg]
        constructor <;> ebits
    · exact h.user d v hv

theorem NR.add_rec (h : NR P w) {e : Event} (he : (P.create ||| P.internal) ⊑ e) :
    NR P (w.add P .recCh e).1 where
  inv := h.inv.add (by simp) e
  recv := by
    intro v hv
    rw [WP.get?_add P w (by simp)] at hv
    simp only [reduceCtorEq, if_false, if_true, Option.some.injEq] at hv
    subst hv; ebits
  user := by
    intro d v hv
    rw [WP.get?_add P w (by simp)] at hv
    simp only [reduceCtorEq, if_false] at hv
    exact h.user d v hv

theorem val_add_nil (P : Platform) (w : WP) {k : Key} (hk : k ≠ .nil) (e : Event) :
    (w.add P k e).1.val .nil = (w.val .nil ||| e) &^ P.omitted := by
  simp [WP.val, WP.get?_add P w hk]

theorem total_add (P : Platform) (w : WP) {k : Key} (hk : k ≠ .nil) (e : Event) :
    (w.add P k e).1.total P = w.total P ||| (e &^ P.internal) := by
  rw [WP.total, WP.total, val_add_nil P w hk]; ebits

/-- Normalised pair of totals: what a difference should be. -/
def diffOf (a b : Event) : Diff := if a = b then Diff.none else (a, b)

theorem mkDiff_eq (P : Platform) (a b : Event) :
    WP.mkDiff P a b = diffOf (a &^ P.internal) (b &^ P.internal) := rfl

theorem add_diffOf (P : Platform) (w : WP) {k : Key} (hk : k ≠ .nil) (e : Event) :
    (w.add P k e).2 = diffOf (w.total P) ((w.add P k e).1.total P) := by
  rw [WP.add_diff' P w hk]; rfl

theorem del_diffOf (P : Platform) (w : WP) {k : Key} (hk : k ≠ .nil) (e : Event) :
    (w.del P k e).2 = diffOf (w.total P) ((w.del P k e).1.total P) := by
  rw [WP.del_diff P w hk]; rfl

theorem diffOf_none {a b : Event} : diffOf a b = Diff.none ↔ a = b := by
  simp only [diffOf, Diff.none]
  split
  · next h => simp [h]
  · next h =>
    simp only [Prod.mk.injEq, h, iff_false, not_and]
    rintro rfl rfl; exact h rfl

theorem diffOf_ne {a b : Event} (h : a ≠ b) : diffOf a b = (a, b) := by simp [diffOf, h]

theorem diffOf_andNot (a b : Event) : (diffOf a b).1 &^ (diffOf a b).2 = a &^ b := by
  simp only [diffOf, Diff.none]
  split
  · next h => subst h; ebits
  · rfl

theorem total_internal (P : Platform) (w : WP) : w.total P &&& P.internal = 0 := by
  rw [WP.total]; ebits

/-- Bits of the total in terms of the entries. -/
theorem total_bit (h : w.Inv P) (i : Nat) :
    BitVec.getLsbD (w.total P) i = true ↔ BitVec.getLsbD P.internal i = false ∧
      ∃ k v, k ≠ Key.nil ∧ w.get? k = some v ∧ BitVec.getLsbD v i = true := by
  rw [WP.total, Event.bit_andNot, Bool.and_eq_true, h.total_bit i]
  simp only [WP.bit, Bool.not_eq_true', Platform.internal, BitVec.getLsbD_or, Bool.or_eq_false_iff]
  constructor
  · rintro ⟨⟨h1, h2⟩, h3⟩; exact ⟨h3, h2⟩
  · rintro ⟨h1, h2⟩; exact ⟨⟨h1.2, h2⟩, h1⟩

/-- Each entry is in the total. -/
theorem sub_total (h : w.Inv P) {k : Key} (hk : k ≠ .nil) {v : Event} (hv : w.get? k = some v) :
    (v &^ P.internal) ⊑ w.total P := by
  intro i hi
  rw [Event.bit_andNot, Bool.and_eq_true, Bool.not_eq_true'] at hi
  exact (total_bit h i).2 ⟨hi.2, k, v, hk, hv, hi.1⟩

theorem val_sub_total (h : w.Inv P) {k : Key} (hk : k ≠ .nil) :
    (w.val k &^ P.internal) ⊑ w.total P := by
  cases hv : w.get? k with
  | none => rw [WP.val_eq_zero_of_none hv]; ebits
  | some v => rw [val_of_some hv]; exact sub_total h hk hv

/-- A watchpoint is empty iff its total is. -/
theorem NR.total_eq_zero (hP : P.Facts) (h : NR P w) : w.total P = 0 ↔ w = [] := by
  constructor
  · intro ht
    rw [h.inv.eq_nil_iff, h.inv.nil_none]
    intro k hk
    cases hv : w.get? k with
    | none => rfl
    | some v =>
      exfalso
      have hs := sub_total h.inv hk hv
      rw [ht] at hs
      cases k with
      | nil => exact hk rfl
      | recCh =>
        have := h.recv v hv
        have := hP.create_ne
        have := hP.create_rec
        have := hP.create_omit
        ebits
      | user c => exact (h.user c v hv).1 (Event.sub_zero hs)
  · rintro rfl; simp [WP.total]

/-- Removing a channel completely. -/
theorem NR.del_all (h : NR P w) (c : Nat) : NR P (w.del P (.user c) allEvents).1 where
  inv := WP.inv_del h.inv.nodup (by simp) _
  recv := by
    intro v hv
    rw [WP.get?_del_ne_nil P w (by simp) _ (by simp)] at hv
    simp only [reduceCtorEq, if_false] at hv
    exact h.recv v hv
  user := by
    intro d v hv
    rw [WP.get?_del_ne_nil P w (by simp) _ (by simp)] at hv
    have h0 : w.val (.user c) &^ allEvents = 0 := by simp [allEvents]
    simp only [h0, if_true] at hv
    split at hv
    · simp at hv
    · exact h.user d v hv

/-- The rollback of a failed `watch` restores the total. -/
theorem NR.rollback (hP : P.Facts) (h : NR P w) {c : Nat} {e : Event} (he : e &^ P.internal ≠ 0)
    (hi : e &&& P.internal = 0) {a b : Event} (ha : a = w.total P)
    (hb : b = (w.add P (.user c) e).1.total P) :
    NR P ((w.add P (.user c) e).1.del P (.user c) (Diff.event (a, b))).1 ∧
    ((w.add P (.user c) e).1.del P (.user c) (Diff.event (a, b))).1.total P = w.total P := by
  subst ha hb
  rw [total_add P w (by simp)]
  set w1 := (w.add P (.user c) e).1 with hw1
  have h1 : NR P w1 := h.add_user he (by have := hP.rec_omit; ebits)
  have hg1 : ∀ k, k ≠ Key.nil → w1.get? k = if k = .user c then some (w.val (.user c) ||| e) else w.get? k := by
    intro k hk; rw [hw1, WP.get?_add P w (by simp)]; simp [hk]
  have hv1 : w1.val (.user c) = w.val (.user c) ||| e := by
    rw [WP.val, hg1 _ (by simp)]; simp
  set ev := Diff.event (w.total P, w.total P ||| (e &^ P.internal)) with hev
  have hev' : ev = e &^ w.total P := by
    rw [hev, Diff.event]; simp only; ebits
  have hinv : WP.Inv P (w1.del P (.user c) ev).1 := WP.inv_del h1.inv.nodup (by simp) _
  have hg2 : ∀ k, k ≠ Key.nil → (w1.del P (.user c) ev).1.get? k =
      if k = .user c then (if (w.val (.user c) ||| e) &^ ev = 0 then none
        else some ((w.val (.user c) ||| e) &^ ev)) else w.get? k := by
    intro k hk
    rw [WP.get?_del_ne_nil P w1 (by simp) _ hk, hv1]
    split
    · rfl
    · next hkc => rw [hg1 k hk]; simp [hkc]
  have hval := val_sub_total h.inv (k := .user c) (by simp)
  have huser : w.val (.user c) &&& P.omitted = 0 := by
    cases hg : w.get? (.user c) with
    | none => rw [WP.val_eq_zero_of_none hg]; ebits
    | some u => rw [val_of_some hg]; exact (h.user c u hg).2
  have hne : ∀ u, w.get? (.user c) = some u → u &^ P.internal ≠ 0 := fun u hu => (h.user c u hu).1
  refine ⟨⟨hinv, ?_, ?_⟩, ?_⟩
  · intro v hv
    rw [hg2 _ (by simp)] at hv
    simp only [reduceCtorEq, if_false] at hv
    exact h.recv v hv
  · intro d v hv
    rw [hg2 _ (by simp)] at hv
    split at hv
    · next hd =>
      split at hv
      · simp at hv
      · next hz =>
        simp only [Option.some.injEq] at hv
        subst hv
        rw [hev']
        rw [hev'] at hz
        constructor
        · cases hg : w.get? (.user c) with
          | none =>
            rw [WP.val_eq_zero_of_none hg] at hz ⊢
            clear hval huser hne hg2 hg1 hv1 hev hev'
            ebits
          | some u =>
            have h2 := hne u hg
            rw [val_of_some hg] at hval hz ⊢
            clear huser hne hg2 hg1 hv1 hev hev'
            ebits
        · clear hne hg2 hg1 hv1 hev hev'
          ebits
    · exact h.user d v hv
  · rw [Event.bext]
    intro i
    rw [Bool.eq_iff_iff, total_bit hinv, total_bit h.inv]
    refine and_congr_right fun hint => ?_
    constructor
    · rintro ⟨k, v, hk, hv, hb⟩
      rw [hg2 k hk] at hv
      split at hv
      · split at hv
        · simp at hv
        · simp only [Option.some.injEq] at hv
          subst hv
          rw [hev'] at hb
          have : BitVec.getLsbD (w.total P) i = true := by
            have h3 := hval i
            clear hg2 hg1 hv1 hev hev' hne
            ebits
          exact ((total_bit h.inv i).1 this).2
      · exact ⟨k, v, hk, hv, hb⟩
    · rintro ⟨k, v, hk, hv, hb⟩
      by_cases hkc : k = .user c
      · subst hkc
        have hvv := val_of_some hv
        have hT : BitVec.getLsbD (w.total P) i = true := (total_bit h.inv i).2 ⟨hint, _, v, hk, hv, hb⟩
        have hbit : BitVec.getLsbD ((w.val (.user c) ||| e) &^ ev) i = true := by
          rw [hev', Event.bit_andNot, Event.bit_andNot, BitVec.getLsbD_or, hvv, hb, hT]; simp
        refine ⟨.user c, (w.val (.user c) ||| e) &^ ev, by simp, ?_, hbit⟩
        rw [hg2 _ (by simp)]
        simp only [if_true]
        rw [if_neg]
        intro h0; rw [h0] at hbit; simp at hbit
      · exact ⟨k, v, hk, by rw [hg2 k hk]; simp [hkc, hv], hb⟩

/-- A valid minimum for `watchDelMin`: none or a proper internal set. -/
def MinOK (P : Platform) (min : Event) : Prop := min = 0 ∨ (P.create ||| P.internal) ⊑ min

theorem NR.minOK (h : NR P w) : MinOK P (w.val .recCh) := by
  cases hg : w.get? .recCh with
  | none => left; exact WP.val_eq_zero_of_none hg
  | some v => right; rw [val_of_some hg]; exact h.recv v hg

/-- Everything about `watchDelMin` for a whole channel. -/
theorem watchDelMin_spec (hP : P.Facts) (h : NR P w) {min : Event} (hm : MinOK P min) (c : Nat) :
    NR P (watchDelMin P min w (.user c) allEvents).1 ∧
    (∀ d, (watchDelMin P min w (.user c) allEvents).1.get? (.user d) =
      if d = c then none else w.get? (.user d)) ∧
    (watchDelMin P min w (.user c) allEvents).2 =
      diffOf (w.total P) ((watchDelMin P min w (.user c) allEvents).1.total P) ∧
    (∀ i, BitVec.getLsbD ((watchDelMin P min w (.user c) allEvents).1.val .recCh) i = true ↔
      w.get? .recCh ≠ none ∧ ((watchDelMin P min w (.user c) allEvents).1.get? .recCh ≠ none) ∧
       (BitVec.getLsbD min i = true ∨ BitVec.getLsbD (P.create ||| P.internal) i = true ∨
        (BitVec.getLsbD (w.val .recCh) i = true ∧
          ((∃ d v, d ≠ c ∧ w.get? (.user d) = some v ∧ BitVec.getLsbD v i = true))))) ∧
    ((watchDelMin P min w (.user c) allEvents).1.get? .recCh = none ↔
      w.get? .recCh = none ∨ (min = 0 ∧ ∀ d v i, d ≠ c → w.get? (.user d) = some v →
        BitVec.getLsbD v i = true → BitVec.getLsbD P.internal i = true ∨ BitVec.getLsbD (w.val .recCh) i = false)) := by
  have hall : ∀ v : Event, v &^ allEvents = 0 := by simp [allEvents]
  simp only [watchDelMin]
  cases hr : w.get? .recCh with
  | none =>
    simp only
    refine ⟨h.del_all c, ?_, del_diffOf P w (by simp) _, ?_, ?_⟩
    · intro d
      rw [WP.get?_del_ne_nil P w (by simp) _ (by simp)]
      simp [hall]
    · have : (w.del P (.user c) allEvents).1.get? .recCh = none := by
        rw [WP.get?_del_ne_nil P w (by simp) _ (by simp)]; simpa using hr
      rw [WP.val_eq_zero_of_none this]
      simp
    · simp [WP.get?_del_ne_nil P w (by simp : Key.user c ≠ .nil) _ (by simp : Key.recCh ≠ .nil), hr]
  | some old =>
    simp only
    set w0 : WP := w.set .recCh min with hw0
    set r := WP.del P w0 (.user c) allEvents with hrdef
    have hg : ∀ k, k ≠ Key.nil → r.1.get? k =
        if k = .user c then none else if k = .recCh then some min else w.get? k := by
      intro k hk
      rw [hrdef, WP.get?_del_ne_nil P w0 (by simp) _ hk]
      simp only [hall, if_true, hw0, get?_set]
      grind
    have hinv : WP.Inv P r.1 := WP.inv_del (h.inv.nodup.set _ _) (by simp) _
    have hT0 : w0.total P = w.total P := by
      simp only [WP.total, hw0, WP.val_set]; simp
    have hd : r.2 = diffOf (w.total P) (r.1.total P) := by
      rw [hrdef, del_diffOf P w0 (by simp), hT0]
    have hoc := h.recv old hr
    have hos := sub_total h.inv (by simp) hr
    have hcr := hP.create_rec
    have hco := hP.create_omit
    have hcn := hP.create_ne
    have hT0i := total_internal P w
    have hT1i := total_internal P r.1
    have hvalr : w.val .recCh = old := val_of_some hr
    -- minimum is in the new total
    have hmin : (min &^ P.internal) ⊑ r.1.total P := sub_total hinv (k := .recCh) (by simp) (by rw [hg _ (by simp)]; simp)
    -- other users are in the new total
    have huser : ∀ d v, d ≠ c → w.get? (.user d) = some v → (v &^ P.internal) ⊑ r.1.total P := by
      intro d v hd hv
      exact sub_total hinv (k := .user d) (by simp) (by rw [hg _ (by simp)]; simp [hd, hv])
    have hT1 : ∀ i, BitVec.getLsbD (r.1.total P) i = true → BitVec.getLsbD P.internal i = false ∧
        (BitVec.getLsbD min i = true ∨ ∃ d v, d ≠ c ∧ w.get? (.user d) = some v ∧ BitVec.getLsbD v i = true) := by
      intro i hi
      obtain ⟨h1, k, v, hk, hv, hb⟩ := (total_bit hinv i).1 hi
      refine ⟨h1, ?_⟩
      rw [hg k hk] at hv
      cases k with
      | nil => exact absurd rfl hk
      | recCh => simp at hv; subst hv; exact .inl hb
      | user d =>
        simp only [Key.user.injEq, reduceCtorEq, if_false] at hv
        split at hv
        · simp at hv
        · next hdc => exact .inr ⟨d, v, hdc, hv, hb⟩
    rw [hd, diffOf_andNot]
    by_cases hcase : old &^ (w.total P &^ r.1.total P) ||| P.internal = P.internal
    · -- the internal entry goes
      rw [if_pos hcase]
      have hmin0 : min = 0 := by
        rcases hm with hm | hm
        · exact hm
        · exfalso
          clear hg hd hrdef hT1 huser hw0
          ebits
      subst hmin0
      set w3 : WP := GoMap.del r.1 .recCh with hw3
      have hg3 : ∀ k, w3.get? k = if k = .recCh then none else r.1.get? k := by
        intro k; rw [hw3, get?_del]; simp only [eq_comm]
      have hv3 : w3.val .nil = r.1.val .nil := by simp [WP.val, hg3]
      have hn3 : w3.Nodup := hinv.nodup.del _
      have hrn : r.1.get? .nil ≠ none := by
        intro hh
        have := hinv.nil_none.1 hh .recCh (by simp)
        rw [hg _ (by simp)] at this; simp at this
      -- total of the final map
      have hbits : ∀ i, WP.bit (w3.val .nil) i = true ↔ WP.bit P.omitted i = false ∧
          ∃ k v, k ≠ Key.nil ∧ w3.get? k = some v ∧ WP.bit v i = true := by
        intro i
        rw [hv3, hinv.total_bit i]
        refine and_congr_right fun _ => ?_
        constructor
        · rintro ⟨k, v, hk, hv, hb⟩
          refine ⟨k, v, hk, ?_, hb⟩
          rw [hg3]
          split
          · next hk' =>
            subst hk'
            rw [hg _ (by simp)] at hv
            simp only [reduceCtorEq, if_false, if_true, Option.some.injEq] at hv
            subst hv; simp at hb
          · exact hv
        · rintro ⟨k, v, hk, hv, hb⟩
          rw [hg3] at hv
          split at hv
          · simp at hv
          · exact ⟨k, v, hk, hv, hb⟩
      have key : ∃ w4 : WP, (if w3.get? .nil = some 0 ∧ w3.length = 1 then GoMap.del w3 .nil else w3) = w4 ∧
          WP.Inv P w4 ∧ (∀ k, k ≠ Key.nil → w4.get? k = w3.get? k) ∧ w4.total P = r.1.total P := by
        refine ⟨_, rfl, ?_⟩
        by_cases hc4 : w3.get? .nil = some 0 ∧ w3.length = 1
        · rw [if_pos hc4]
          have hnone : ∀ k, k ≠ Key.nil → w3.get? k = none := by
            intro k hk
            cases hv : w3.get? k with
            | none => rfl
            | some v =>
              have := two_le_length ((mem_keys_iff _ _).2 (by rw [hc4.1]; simp)) ((mem_keys_iff _ _).2 (by rw [hv]; simp)) (Ne.symm hk)
              omega
          have hall' : ∀ k, (GoMap.del w3 .nil).get? k = none := by
            intro k
            rw [get?_del]
            split
            · rfl
            · next hk => exact hnone k (Ne.symm hk)
          have he : GoMap.del w3 .nil = [] := (eq_nil_iff_get? _).2 hall'
          rw [he]
          refine ⟨WP.inv_nil P, fun k hk => by rw [hnone k hk]; simp, ?_⟩
          rw [WP.total, WP.total, ← hv3, val_of_some hc4.1]
          simp
        · rw [if_neg hc4]
          refine ⟨⟨hn3, ?_, hbits⟩, fun _ _ => rfl, by rw [WP.total, WP.total, hv3]⟩
          constructor
          · intro hh; exfalso; apply hrn; rw [hg3] at hh; simpa using hh
          · intro hh
            exfalso
            have hz : w3.val .nil = 0 := by
              apply Event.zero_of_getLsbD
              intro i
              by_contra hb
              have hb' : WP.bit (w3.val .nil) i = true := by simpa using hb
              obtain ⟨_, k, v, hk, hv, _⟩ := (hbits i).1 hb'
              rw [hh k hk] at hv; simp at hv
            apply hc4
            have hsome : w3.get? .nil = some 0 := by
              cases hv : w3.get? .nil with
              | none => exfalso; apply hrn; rw [hg3] at hv; simpa using hv
              | some v => rw [val_of_some hv] at hz; rw [hz]
            refine ⟨hsome, ?_⟩
            have hle : w3.length ≤ 1 := by
              apply length_le_one_of_keys hn3 (k₀ := Key.nil)
              intro k hk
              by_contra hne
              rw [mem_keys_iff, hh k hne] at hk
              simp at hk
            have : w3.length ≠ 0 := by
              intro h0
              have : w3 = [] := List.length_eq_zero_iff.1 h0
              rw [this] at hsome; simp at hsome
            omega
      obtain ⟨w4, hw4, hinv4, hg4, htot4⟩ := key
      simp only [hw4]
      have hrec4 : w4.get? .recCh = none := by rw [hg4 _ (by simp), hg3]; simp
      have hu4 : ∀ d, w4.get? (.user d) = if d = c then none else w.get? (.user d) := by
        intro d
        rw [hg4 _ (by simp), hg3, hg _ (by simp)]
        simp
      refine ⟨⟨hinv4, by simp [hrec4], ?_⟩, hu4, by rw [htot4], ?_, ?_⟩
      · intro d v hv
        rw [hu4] at hv
        split at hv
        · simp at hv
        · exact h.user d v hv
      · rw [WP.val_eq_zero_of_none hrec4]; simp [hrec4]
      · simp only [hrec4, true_iff]
        right
        refine ⟨trivial, ?_⟩
        intro d v i hd hv hb
        rw [hvalr]
        have h1 := huser d v hd hv i
        by_contra hcon
        simp only [not_or, Bool.not_eq_false, Bool.not_eq_true] at hcon
        have h2 := h1 (by rw [Event.bit_andNot, hb, hcon.1]; rfl)
        have h3 := congrArg (fun e => BitVec.getLsbD e i) hcase
        simp only [BitVec.getLsbD_or, Event.bit_andNot, hcon.1, hcon.2, h2] at h3
        simp at h3
    · -- the internal entry stays
      rw [if_neg hcase]
      set e' := old &^ (w.total P &^ r.1.total P) ||| P.create with he'
      have hg5 : ∀ k, k ≠ Key.nil → (r.1.add P .recCh e').1.get? k =
          if k = .recCh then some (min ||| e') else if k = .user c then none else w.get? k := by
        intro k hk
        rw [WP.get?_add P r.1 (by simp)]
        simp only [hk, if_false]
        split
        · simp only [WP.val]; rw [hg _ (by simp)]; simp
        · next hk' => rw [hg k hk]; simp [hk']
      have hint : (P.create ||| P.internal) ⊑ (min ||| e') := by
        rw [he']
        clear hg hg5 hd hrdef hT1 huser hw0
        ebits
      refine ⟨⟨hinv.add (by simp) _, ?_, ?_⟩, ?_, ?_, ?_, ?_⟩
      · intro v hv
        rw [hg5 _ (by simp)] at hv
        simp only [if_true, Option.some.injEq] at hv
        subst hv; exact hint
      · intro d v hv
        rw [hg5 _ (by simp)] at hv
        simp only [reduceCtorEq, if_false, Key.user.injEq] at hv
        split at hv
        · simp at hv
        · exact h.user d v hv
      · intro d
        rw [hg5 _ (by simp)]; simp
      · rw [total_add P r.1 (by simp)]
        have ht : r.1.total P ||| (e' &^ P.internal) = r.1.total P ||| P.create := by
          rw [he']
          clear hg hg5 hd hrdef hT1 huser hw0
          ebits
        rw [ht]
        have hc0 : P.create ⊑ w.total P := by
          clear hg hg5 hd hrdef hT1 huser hw0
          ebits
        simp only [diffOf_none]
        by_cases e1 : w.total P = r.1.total P
        · rw [if_pos e1, diffOf_none.2 e1]
          symm
          rw [diffOf_none, e1]
          rw [e1] at hc0
          exact (Event.sub_iff_or.1 hc0).symm
        · rw [if_neg e1, diffOf_ne e1]
          simp only
          by_cases e2 : r.1.total P ||| P.create = w.total P
          · rw [if_pos e2]; symm; rw [diffOf_none]; exact e2.symm
          · rw [if_neg e2, diffOf_ne (Ne.symm e2)]
      · intro i
        have : (r.1.add P .recCh e').1.val .recCh = min ||| e' := by
          simp only [WP.val, hg5 _ (by simp : Key.recCh ≠ .nil)]; simp
        rw [this, hg5 _ (by simp), hvalr]
        simp only [if_true, ne_eq, reduceCtorEq, not_false_eq_true, true_and]
        rw [BitVec.getLsbD_or, Bool.or_eq_true]
        have hosi := hos i
        rw [Event.bit_andNot] at hosi
        constructor
        · rintro (hb | hb)
          · exact .inl hb
          · rw [he', BitVec.getLsbD_or, Bool.or_eq_true, Event.bit_andNot, Event.bit_andNot] at hb
            cases hI : BitVec.getLsbD P.internal i with
            | true => right; left; rw [BitVec.getLsbD_or, hI]; simp
            | false =>
              rcases hb with hb | hb
              · simp only [Bool.and_eq_true, Bool.not_eq_true'] at hb
                have h0 := hosi (by rw [hb.1, hI]; rfl)
                have h1 : BitVec.getLsbD (r.1.total P) i = true := by
                  have := hb.2; rw [h0] at this; simpa using this
                rcases (hT1 i h1).2 with h2 | h2
                · exact .inl h2
                · exact .inr (.inr ⟨hb.1, h2⟩)
              · right; left; rw [BitVec.getLsbD_or, hb]; simp
        · rintro (hb | hb | ⟨hb, d, v, hdc, hv, hvb⟩)
          · exact .inl hb
          · have := hint i hb
            rwa [BitVec.getLsbD_or, Bool.or_eq_true] at this
          · right
            rw [he', BitVec.getLsbD_or, Bool.or_eq_true, Event.bit_andNot, Event.bit_andNot]
            left
            have h1 := huser d v hdc hv i
            rw [Event.bit_andNot, hvb] at h1
            cases hI : BitVec.getLsbD P.internal i with
            | true =>
              have : BitVec.getLsbD (w.total P) i = false := by
                have := congrArg (fun e => BitVec.getLsbD e i) hT0i
                simpa [hI] using this
              rw [hb, this]; rfl
            | false => rw [hb, h1 (by rw [hI]; rfl)]; simp
      · rw [hg5 _ (by simp)]
        simp only [if_true, reduceCtorEq, false_iff, false_or, not_and, not_forall]
        rintro rfl
        have hx : ∃ i, BitVec.getLsbD (old &^ (w.total P &^ r.1.total P)) i = true ∧
            BitVec.getLsbD P.internal i = false := by
          by_contra hno
          apply hcase
          rw [Event.bext]
          intro i
          have := not_exists.1 hno i
          rw [BitVec.getLsbD_or]
          cases h1 : BitVec.getLsbD P.internal i <;> simp_all
        obtain ⟨i, hi, hI⟩ := hx
        rw [Event.bit_andNot, Event.bit_andNot, Bool.and_eq_true, Bool.not_eq_true'] at hi
        have h0 := hos i (by rw [Event.bit_andNot, hi.1, hI]; rfl)
        have h1 : BitVec.getLsbD (r.1.total P) i = true := by
          have := hi.2; rw [h0] at this; simpa using this
        rcases (hT1 i h1).2 with h2 | ⟨d, v, hdc, hv, hvb⟩
        · simp at h2
        · refine ⟨d, v, i, hdc, hv, hvb, ?_⟩
          rw [hI, hvalr, hi.1]; simp

end NonRec
end Verif
