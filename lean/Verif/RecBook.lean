/-
The bookkeeping of the recursive tree: the inactive watchpoint of a topmost watchpoint holds exactly what
is registered below it.  How the topmost watchpoints move with each operation.
-/
import Verif.RecView

namespace Verif
namespace Rec
open GoMap NonRec

variable {P : Platform} {root root' : Node}

/-- Channel `d` has the event bit registered strictly below `q`. -/
def Below (root : Node) (q : Path) (d i : Nat) : Prop :=
  ∃ p, q <+: p ∧ p ≠ q ∧ [] ∉ p ∧ BitVec.getLsbD (uset root p d) i = true

/-- The topmost nodes with a non-empty total. -/
def Top (P : Platform) (root : Node) (q : Path) : Prop :=
  [] ∉ q ∧ tot P root q ≠ 0 ∧ ∀ t, t <+: q → t ≠ q → tot P root t = 0

/-- The bookkeeping is right. -/
structure Book (P : Platform) (root : Node) : Prop where
  ok : ROK (RN P) root
  sub : ∀ q d i, [] ∉ q → BitVec.getLsbD (uset root (q ++ [[]]) d) i = true → Below root q d i
  top : ∀ q d i, Top P root q → Below root q d i → BitVec.getLsbD (uset root (q ++ [[]]) d) i = true

theorem tot_congr (h : ROK (RN P) root) (h' : ROK (RN P) root') {q : Path} (h1 : ∀ d, uset root' q d = uset root q d)
    (h2 : ∀ d, uset root' (q ++ [[]]) d = uset root (q ++ [[]]) d) : tot P root' q = tot P root q := by
  rw [Event.bext]
  intro i
  rw [Bool.eq_iff_iff, tot_bit h, tot_bit h']
  simp only [h1, h2]

theorem Book.congr (h : Book P root) (h' : ROK (RN P) root') (hu : ∀ r d, uset root' r d = uset root r d) :
    Book P root' ∧ (∀ q, tot P root' q = tot P root q) ∧ ∀ q, Top P root' q ↔ Top P root q := by
  have ht : ∀ q, tot P root' q = tot P root q := fun q => tot_congr h.ok h' (hu q) (hu _)
  have hT : ∀ q, Top P root' q ↔ Top P root q := fun q => by simp only [Top, ht]
  have hB : ∀ q d i, Below root' q d i ↔ Below root q d i := fun q d i => by simp only [Below, hu]
  refine ⟨⟨h', ?_, ?_⟩, ht, hT⟩
  · intro q d i hq hb
    rw [hB]; rw [hu] at hb; exact h.sub q d i hq hb
  · intro q d i hq hb
    rw [hu]; exact h.top q d i ((hT q).1 hq) ((hB q d i).1 hb)

theorem exists_top {x : Path} (hx : [] ∉ x) (ht : tot P root x ≠ 0) : ∃ y, y <+: x ∧ Top P root y := by
  generalize hn : x.length = n
  induction n using Nat.strongRecOn generalizing x with
  | _ n ih =>
    by_cases h : ∃ t, t <+: x ∧ t ≠ x ∧ tot P root t ≠ 0
    · obtain ⟨t, h1, h2, h3⟩ := h
      have hl : t.length < n := by
        rcases Nat.lt_or_ge t.length x.length with h4 | h4
        · omega
        · exact absurd (h1.eq_of_length (Nat.le_antisymm h1.length_le h4)) h2
      obtain ⟨y, h4, h5⟩ := ih t.length hl (fun hc => hx (h1.subset hc)) h3 rfl
      exact ⟨y, h4.trans h1, h5⟩
    · refine ⟨x, List.prefix_refl _, hx, ht, fun t h1 h2 => ?_⟩
      by_contra h3
      exact h ⟨t, h1, h2, h3⟩

theorem prefix_total {a b x : Path} (ha : a <+: x) (hb : b <+: x) : a <+: b ∨ b <+: a := by
  rcases Nat.le_total a.length b.length with h | h
  · exact .inl (List.prefix_of_prefix_length_le ha hb h)
  · exact .inr (List.prefix_of_prefix_length_le hb ha h)

theorem Top.unique {y z x : Path} (hy : Top P root y) (hz : Top P root z) (h1 : y <+: x) (h2 : z <+: x) : y = z := by
  by_contra hne
  rcases prefix_total h1 h2 with h | h
  · exact hy.2.1 (hz.2.2 y h hne)
  · exact hz.2.1 (hy.2.2 z h (Ne.symm hne))

theorem uset_ne_tot (h : ROK (RN P) root) {q : Path} {d i : Nat} (hb : BitVec.getLsbD (uset root q d) i = true) :
    tot P root q ≠ 0 := by
  intro h0
  rw [((tot_eq_zero h q).1 h0 d).1] at hb
  simp at hb

theorem inactive_ne_tot (h : ROK (RN P) root) {q : Path} {d i : Nat}
    (hb : BitVec.getLsbD (uset root (q ++ [[]]) d) i = true) : tot P root q ≠ 0 := by
  intro h0
  rw [((tot_eq_zero h q).1 h0 d).2] at hb
  simp at hb

theorem append_ne_inactive {q : Path} {p : Path} (hp : [] ∉ p) : q ++ [[]] ≠ p := by
  rintro rfl; simp at hp

/-! ### Watch at or below an existing watch -/

theorem or_bit {a b : Event} {i : Nat} (h : BitVec.getLsbD a i = true) : BitVec.getLsbD (a ||| b) i = true := by
  simp [h]

section under
variable {p q : Path} {c : Nat} {E : Event}

/-- Registration of `c` at `p` below the topmost `q`. -/
theorem Book.under (h : Book P root) (h' : ROK (RN P) root') (hq : Top P root q) (hqp : q <+: p) (hp : [] ∉ p)
    (hu : ∀ r d, uset root' r d = if d = c ∧ (r = p ∨ r = slot q p) then uset root r d ||| E else uset root r d) :
    Book P root' ∧ tot P root' q = tot P root q ||| (E &^ P.internal) ∧
    (∀ r, Top P root' r ↔ Top P root r) ∧ ∀ r, Top P root r → r ≠ q → tot P root' r = tot P root r := by
  have hslot : slot q p = p ∧ q = p ∨ slot q p = q ++ [[]] ∧ q ≠ p := by
    unfold slot; by_cases hqe : q = p
    · left; simp [hqe]
    · right; simp [hqe]
  have hmono : ∀ r d i, BitVec.getLsbD (uset root r d) i = true → BitVec.getLsbD (uset root' r d) i = true := by
    intro r d i hb; rw [hu]; split
    · exact or_bit hb
    · exact hb
  have hBmono : ∀ r d i, Below root r d i → Below root' r d i := by
    rintro r d i ⟨x, h1, h2, h3, h4⟩; exact ⟨x, h1, h2, h3, hmono _ _ _ h4⟩
  -- totals elsewhere
  have htot : ∀ r, [] ∉ r → r ≠ p → r ≠ q → tot P root' r = tot P root r := by
    intro r h0 h1 h2
    refine tot_congr h.ok h' (fun d => ?_) (fun d => ?_)
    · rw [hu, if_neg]
      rintro ⟨-, hc | hc⟩
      · exact h1 hc
      · rcases hslot with ⟨h3, _⟩ | ⟨h3, _⟩
        · exact h1 (hc.trans h3)
        · rw [h3] at hc; exact append_ne_inactive h0 hc.symm
    · rw [hu, if_neg]
      rintro ⟨-, hc | hc⟩
      · exact append_ne_inactive hp hc
      · rcases hslot with ⟨h3, _⟩ | ⟨h3, _⟩
        · rw [h3] at hc; exact append_ne_inactive hp hc
        · rw [h3] at hc; exact h2 (List.append_cancel_right hc)
  have htq : tot P root' q = tot P root q ||| (E &^ P.internal) := by
    rw [Event.bext]
    intro i
    rw [Bool.eq_iff_iff, tot_bit h', BitVec.getLsbD_or, Bool.or_eq_true, tot_bit h.ok, Event.bit_andNot,
      Bool.and_eq_true, Bool.not_eq_true']
    have key : (∃ d, BitVec.getLsbD (uset root' q d) i = true ∨ BitVec.getLsbD (uset root' (q ++ [[]]) d) i = true) ↔
        (∃ d, BitVec.getLsbD (uset root q d) i = true ∨ BitVec.getLsbD (uset root (q ++ [[]]) d) i = true) ∨
          BitVec.getLsbD E i = true := by
      constructor
      · rintro ⟨d, hb | hb⟩
        · rw [hu] at hb
          split at hb
          · rw [BitVec.getLsbD_or, Bool.or_eq_true] at hb
            rcases hb with hb | hb
            · exact .inl ⟨d, .inl hb⟩
            · exact .inr hb
          · exact .inl ⟨d, .inl hb⟩
        · rw [hu] at hb
          split at hb
          · rw [BitVec.getLsbD_or, Bool.or_eq_true] at hb
            rcases hb with hb | hb
            · exact .inl ⟨d, .inr hb⟩
            · exact .inr hb
          · exact .inl ⟨d, .inr hb⟩
      · rintro (⟨d, hb | hb⟩ | hb)
        · exact ⟨d, .inl (hmono _ _ _ hb)⟩
        · exact ⟨d, .inr (hmono _ _ _ hb)⟩
        · refine ⟨c, ?_⟩
          rcases hslot with ⟨h3, h4⟩ | ⟨h3, h4⟩
          · left; rw [hu, if_pos ⟨rfl, .inl h4⟩, BitVec.getLsbD_or, hb, Bool.or_true]
          · right; rw [hu, if_pos ⟨rfl, .inr h3.symm⟩, BitVec.getLsbD_or, hb, Bool.or_true]
    rw [key]
    constructor
    · rintro ⟨h1, h2 | h2⟩
      · exact .inl ⟨h1, h2⟩
      · exact .inr ⟨h2, h1⟩
    · rintro (⟨h1, h2⟩ | ⟨h2, h1⟩)
      · exact ⟨h1, .inl h2⟩
      · exact ⟨h1, .inr h2⟩
  have htq0 : tot P root' q ≠ 0 := by
    rw [htq]
    intro h0
    apply hq.2.1
    have : tot P root q ⊑ tot P root q ||| (E &^ P.internal) := Event.sub_or_left _ _
    rw [h0] at this
    exact Event.sub_zero this
  have hT : ∀ r, Top P root' r ↔ Top P root r := by
    intro r
    by_cases hqr : q <+: r
    · by_cases hre : r = q
      · subst hre
        refine ⟨fun _ => hq, fun _ => ⟨hq.1, htq0, fun t h1 h2 => ?_⟩⟩
        rw [htot t (fun hc => hq.1 (h1.subset hc)) (fun he => h2 (he ▸ (he ▸ h1 : p <+: r).eq_of_length
          (Nat.le_antisymm (he ▸ h1 : p <+: r).length_le hqp.length_le))) h2]
        exact hq.2.2 t h1 h2
      · constructor
        · intro hr; exact absurd (hr.2.2 q hqr (Ne.symm hre)) htq0
        · intro hr; exact absurd (hr.2.2 q hqr (Ne.symm hre)) hq.2.1
    · have hpre : ∀ t, t <+: r → t ≠ p ∧ t ≠ q := by
        intro t ht
        refine ⟨?_, ?_⟩
        · rintro rfl; exact hqr (hqp.trans ht)
        · rintro rfl; exact hqr ht
      constructor
      · rintro ⟨h1, h2, h3⟩
        refine ⟨h1, ?_, fun t h4 h5 => ?_⟩
        · rwa [htot r h1 (hpre r (List.prefix_refl _)).1 (hpre r (List.prefix_refl _)).2] at h2
        · rw [← htot t (fun hc => h1 (h4.subset hc)) (hpre t h4).1 (hpre t h4).2]; exact h3 t h4 h5
      · rintro ⟨h1, h2, h3⟩
        refine ⟨h1, ?_, fun t h4 h5 => ?_⟩
        · rwa [htot r h1 (hpre r (List.prefix_refl _)).1 (hpre r (List.prefix_refl _)).2]
        · rw [htot t (fun hc => h1 (h4.subset hc)) (hpre t h4).1 (hpre t h4).2]; exact h3 t h4 h5
  refine ⟨⟨h', ?_, ?_⟩, htq, hT, ?_⟩
  · intro r d i hr hb
    rw [hu] at hb
    split at hb
    · next hc =>
      rw [BitVec.getLsbD_or, Bool.or_eq_true] at hb
      rcases hb with hb | hb
      · exact hBmono _ _ _ (h.sub r d i hr hb)
      · obtain ⟨rfl, hc | hc⟩ := hc
        · exact absurd hc (append_ne_inactive hp)
        · rcases hslot with ⟨h3, _⟩ | ⟨h3, h4⟩
          · rw [h3] at hc; exact absurd hc (append_ne_inactive hp)
          · rw [h3] at hc
            have := List.append_cancel_right hc
            subst this
            refine ⟨p, hqp, Ne.symm h4, hp, ?_⟩
            rw [hu, if_pos ⟨rfl, .inl rfl⟩, BitVec.getLsbD_or, hb, Bool.or_true]
    · exact hBmono _ _ _ (h.sub r d i hr hb)
  · rintro r d i hr ⟨x, h1, h2, h3, hb⟩
    have hr0 := (hT r).1 hr
    rw [hu] at hb
    split at hb
    · next hc =>
      rw [BitVec.getLsbD_or, Bool.or_eq_true] at hb
      rcases hb with hb | hb
      · exact hmono _ _ _ (h.top r d i hr0 ⟨x, h1, h2, h3, hb⟩)
      · have hxp : x = p := by
          rcases hc.2 with hc | hc
          · exact hc
          · rcases hslot with ⟨h4, _⟩ | ⟨h4, _⟩
            · exact hc.trans h4
            · rw [h4] at hc; exact absurd hc.symm (append_ne_inactive h3)
        subst hxp
        have hrq : r = q := hr0.unique hq h1 hqp
        subst hrq
        rcases hslot with ⟨_, h4⟩ | ⟨h4, _⟩
        · exact absurd h4.symm h2
        · rw [hu, if_pos ⟨hc.1, .inr h4.symm⟩, BitVec.getLsbD_or, hb, Bool.or_true]
    · exact hmono _ _ _ (h.top r d i hr0 ⟨x, h1, h2, h3, hb⟩)
  · intro r hr hne
    refine htot r hr.1 ?_ hne
    rintro rfl
    exact hne (hr.unique hq (List.prefix_refl _) hqp)

end under

/-! ### Watch that becomes the parent of everything below -/

/-- Registration of `c` at `p` when nothing at or above is watched; what is registered below is copied to
the inactive watchpoint. -/
theorem Book.over {p : Path} {c : Nat} {E : Event} (h : Book P root) (h' : ROK (RN P) root') (hp : [] ∉ p)
    (hnone : ∀ t, t <+: p → tot P root t = 0) (hE : Storable P E)
    (hu : ∀ r d, r ≠ p ++ [[]] → uset root' r d = if d = c ∧ r = p then uset root r d ||| E else uset root r d)
    (hin : ∀ d i, BitVec.getLsbD (uset root' (p ++ [[]]) d) i = true ↔ Below root p d i) :
    Book P root' ∧ (∀ r, Top P root' r ↔ r = p ∨ (Top P root r ∧ ¬ p <+: r)) ∧
    ∀ r, [] ∉ r → r ≠ p → tot P root' r = tot P root r := by
  have hmono : ∀ r d i, r ≠ p ++ [[]] → BitVec.getLsbD (uset root r d) i = true →
      BitVec.getLsbD (uset root' r d) i = true := by
    intro r d i hr hb; rw [hu r d hr]; split
    · exact or_bit hb
    · exact hb
  have hBmono : ∀ r d i, Below root r d i → Below root' r d i := by
    rintro r d i ⟨x, h1, h2, h3, h4⟩
    exact ⟨x, h1, h2, h3, hmono _ _ _ (append_ne_inactive h3).symm h4⟩
  have htot : ∀ r, [] ∉ r → r ≠ p → tot P root' r = tot P root r := by
    intro r h0 h1
    refine tot_congr h.ok h' (fun d => ?_) (fun d => ?_)
    · rw [hu r d (append_ne_inactive h0).symm, if_neg]
      rintro ⟨-, hc⟩; exact h1 hc
    · rw [hu _ d (fun hc => h1 (List.append_cancel_right hc)), if_neg]
      rintro ⟨-, hc⟩; exact append_ne_inactive hp hc
  have htp : tot P root' p ≠ 0 := by
    obtain ⟨i, hi⟩ := Event.ne_zero_iff.1 hE.ne0
    refine uset_ne_tot h' (d := c) (i := i) ?_
    rw [hu p c (append_ne_inactive hp).symm, if_pos ⟨rfl, rfl⟩, BitVec.getLsbD_or, hi, Bool.or_true]
  have hT : ∀ r, Top P root' r ↔ r = p ∨ (Top P root r ∧ ¬ p <+: r) := by
    intro r
    by_cases hrp : r = p
    · subst hrp
      refine ⟨fun _ => .inl rfl, fun _ => ⟨hp, htp, fun t h1 h2 => ?_⟩⟩
      rw [htot t (fun hc => hp (h1.subset hc)) h2]
      exact hnone t h1
    · constructor
      · rintro ⟨h1, h2, h3⟩
        right
        have hnp : ¬ p <+: r := fun hpr => htp (h3 p hpr (Ne.symm hrp))
        refine ⟨⟨h1, by rwa [htot r h1 hrp] at h2, fun t h4 h5 => ?_⟩, hnp⟩
        rw [← htot t (fun hc => h1 (h4.subset hc)) (by rintro rfl; exact hnp h4)]
        exact h3 t h4 h5
      · rintro (hx | ⟨⟨h1, h2, h3⟩, hnp⟩)
        · exact absurd hx hrp
        · refine ⟨h1, by rwa [htot r h1 hrp], fun t h4 h5 => ?_⟩
          rw [htot t (fun hc => h1 (h4.subset hc)) (by rintro rfl; exact hnp h4)]
          exact h3 t h4 h5
  refine ⟨⟨h', ?_, ?_⟩, hT, htot⟩
  · intro r d i hr hb
    by_cases hrp : r = p
    · subst hrp
      exact hBmono _ _ _ ((hin d i).1 hb)
    · rw [hu _ d (fun hc => hrp (List.append_cancel_right hc)), if_neg] at hb
      · exact hBmono _ _ _ (h.sub r d i hr hb)
      · rintro ⟨-, hc⟩; exact append_ne_inactive hp hc
  · rintro r d i hr ⟨x, h1, h2, h3, hb⟩
    rcases (hT r).1 hr with rfl | ⟨hr0, hnp⟩
    · rw [hin]
      rw [hu x d (append_ne_inactive h3).symm, if_neg] at hb
      · exact ⟨x, h1, h2, h3, hb⟩
      · rintro ⟨-, hc⟩; exact h2 hc
    · have hxp : x ≠ p := by
        rintro rfl
        exact hr0.2.1 (hnone r h1)
      rw [hu x d (append_ne_inactive h3).symm, if_neg (fun hc => hxp hc.2)] at hb
      have := h.top r d i hr0 ⟨x, h1, h2, h3, hb⟩
      rw [hu _ d, if_neg]
      · exact this
      · rintro ⟨-, hc⟩; exact append_ne_inactive hp hc
      · intro hc
        have := List.append_cancel_right hc
        subst this
        exact hnp (List.prefix_refl _)

/-- With every topmost watch below `p` registered at its own path, the walk of `Watch` finds exactly the
topmost watches. -/
theorem Book.tops_iff (hP : P.Facts) (h : Book P root) {p : Path} (hp : [] ∉ p) (hnone : ∀ t, t <+: p → tot P root t = 0)
    (hsolid : ∀ x, p <+: x → Top P root x → watchAt root x ≠ []) (r : Path) :
    r ∈ (nodeAt root p).tops ↔ Top P root (p ++ r) := by
  have hW : ∀ x, tot P root x = 0 → watchAt root x = [] := by
    intro x hx
    rw [watchAt_nil_iff hP h.ok]
    intro d
    exact ((tot_eq_zero h.ok x).1 hx d).1
  rw [mem_tops_at h.ok hp]
  constructor
  · rintro ⟨h1, h2, h3⟩
    have hpr : [] ∉ p ++ r := by simp [hp, h1]
    have ht : tot P root (p ++ r) ≠ 0 := fun h0 => h2 (hW _ h0)
    obtain ⟨y, hy1, hy2⟩ := exists_top hpr ht
    have hpy : p <+: y := by
      rcases prefix_total (List.prefix_append p r) hy1 with h4 | h4
      · exact h4
      · exact absurd (hnone y h4) hy2.2.1
    obtain ⟨t, rfl⟩ := hpy
    have htr : t <+: r := (List.prefix_append_right_inj p).1 hy1
    by_cases hte : t = r
    · subst hte; exact hy2
    · exact absurd (h3 t htr hte) (hsolid _ (List.prefix_append _ _) hy2)
  · intro hT
    have h1 : [] ∉ r := fun hc => hT.1 (by simp [hc])
    refine ⟨h1, hsolid _ (List.prefix_append _ _) hT, fun t h2 h3 => hW _ (hT.2.2 _ ?_ ?_)⟩
    · exact (List.prefix_append_right_inj p).2 h2
    · intro hc; exact h3 (List.append_cancel_left hc)

/-- What is registered below `p`, in terms of the topmost watches below it. -/
theorem Book.below_iff (h : Book P root) {p : Path} (hnone : ∀ t, t <+: p → tot P root t = 0) (d i : Nat) :
    Below root p d i ↔ ∃ r, Top P root (p ++ r) ∧
      (BitVec.getLsbD (uset root (p ++ r) d) i = true ∨ BitVec.getLsbD (uset root (p ++ r ++ [[]]) d) i = true) := by
  constructor
  · rintro ⟨x, h1, h2, h3, hb⟩
    obtain ⟨y, hy1, hy2⟩ := exists_top h3 (uset_ne_tot h.ok hb)
    have hpy : p <+: y := by
      rcases prefix_total h1 hy1 with h4 | h4
      · exact h4
      · exact absurd (hnone y h4) hy2.2.1
    obtain ⟨r, rfl⟩ := hpy
    refine ⟨r, hy2, ?_⟩
    by_cases hxy : x = p ++ r
    · left; rw [← hxy]; exact hb
    · right; exact h.top _ d i hy2 ⟨x, hy1, hxy, h3, hb⟩
  · rintro ⟨r, hT, hb | hb⟩
    · refine ⟨p ++ r, List.prefix_append _ _, ?_, hT.1, hb⟩
      intro hc
      rw [hc] at hT
      exact hT.2.1 (hnone p (List.prefix_refl _))
    · obtain ⟨x, h1, h2, h3, h4⟩ := h.sub _ d i hT.1 hb
      refine ⟨x, (List.prefix_append _ _).trans h1, ?_, h3, h4⟩
      rintro rfl
      have hr : r = [] := by
        have := h1.length_le
        rw [List.length_append] at this
        exact List.eq_nil_of_length_eq_zero (by omega)
      subst hr
      simp at h2

/-! ### Stop -/

theorem Book.stop {c : Nat} (h : Book P root) (h' : ROK (RN P) root')
    (hu : ∀ r d, uset root' r d = if d = c then 0 else uset root r d) :
    Book P root' ∧ ∀ q, Top P root' q ↔ Top P root q ∧ tot P root' q ≠ 0 := by
  have hle : ∀ q, tot P root q = 0 → tot P root' q = 0 := by
    intro q h0
    rw [tot_eq_zero h'] ; intro d
    have := (tot_eq_zero h.ok q).1 h0 d
    rw [hu, hu]; simp [this.1, this.2]
  have hBd : ∀ q d i, Below root' q d i ↔ d ≠ c ∧ Below root q d i := by
    intro q d i
    by_cases hd : d = c
    · simp only [hd, ne_eq, not_true_eq_false, false_and, iff_false]
      rintro ⟨x, _, _, _, hb⟩
      rw [hu, if_pos rfl] at hb; simp at hb
    · simp only [ne_eq, hd, not_false_eq_true, true_and, Below, hu, if_false]
  have hT : ∀ q, Top P root' q ↔ Top P root q ∧ tot P root' q ≠ 0 := by
    intro q
    constructor
    · rintro ⟨h1, h2, h3⟩
      refine ⟨⟨h1, fun h0 => h2 (hle q h0), fun t h4 h5 => ?_⟩, h2⟩
      by_contra h6
      obtain ⟨y, hy1, hy2⟩ := exists_top (fun hc => h1 (h4.subset hc)) h6
      have hyq : y <+: q := hy1.trans h4
      have hyne : y ≠ q := by
        rintro rfl
        exact h5 (h4.eq_of_length (Nat.le_antisymm h4.length_le hy1.length_le))
      have h7 := (tot_eq_zero h' y).1 (h3 y hyq hyne)
      -- something of another channel is left at or below `q`
      obtain ⟨i, hi⟩ := Event.ne_zero_iff.1 h2
      obtain ⟨_, d, hb | hb⟩ := (tot_bit h' q i).1 hi
      · rw [hu] at hb
        split at hb
        · simp at hb
        · next hd =>
          have := h.top y d i hy2 ⟨q, hyq, Ne.symm hyne, h1, hb⟩
          have h8 := (h7 d).2
          rw [hu, if_neg hd] at h8
          rw [h8] at this; simp at this
      · rw [hu] at hb
        split at hb
        · simp at hb
        · next hd =>
          obtain ⟨x, hx1, hx2, hx3, hx4⟩ := h.sub q d i h1 hb
          have hxy : x ≠ y := by
            rintro rfl
            exact hyne (hyq.eq_of_length (Nat.le_antisymm hyq.length_le hx1.length_le))
          have := h.top y d i hy2 ⟨x, hyq.trans hx1, hxy, hx3, hx4⟩
          have h8 := (h7 d).2
          rw [hu, if_neg hd] at h8
          rw [h8] at this; simp at this
    · rintro ⟨⟨h1, h2, h3⟩, h4⟩
      exact ⟨h1, h4, fun t h5 h6 => hle t (h3 t h5 h6)⟩
  refine ⟨⟨h', ?_, ?_⟩, hT⟩
  · intro q d i hq hb
    rw [hu] at hb
    split at hb
    · simp at hb
    · next hd => exact (hBd q d i).2 ⟨hd, h.sub q d i hq hb⟩
  · intro q d i hq hb
    obtain ⟨hd, hb⟩ := (hBd q d i).1 hb
    rw [hu, if_neg hd]
    exact h.top q d i ((hT q).1 hq).1 hb

end Rec
end Verif
