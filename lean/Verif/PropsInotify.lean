/-
The inotify watcher: masks, translation of kernel events, parsing (C32, C33, C34).
-/
import Verif.Inotify
import Verif.SpecInotify

namespace Verif
namespace Inotify
open Spec.Inotify

/-! ### Bits -/

theorem and_pow (e : Event) {k : Nat} (hk : k < 32) : e &&& BitVec.twoPow 32 k ≠ 0 ↔ e.getLsbD k = true := by
  rw [BitVec.and_twoPow]
  by_cases h : e.getLsbD k = true
  · simp only [h, if_true, ne_eq]
    constructor
    · simp
    · intro _ h2
      have := congrArg (fun v => BitVec.getLsbD v k) h2
      simp [hk] at this
  · simp [h]

theorem create_iff (e : Event) : e &&& create ≠ 0 ↔ e.getLsbD 20 = true := and_pow e (k := 20) (by decide)
theorem remove_iff (e : Event) : e &&& remove ≠ 0 ↔ e.getLsbD 21 = true := and_pow e (k := 21) (by decide)
theorem write_iff (e : Event) : e &&& write ≠ 0 ↔ e.getLsbD 22 = true := and_pow e (k := 22) (by decide)
theorem rename_iff (e : Event) : e &&& rename ≠ 0 ↔ e.getLsbD 23 = true := and_pow e (k := 23) (by decide)

theorem stage_bit (e m : Event) {k j : Nat} (hk : k < 32) (hj : j < 32) :
    (if e &&& BitVec.twoPow 32 k ≠ 0 then (e ^^^ BitVec.twoPow 32 k) ||| m else e).getLsbD j =
      ((e.getLsbD j && !(j == k)) || (e.getLsbD k && m.getLsbD j)) := by
  by_cases h : e &&& BitVec.twoPow 32 k ≠ 0
  · rw [if_pos h]
    have h' := (and_pow e hk).1 h
    simp only [BitVec.getLsbD_or, BitVec.getLsbD_xor, BitVec.getLsbD_twoPow, h', hk]
    by_cases hjk : j = k
    · subst hjk; simp [h']
    · have h1 : (j == k) = false := by simpa using hjk
      have h2 : k ≠ j := fun h => hjk h.symm
      simp [h1, h2]
  · rw [if_neg h]
    have h' : e.getLsbD k = false := by
      rcases hb : e.getLsbD k with _ | _
      · rfl
      · exact absurd ((and_pow e hk).2 hb) h
    by_cases hjk : j = k
    · subst hjk; simp [h']
    · have h1 : (j == k) = false := by simpa using hjk
      simp [h', h1]

/-- The bits of `encode e`. -/
theorem encode_bit (e : Event) {j : Nat} (hj : j < 32) :
    (encode e).getLsbD j =
      ((e.getLsbD j && !(j == 20 || j == 21 || j == 22 || j == 23)) ||
       (e.getLsbD 20 && (j == 8 || j == 7)) || (e.getLsbD 21 && (j == 9 || j == 10)) ||
       (e.getLsbD 22 && j == 1) || (e.getLsbD 23 && (j == 6 || j == 11))) := by
  have hm1 : ∀ j < 32, (inCreate ||| inMovedTo).getLsbD j = (j == 8 || j == 7) := by decide
  have hm2 : ∀ j < 32, (inDelete ||| inDeleteSelf).getLsbD j = (j == 9 || j == 10) := by decide
  have hm3 : ∀ j < 32, inModify.getLsbD j = (j == 1) := by decide
  have hm4 : ∀ j < 32, (inMovedFrom ||| inMoveSelf).getLsbD j = (j == 6 || j == 11) := by decide
  have hc : create = BitVec.twoPow 32 20 := by decide
  have hr : remove = BitVec.twoPow 32 21 := by decide
  have hw : write = BitVec.twoPow 32 22 := by decide
  have hn : rename = BitVec.twoPow 32 23 := by decide
  unfold encode
  simp only [hc, hr, hw, hn, BitVec.or_assoc]
  rw [stage_bit _ _ (by decide) hj, stage_bit _ _ (by decide) hj, stage_bit _ _ (by decide) hj,
    stage_bit _ _ (by decide) hj]
  simp only [stage_bit _ _ (show 22 < 32 by decide) (show 23 < 32 by decide),
    stage_bit _ _ (show 21 < 32 by decide) (show 23 < 32 by decide),
    stage_bit _ _ (show 20 < 32 by decide) (show 23 < 32 by decide),
    stage_bit _ _ (show 21 < 32 by decide) (show 22 < 32 by decide),
    stage_bit _ _ (show 20 < 32 by decide) (show 22 < 32 by decide),
    stage_bit _ _ (show 20 < 32 by decide) (show 21 < 32 by decide), hm1 _ hj, hm2 _ hj, hm3 _ hj, hm4 _ hj,
    hm1 _ (show 21 < 32 by decide), hm1 _ (show 22 < 32 by decide), hm1 _ (show 23 < 32 by decide),
    hm2 _ (show 22 < 32 by decide), hm2 _ (show 23 < 32 by decide), hm3 _ (show 23 < 32 by decide)]
  by_cases h20 : j = 20
  · subst h20; simp
  by_cases h21 : j = 21
  · subst h21; simp
  by_cases h22 : j = 22
  · subst h22; simp
  by_cases h23 : j = 23
  · subst h23; simp
  have b20 : (j == 20) = false := by simpa using h20
  have b21 : (j == 21) = false := by simpa using h21
  have b22 : (j == 22) = false := by simpa using h22
  have b23 : (j == 23) = false := by simpa using h23
  simp [b20, b21, b22, b23]

theorem sub_pow (e : Event) {k : Nat} (hk : k < 32) : BitVec.twoPow 32 k ⊑ e ↔ e.getLsbD k = true := by
  constructor
  · intro h
    exact h k (by simp [hk])
  · intro h i hi
    by_cases hik : k = i
    · exact hik ▸ h
    · simp [hik] at hi

/-! ### C32 -/

/-- Every kernel bit with its index. -/
theorem kernelBits_pow {b : Event} (hb : b ∈ kernelBits) : ∃ k < 12, b = BitVec.twoPow 32 k := by
  have h : kernelBits = (List.range 12).map (BitVec.twoPow 32) := by decide
  rw [h] at hb
  obtain ⟨k, hk, rfl⟩ := List.mem_map.1 hb
  exact ⟨k, by simpa using hk, rfl⟩

/-- The indices of the bits of the events that a kernel event stands for. -/
def meansIdx (k : Nat) : List Nat :=
  k :: (if k = 8 ∨ k = 7 then [20] else if k = 9 ∨ k = 10 then [21] else if k = 1 then [22]
    else if k = 6 ∨ k = 11 then [23] else [])

theorem means_iff {k : Nat} (hk : k < 12) (E : Event) :
    (E, BitVec.twoPow 32 k) ∈ means ↔ ∃ j ∈ meansIdx k, E = BitVec.twoPow 32 j := by
  have h1 : ∀ k < 12, ∀ p ∈ means, p.2 = BitVec.twoPow 32 k → ∃ j ∈ meansIdx k, p.1 = BitVec.twoPow 32 j := by decide
  have h2 : ∀ k < 12, ∀ j ∈ meansIdx k, (BitVec.twoPow 32 j, BitVec.twoPow 32 k) ∈ means := by decide
  constructor
  · intro h; exact h1 k hk _ h rfl
  · rintro ⟨j, hj, rfl⟩; exact h2 k hk j hj

theorem meansIdx_lt {k j : Nat} (hk : k < 12) (hj : j ∈ meansIdx k) : j < 32 := by
  have : ∀ k < 12, ∀ j ∈ meansIdx k, j < 32 := by decide
  exact this k hk j hj

/-- **C32.**  For every event set that Watch accepts, the mask given to the kernel contains only valid
inotify event bits, and a kernel event is in it iff it is one of the requested events. -/
theorem C32_mask (e : Event) (he : accepts e = true) :
    encode e ⊑ 0xfff ∧
    ∀ b ∈ kernelBits, b ⊑ encode e ↔ ∃ E, E ⊑ e ∧ (E, b) ∈ means := by
  have hacc : ∀ j < 32, e.getLsbD j = true → j < 12 ∨ j = 20 ∨ j = 21 ∨ j = 22 ∨ j = 23 := by
    intro j hj hb
    have h1 : e &^ (Platform.inotify.All ||| inAllEvents) = 0 := by simpa [accepts] using he
    have h2 := congrArg (fun v => BitVec.getLsbD v j) h1
    simp only [Event.bit_andNot, hb, Bool.true_and] at h2
    have h3 : ∀ j < 32, (!(Platform.inotify.All ||| inAllEvents).getLsbD j) = (0 : Event).getLsbD j →
      j < 12 ∨ j = 20 ∨ j = 21 ∨ j = 22 ∨ j = 23 := by decide
    exact h3 j hj h2
  constructor
  · intro j hb
    have hj : j < 32 := by
      rcases Nat.lt_or_ge j 32 with h | h
      · exact h
      · rw [BitVec.getLsbD_of_ge _ _ h] at hb; cases hb
    have hlow : ∀ j < 12, (0xfff : Event).getLsbD j = true := by decide
    apply hlow
    rw [encode_bit e hj] at hb
    have := hacc j hj
    grind
  · intro b hb
    obtain ⟨k, hk, rfl⟩ := kernelBits_pow hb
    rw [sub_pow _ (by omega), encode_bit e (by omega)]
    constructor
    · intro h
      have h' : ∃ j ∈ meansIdx k, e.getLsbD j = true := by
        simp only [meansIdx]
        grind
      obtain ⟨j, hj, hb⟩ := h'
      exact ⟨_, (sub_pow e (meansIdx_lt hk hj)).2 hb, (means_iff hk _).2 ⟨j, hj, rfl⟩⟩
    · rintro ⟨E, hE, hm⟩
      obtain ⟨j, hj, rfl⟩ := (means_iff hk E).1 hm
      have hbit := (sub_pow e (meansIdx_lt hk hj)).1 hE
      rcases List.mem_cons.1 hj with rfl | hj
      · have h1 : (j == 20) = false := by simp; omega
        have h2 : (j == 21) = false := by simp; omega
        have h3 : (j == 22) = false := by simp; omega
        have h4 : (j == 23) = false := by simp; omega
        simp [hbit, h1, h2, h3, h4]
      · grind

/-- For example Create|InAccess is accepted and asks for IN_CREATE, IN_MOVED_TO and IN_ACCESS. -/
example : accepts (0x100001 : Event) = true ∧ encode 0x100001 = (0x181 : Event) := by decide

/-! ### C33 -/

theorem and3_ne (a m r : Event) (p : Nat → Bool) (hm : ∀ j < 32, m.getLsbD j = p j) :
    a &&& m &&& r ≠ 0 ↔ ∃ j < 32, p j = true ∧ a.getLsbD j = true ∧ r.getLsbD j = true := by
  rw [Event.ne_zero_iff]
  constructor
  · rintro ⟨j, hj⟩
    simp only [BitVec.getLsbD_and, Bool.and_eq_true] at hj
    have h32 : j < 32 := by
      rcases Nat.lt_or_ge j 32 with h | h
      · exact h
      · rw [BitVec.getLsbD_of_ge _ _ h] at hj; exact absurd hj.1.1 (by simp)
    exact ⟨j, h32, (hm j h32).symm.trans hj.1.2, hj.1.1, hj.2⟩
  · rintro ⟨j, hj, hp, ha, hr⟩
    exact ⟨j, by simp only [BitVec.getLsbD_and, ha, hr, hm j hj, hp]; rfl⟩

/-- `decode`'s switch in terms of bits. -/
theorem decodeGeneric_eq (mask raw : Event) :
    decodeGeneric mask raw =
      if mask.getLsbD 20 = true ∧ (raw.getLsbD 8 = true ∨ raw.getLsbD 7 = true) then create
      else if mask.getLsbD 21 = true ∧ (raw.getLsbD 9 = true ∨ raw.getLsbD 10 = true) then remove
      else if mask.getLsbD 22 = true ∧ raw.getLsbD 1 = true then write
      else if mask.getLsbD 23 = true ∧ (raw.getLsbD 6 = true ∨ raw.getLsbD 11 = true) then rename
      else 0 := by
  have hm1 : ∀ j < 32, (inCreate ||| inMovedTo).getLsbD j = (j == 8 || j == 7) := by decide
  have hm2 : ∀ j < 32, (inDelete ||| inDeleteSelf).getLsbD j = (j == 9 || j == 10) := by decide
  have hm3 : ∀ j < 32, inModify.getLsbD j = (j == 1) := by decide
  have hm4 : ∀ j < 32, (inMovedFrom ||| inMoveSelf).getLsbD j = (j == 6 || j == 11) := by decide
  unfold decodeGeneric
  simp only [create_iff, remove_iff, write_iff, rename_iff, and3_ne _ _ _ _ hm1, and3_ne _ _ _ _ hm2,
    and3_ne _ _ _ _ hm3, and3_ne _ _ _ _ hm4]
  have e8 := encode_bit mask (j := 8) (by decide)
  have e7 := encode_bit mask (j := 7) (by decide)
  have e9 := encode_bit mask (j := 9) (by decide)
  have e10 := encode_bit mask (j := 10) (by decide)
  have e1 := encode_bit mask (j := 1) (by decide)
  have e6 := encode_bit mask (j := 6) (by decide)
  have e11 := encode_bit mask (j := 11) (by decide)
  have c1 : (mask.getLsbD 20 = true ∧ ∃ j < 32, (j == 8 || j == 7) = true ∧ (encode mask).getLsbD j = true ∧ raw.getLsbD j = true) ↔
      (mask.getLsbD 20 = true ∧ (raw.getLsbD 8 = true ∨ raw.getLsbD 7 = true)) := by
    constructor
    · rintro ⟨h, j, _, hj, _, hr⟩; refine ⟨h, ?_⟩
      simp at hj; rcases hj with rfl | rfl <;> simp [hr]
    · rintro ⟨h, hr | hr⟩
      · exact ⟨h, 8, by decide, rfl, by rw [e8, h]; simp, hr⟩
      · exact ⟨h, 7, by decide, rfl, by rw [e7, h]; simp, hr⟩
  have c2 : (mask.getLsbD 21 = true ∧ ∃ j < 32, (j == 9 || j == 10) = true ∧ (encode mask).getLsbD j = true ∧ raw.getLsbD j = true) ↔
      (mask.getLsbD 21 = true ∧ (raw.getLsbD 9 = true ∨ raw.getLsbD 10 = true)) := by
    constructor
    · rintro ⟨h, j, _, hj, _, hr⟩; refine ⟨h, ?_⟩
      simp at hj; rcases hj with rfl | rfl <;> simp [hr]
    · rintro ⟨h, hr | hr⟩
      · exact ⟨h, 9, by decide, rfl, by rw [e9, h]; simp, hr⟩
      · exact ⟨h, 10, by decide, rfl, by rw [e10, h]; simp, hr⟩
  have c3 : (mask.getLsbD 22 = true ∧ ∃ j < 32, (j == 1) = true ∧ (encode mask).getLsbD j = true ∧ raw.getLsbD j = true) ↔
      (mask.getLsbD 22 = true ∧ raw.getLsbD 1 = true) := by
    constructor
    · rintro ⟨h, j, _, hj, _, hr⟩; refine ⟨h, ?_⟩
      simp at hj; subst hj; exact hr
    · rintro ⟨h, hr⟩
      exact ⟨h, 1, by decide, rfl, by rw [e1, h]; simp, hr⟩
  have c4 : (mask.getLsbD 23 = true ∧ ∃ j < 32, (j == 6 || j == 11) = true ∧ (encode mask).getLsbD j = true ∧ raw.getLsbD j = true) ↔
      (mask.getLsbD 23 = true ∧ (raw.getLsbD 6 = true ∨ raw.getLsbD 11 = true)) := by
    constructor
    · rintro ⟨h, j, _, hj, _, hr⟩; refine ⟨h, ?_⟩
      simp at hj; rcases hj with rfl | rfl <;> simp [hr]
    · rintro ⟨h, hr | hr⟩
      · exact ⟨h, 6, by decide, rfl, by rw [e6, h]; simp, hr⟩
      · exact ⟨h, 11, by decide, rfl, by rw [e11, h]; simp, hr⟩
  simp only [c1, c2, c3, c4]

theorem sent_single (m : Table) (r : Raw) :
    sent m [r] = (transform1 m r).1.toList ++ (transform1 m r).2.filterMap id := by
  simp only [sent, transform, List.map_cons, List.map_nil, List.flatMap_cons, List.flatMap_nil,
    List.append_nil, List.filterMap_append]
  cases (transform1 m r).1 <;> simp

/-- **C33, batches.**  A batch of kernel records is translated record by record: the events sent are, up to
order, those of the single records. -/
theorem C33_batch (m : Table) (es : List Raw) : (sent m es).Perm (es.flatMap (fun r => sent m [r])) := by
  simp only [sent_single]
  unfold sent transform
  rw [List.filterMap_append]
  induction es with
  | nil => simp
  | cons r es ih =>
    simp only [List.map_cons, List.flatMap_cons, List.filterMap_append]
    have h1 : ∀ (o : Option EventInfo) (l : List (Option EventInfo)),
        List.filterMap id (o :: l) = o.toList ++ List.filterMap id l := by
      intro o l; cases o <;> simp
    rw [h1]
    refine List.Perm.trans ?_ (List.Perm.append_left _ ih)
    simp only [List.append_assoc]
    apply List.Perm.append_left
    rw [← List.append_assoc, ← List.append_assoc]
    exact List.Perm.append_right _ List.perm_append_comm

/-- **C33, nothing else.**  Queue overflow, ignored notifications and unknown descriptors produce nothing. -/
theorem C33_nothing (m : Table) (r : Raw)
    (h : r.mask.getLsbD 14 = true ∨ r.mask.getLsbD 15 = true ∨ m.get? r.wd = none) : sent m [r] = [] := by
  rw [sent_single]
  unfold transform1
  by_cases h1 : r.mask &&& (inIgnored ||| inQOverflow) ≠ 0
  · rw [if_pos h1]; rfl
  · rw [if_neg h1]
    rcases h with h | h | h
    · exact absurd (Event.ne_zero_iff.2 ⟨14, by
        have h14 : (inIgnored ||| inQOverflow).getLsbD 14 = true := by decide
        rw [BitVec.getLsbD_and, h, h14]; rfl⟩) h1
    · exact absurd (Event.ne_zero_iff.2 ⟨15, by
        have h14 : (inIgnored ||| inQOverflow).getLsbD 15 = true := by decide
        rw [BitVec.getLsbD_and, h, h14]; rfl⟩) h1
    · rw [h]; rfl

/-- What is sent for one record of a known descriptor. -/
theorem sent_known {m : Table} {r : Raw} {w : Watched} (hm : m.get? r.wd = some w)
    (h1 : r.mask &&& (inIgnored ||| inQOverflow) = 0) :
    sent m [r] =
      if r.mask &&& encode w.mask = 0 then []
      else
        (if decodeGeneric w.mask r.mask = 0 then []
         else [mkInfo (decodeGeneric w.mask r.mask) (if r.name = [] then w.path else join w.path r.name) r]) ++
        (if w.mask &&& r.mask = 0 then []
         else [mkInfo (w.mask &&& r.mask) (if r.name = [] then w.path else join w.path r.name) r]) := by
  rw [sent_single]
  unfold transform1
  rw [if_neg (by rw [h1]; simp), hm]
  by_cases h2 : r.mask &&& encode w.mask = 0
  · simp only [h2, if_true]; rfl
  · simp only [h2, if_false, decodeSys]
    by_cases h3 : decodeGeneric w.mask r.mask = 0 <;> by_cases h4 : w.mask &&& r.mask = 0 <;>
      simp only [h3, h4, if_true, if_false, ne_eq, not_true_eq_false, not_false_eq_true] <;> rfl

theorem generic_sub (mask raw : Event) : decodeGeneric mask raw ⊑ mask := by
  rw [decodeGeneric_eq]
  split
  · next h => exact (sub_pow mask (k := 20) (by decide)).2 h.1
  split
  · next h => exact (sub_pow mask (k := 21) (by decide)).2 h.1
  split
  · next h => exact (sub_pow mask (k := 22) (by decide)).2 h.1
  split
  · next h => exact (sub_pow mask (k := 23) (by decide)).2 h.1
  exact Event.zero_sub _

/-- **C33, soundness.**  Whatever the kernel reports, every event sent is among the requested ones and not
empty, and is for the watched path or the named entry in it. -/
theorem C33_sound {m : Table} {r : Raw} {ei : EventInfo} (h : ei ∈ sent m [r]) :
    ∃ w, m.get? r.wd = some w ∧ ei.event ⊑ w.mask ∧ ei.event ≠ 0 ∧
      ei.path = (if r.name = [] then w.path else join w.path r.name) := by
  rcases hw : m.get? r.wd with _ | w
  · rw [C33_nothing m r (Or.inr (Or.inr hw))] at h; cases h
  · refine ⟨w, rfl, ?_⟩
    by_cases h1 : r.mask &&& (inIgnored ||| inQOverflow) = 0
    · rw [sent_known hw h1] at h
      by_cases h2 : r.mask &&& encode w.mask = 0
      · rw [if_pos h2] at h; cases h
      rw [if_neg h2] at h
      rcases List.mem_append.1 h with h | h
      · by_cases h3 : decodeGeneric w.mask r.mask = 0
        · rw [if_pos h3] at h; cases h
        · rw [if_neg h3] at h
          obtain rfl := List.mem_singleton.1 h
          exact ⟨generic_sub _ _, h3, rfl⟩
      · by_cases h3 : w.mask &&& r.mask = 0
        · rw [if_pos h3] at h; cases h
        · rw [if_neg h3] at h
          obtain rfl := List.mem_singleton.1 h
          exact ⟨fun i hi => by simp only [mkInfo, BitVec.getLsbD_and, Bool.and_eq_true] at hi; exact hi.1, h3, rfl⟩
    · rw [sent_single] at h
      unfold transform1 at h
      rw [if_pos h1] at h
      cases h

/-- **C33, completeness.**  If the kernel reports anything that was asked of it, at least one event is sent. -/
theorem C33_some {m : Table} {r : Raw} {w : Watched} (hw : m.get? r.wd = some w)
    (h1 : r.mask.getLsbD 14 = false) (h2 : r.mask.getLsbD 15 = false) {j : Nat} (hj : j < 12)
    (hr : r.mask.getLsbD j = true) (he : (encode w.mask).getLsbD j = true) : sent m [r] ≠ [] := by
  have hk : r.mask &&& (inIgnored ||| inQOverflow) = 0 := by
    apply Classical.byContradiction
    intro hne
    obtain ⟨i, hi⟩ := Event.ne_zero_iff.1 hne
    have hbits : ∀ i < 32, (inIgnored ||| inQOverflow).getLsbD i = (i == 14 || i == 15) := by decide
    have h32 : i < 32 := by
      rcases Nat.lt_or_ge i 32 with h | h
      · exact h
      · rw [BitVec.getLsbD_of_ge _ _ h] at hi; cases hi
    rw [BitVec.getLsbD_and, hbits i h32, Bool.and_eq_true] at hi
    obtain ⟨hi1, hi2⟩ := hi
    simp at hi2
    rcases hi2 with rfl | rfl
    · rw [h1] at hi1; cases hi1
    · rw [h2] at hi1; cases hi1
  rw [sent_known hw hk]
  rw [if_neg (Event.ne_zero_iff.2 ⟨j, by rw [BitVec.getLsbD_and, hr, he]; rfl⟩)]
  intro hnil
  rw [List.append_eq_nil_iff] at hnil
  obtain ⟨hg, hs⟩ := hnil
  have hg' : decodeGeneric w.mask r.mask = 0 := by
    apply Classical.byContradiction; intro h; rw [if_neg h] at hg; cases hg
  have hs' : w.mask &&& r.mask = 0 := by
    apply Classical.byContradiction; intro h; rw [if_neg h] at hs; cases hs
  have hmj : w.mask.getLsbD j = false := by
    rcases hb : w.mask.getLsbD j with _ | _
    · rfl
    · exact absurd hs' (Event.ne_zero_iff.2 ⟨j, by rw [BitVec.getLsbD_and, hb, hr]; rfl⟩)
  rw [encode_bit _ (by omega), hmj] at he
  rw [decodeGeneric_eq] at hg'
  have n1 : create ≠ 0 := by decide
  have n2 : remove ≠ 0 := by decide
  have n3 : write ≠ 0 := by decide
  have n4 : rename ≠ 0 := by decide
  have b20 : (j == 20) = false := by simp; omega
  simp only [Bool.false_and, Bool.false_or, Bool.or_eq_true, Bool.and_eq_true, beq_iff_eq] at he
  split at hg'
  · exact n1 hg'
  split at hg'
  · exact n2 hg'
  split at hg'
  · exact n3 hg'
  split at hg'
  · exact n4 hg'
  · next c1 c2 c3 c4 =>
    rcases he with ((he | he) | he) | he
    · exact c1 ⟨he.1, by rcases he.2 with rfl | rfl <;> simp [hr]⟩
    · exact c2 ⟨he.1, by rcases he.2 with rfl | rfl <;> simp [hr]⟩
    · exact c3 ⟨he.1, by obtain rfl := he.2; exact hr⟩
    · exact c4 ⟨he.1, by rcases he.2 with rfl | rfl <;> simp [hr]⟩

theorem pow_ne {k : Nat} (hk : k < 32) : BitVec.twoPow 32 k ≠ (0 : Event) :=
  Event.ne_zero_iff.2 ⟨k, by simp [hk]⟩

theorem pow_inj {j k : Nat} (hj : j < 32) (h : j ≠ k) : (BitVec.twoPow 32 j : Event) ≠ BitVec.twoPow 32 k := by
  intro he
  have := congrArg (fun v => BitVec.getLsbD v j) he
  have h2 : ¬ k = j := fun hh => h hh.symm
  simp [hj, h2] at this
  exact h2 this.symm

/-- The index of the portable event a kernel event stands for. -/
def genIdx (k : Nat) : Option Nat :=
  if k = 8 ∨ k = 7 then some 20 else if k = 9 ∨ k = 10 then some 21 else if k = 1 then some 22
  else if k = 6 ∨ k = 11 then some 23 else none

/-- The portable event of kernel event number `k`, if requested. -/
def genEv (k : Nat) (mask : Event) : Event :=
  match genIdx k with
  | none => 0
  | some g => if mask.getLsbD g = true then BitVec.twoPow 32 g else 0

/-- **C33, exactness.**  The kernel reports one event bit `b` (with or without IN_ISDIR) for a known
descriptor whose requested events Watch accepted.  For every event `E`: it is sent once if it was requested
and `b` is an `E`, otherwise not at all; its path is the watched path or the named entry in it, and it says
whether the object is a directory. -/
theorem C33_exact {m : Table} {r : Raw} {w : Watched} (hw : m.get? r.wd = some w)
    (ha : accepts w.mask = true) {b : Event} (hb : b ∈ kernelBits) (d : Bool)
    (hr : r.mask = b ||| (if d then 0x40000000 else 0)) :
    (∀ E, ((sent m [r]).filter (fun ei => decide (ei.event = E))).length =
      if E ⊑ w.mask ∧ (E, b) ∈ means then 1 else 0) ∧
    ∀ ei ∈ sent m [r], ei.path = (if r.name = [] then w.path else join w.path r.name) ∧ ei.isDir = some d := by
  obtain ⟨k, hk, rfl⟩ := kernelBits_pow hb
  have hbits : ∀ j < 32, r.mask.getLsbD j = (j == k || (d && j == 30)) := by
    intro j hj
    have h30 : ∀ j < 32, (0x40000000 : Event).getLsbD j = (j == 30) := by decide
    rw [hr, BitVec.getLsbD_or, BitVec.getLsbD_twoPow]
    have : (k < 32 && decide (k = j)) = (j == k) := by
      have : k < 32 := by omega
      by_cases hjk : j = k
      · subst hjk; simp [this]
      · have h1 : (j == k) = false := by simpa using hjk
        have h2 : ¬ k = j := fun h => hjk h.symm
        simp [h1, h2]
    rw [← this]
    cases d
    · simp
    · simp only [if_true, h30 j hj, Bool.true_and]
  have hmb : ∀ j < 32, w.mask.getLsbD j = true → j < 12 ∨ j = 20 ∨ j = 21 ∨ j = 22 ∨ j = 23 := by
    intro j hj hb
    have h1 : w.mask &^ (Platform.inotify.All ||| inAllEvents) = 0 := by simpa [accepts] using ha
    have h2 := congrArg (fun v => BitVec.getLsbD v j) h1
    simp only [Event.bit_andNot, hb, Bool.true_and] at h2
    have h3 : ∀ j < 32, (!(Platform.inotify.All ||| inAllEvents).getLsbD j) = (0 : Event).getLsbD j →
      j < 12 ∨ j = 20 ∨ j = 21 ∨ j = 22 ∨ j = 23 := by decide
    exact h3 j hj h2
  have hk0 : r.mask &&& (inIgnored ||| inQOverflow) = 0 := by
    rw [Event.bext]
    intro i
    by_cases h32 : i < 32
    · have hbits' : ∀ i < 32, (inIgnored ||| inQOverflow).getLsbD i = (i == 14 || i == 15) := by decide
      rw [BitVec.getLsbD_and, hbits i h32, hbits' i h32, show BitVec.getLsbD (0 : Event) i = false from Event.bit_zero i]
      by_cases h14 : i = 14
      · subst h14
        have : ((14 : Nat) == k) = false := by simp; omega
        simp [this]
      · by_cases h15 : i = 15
        · subst h15
          have : ((15 : Nat) == k) = false := by simp; omega
          simp [this]
        · simp [h14, h15]
    · rw [BitVec.getLsbD_of_ge _ _ (by omega), BitVec.getLsbD_of_ge _ _ (by omega)]
  have hsys : w.mask &&& r.mask = if w.mask.getLsbD k = true then BitVec.twoPow 32 k else 0 := by
    rw [Event.bext]
    intro i
    by_cases h32 : i < 32
    · rw [BitVec.getLsbD_and, hbits i h32]
      by_cases hik : i = k
      · subst hik
        by_cases hwk : w.mask.getLsbD i = true
        · simp [hwk, h32]
        · simp only [hwk, if_neg]; simp
      · have h1 : (i == k) = false := by simpa using hik
        have h2 : ¬ k = i := fun h => hik h.symm
        have h3 : (w.mask.getLsbD i && (d && i == 30)) = false := by
          rcases hwi : w.mask.getLsbD i with _ | _
          · rfl
          · have := hmb i h32 hwi
            have h30 : (i == 30) = false := by simp; omega
            simp [h30]
        rw [h1, Bool.false_or, h3]
        split <;> simp [h2]
    · rw [BitVec.getLsbD_of_ge _ _ (by omega), BitVec.getLsbD_of_ge _ _ (by omega)]
  have hdir : (decide (r.mask &&& inIsdir ≠ 0)) = d := by
    have h := and_pow r.mask (k := 30) (by decide)
    have he : inIsdir = BitVec.twoPow 32 30 := by decide
    rw [he]
    rw [hbits 30 (by decide)] at h
    have hk30 : ((30 : Nat) == k) = false := by simp; omega
    rw [hk30] at h
    cases d
    · simpa using h
    · simpa using h
  have h30 : ∀ j, j ≠ 30 → j < 32 → r.mask.getLsbD j = (j == k) := by
    intro j hj hj'
    have : (j == 30) = false := by simpa using hj
    rw [hbits j hj', this]; simp
  have hc : create = BitVec.twoPow 32 20 := by decide
  have hrm : remove = BitVec.twoPow 32 21 := by decide
  have hwr : write = BitVec.twoPow 32 22 := by decide
  have hn : rename = BitVec.twoPow 32 23 := by decide
  have hgen : decodeGeneric w.mask r.mask = genEv k w.mask := by
    rw [decodeGeneric_eq, h30 8 (by decide) (by decide), h30 7 (by decide) (by decide),
      h30 9 (by decide) (by decide), h30 10 (by decide) (by decide), h30 1 (by decide) (by decide),
      h30 6 (by decide) (by decide), h30 11 (by decide) (by decide)]
    obtain rfl | rfl | rfl | rfl | rfl | rfl | rfl | rfl | rfl | rfl | rfl | rfl :
      k = 0 ∨ k = 1 ∨ k = 2 ∨ k = 3 ∨ k = 4 ∨ k = 5 ∨ k = 6 ∨ k = 7 ∨ k = 8 ∨ k = 9 ∨ k = 10 ∨ k = 11 := by omega
    all_goals simp [genEv, genIdx, hc, hrm, hwr, hn]
  have henc : w.mask.getLsbD k = true ∨ genEv k w.mask ≠ 0 → r.mask &&& encode w.mask ≠ 0 := by
    intro h
    apply Event.ne_zero_iff.2
    refine ⟨k, ?_⟩
    rw [BitVec.getLsbD_and, h30 k (by omega) (by omega), encode_bit _ (by omega)]
    obtain rfl | rfl | rfl | rfl | rfl | rfl | rfl | rfl | rfl | rfl | rfl | rfl :
      k = 0 ∨ k = 1 ∨ k = 2 ∨ k = 3 ∨ k = 4 ∨ k = 5 ∨ k = 6 ∨ k = 7 ∨ k = 8 ∨ k = 9 ∨ k = 10 ∨ k = 11 := by omega
    all_goals simp [genEv, genIdx] at h ⊢
    all_goals grind
  have hsent : sent m [r] = (if genEv k w.mask = 0 then [] else
      [mkInfo (genEv k w.mask) (if r.name = [] then w.path else join w.path r.name) r]) ++
      (if w.mask.getLsbD k = true then
        [mkInfo (BitVec.twoPow 32 k) (if r.name = [] then w.path else join w.path r.name) r] else []) := by
    rw [sent_known hw hk0, hgen, hsys]
    by_cases h : w.mask.getLsbD k = true ∨ genEv k w.mask ≠ 0
    · rw [if_neg (henc h)]
      congr 1
      by_cases hwk : w.mask.getLsbD k = true
      · rw [if_pos hwk, if_neg, if_pos hwk]
        have := (and_pow (BitVec.twoPow 32 k) (k := k) (by omega)).2 (by simp; omega)
        simpa using this
      · rw [if_neg hwk, if_pos rfl, if_neg hwk]
    · have h1 : ¬ w.mask.getLsbD k = true := fun hh => h (Or.inl hh)
      have h2 : genEv k w.mask = 0 := Classical.byContradiction fun hh => h (Or.inr hh)
      rw [if_neg h1, if_neg h1, if_pos h2, if_pos rfl]
      split <;> rfl
  refine ⟨fun E => ?_, fun ei hei => ?_⟩
  · rw [hsent]
    generalize (if r.name = [] then w.path else join w.path r.name) = pth
    have hpk : BitVec.twoPow 32 k ≠ (0 : Event) := pow_ne (by omega)
    have hmi : meansIdx k = k :: (genIdx k).toList := by
      unfold meansIdx genIdx
      grind [Option.toList]
    have hM : (E ⊑ w.mask ∧ (E, BitVec.twoPow 32 k) ∈ means) ↔
        (E = BitVec.twoPow 32 k ∧ w.mask.getLsbD k = true) ∨
        ∃ g, genIdx k = some g ∧ E = BitVec.twoPow 32 g ∧ w.mask.getLsbD g = true := by
      rw [means_iff hk]
      constructor
      · rintro ⟨hs, j, hj, rfl⟩
        have hbit := (sub_pow _ (meansIdx_lt hk hj)).1 hs
        rw [hmi] at hj
        rcases List.mem_cons.1 hj with rfl | hj
        · exact Or.inl ⟨rfl, hbit⟩
        · rcases hg : genIdx k with _ | g
          · rw [hg] at hj; cases hj
          · rw [hg] at hj
            obtain rfl := List.mem_singleton.1 hj
            exact Or.inr ⟨_, rfl, rfl, hbit⟩
      · rintro (⟨rfl, hb⟩ | ⟨g, hg, rfl, hb⟩)
        · exact ⟨(sub_pow _ (by omega)).2 hb, k, by rw [hmi]; exact List.mem_cons_self, rfl⟩
        · have hj : g ∈ meansIdx k := by rw [hmi, hg]; simp
          exact ⟨(sub_pow _ (meansIdx_lt hk hj)).2 hb, g, hj, rfl⟩
    rcases hg : genIdx k with _ | g
    · rw [hg] at hM
      have h0 : genEv k w.mask = 0 := by unfold genEv; rw [hg]
      rw [if_pos h0]
      by_cases hwk : w.mask.getLsbD k = true
      · rw [if_pos hwk]
        by_cases hE : E = BitVec.twoPow 32 k
        · rw [if_pos (hM.2 (Or.inl ⟨hE, hwk⟩))]; simp [hE, mkInfo]
        · rw [if_neg (by rw [hM]; simp [hE])]; simp [mkInfo, Ne.symm hE]
      · rw [if_neg hwk, if_neg (by rw [hM]; simp [hwk])]; rfl
    · rw [hg] at hM
      have hg20 : 20 ≤ g ∧ g < 24 := by
        unfold genIdx at hg
        grind
      have hpg : BitVec.twoPow 32 g ≠ (0 : Event) := pow_ne (by omega)
      have hne : (BitVec.twoPow 32 g : Event) ≠ BitVec.twoPow 32 k := pow_inj (by omega) (by omega)
      have hne' := Ne.symm hne
      have h0 : genEv k w.mask = if w.mask.getLsbD g = true then BitVec.twoPow 32 g else 0 := by
        unfold genEv; rw [hg]
      have hM' : (E ⊑ w.mask ∧ (E, BitVec.twoPow 32 k) ∈ means) ↔
          (E = BitVec.twoPow 32 k ∧ w.mask.getLsbD k = true) ∨ (E = BitVec.twoPow 32 g ∧ w.mask.getLsbD g = true) := by
        rw [hM]; simp
      rw [h0]
      by_cases hwk : w.mask.getLsbD k = true <;> by_cases hwg : w.mask.getLsbD g = true
      · rw [if_pos hwg, if_neg hpg, if_pos hwk]
        by_cases hE : E = BitVec.twoPow 32 k
        · rw [if_pos (hM'.2 (Or.inl ⟨hE, hwk⟩))]; simp [hE, mkInfo, hne]
        · by_cases hE' : E = BitVec.twoPow 32 g
          · rw [if_pos (hM'.2 (Or.inr ⟨hE', hwg⟩))]; simp [hE', mkInfo, hne']
          · rw [if_neg (by rw [hM']; simp [hE, hE'])]; simp [mkInfo, Ne.symm hE, Ne.symm hE']
      · rw [if_neg hwg, if_pos rfl, if_pos hwk]
        by_cases hE : E = BitVec.twoPow 32 k
        · rw [if_pos (hM'.2 (Or.inl ⟨hE, hwk⟩))]; simp [hE, mkInfo]
        · rw [if_neg (by rw [hM']; simp [hE, hwg])]; simp [mkInfo, Ne.symm hE]
      · rw [if_pos hwg, if_neg hpg, if_neg hwk]
        by_cases hE' : E = BitVec.twoPow 32 g
        · rw [if_pos (hM'.2 (Or.inr ⟨hE', hwg⟩))]; simp [hE', mkInfo]
        · rw [if_neg (by rw [hM']; simp [hE', hwk])]; simp [mkInfo, Ne.symm hE']
      · rw [if_neg hwg, if_pos rfl, if_neg hwk, if_neg (by rw [hM']; simp [hwk, hwg])]; rfl
  · rw [hsent] at hei
    have : ∃ x, ei = mkInfo x (if r.name = [] then w.path else join w.path r.name) r := by
      rcases List.mem_append.1 hei with h | h
      · split at h
        · cases h
        · exact ⟨_, List.mem_singleton.1 h⟩
      · split at h
        · exact ⟨_, List.mem_singleton.1 h⟩
        · cases h
    obtain ⟨x, rfl⟩ := this
    exact ⟨rfl, by simp only [mkInfo, hdir]⟩

/-- A watch on `/d` for Create and InMovedTo: the kernel's IN_MOVED_TO for the entry `x`, a directory, gives
both events, and IN_DELETE gives none. -/
example :
    sent [(7, ⟨[['d']], 0x100080⟩)] [{ wd := 7, mask := 0x40000080, name := ['x'] }, { wd := 7, mask := 0x200 }] =
      [{ event := 0x100000, path := [['d'], ['x']], isDir := some true },
       { event := 0x80, path := [['d'], ['x']], isDir := some true }] := by decide

/-! ### C34 -/

theorem le32_bytes {n : Nat} (h : n < 2 ^ 32) : le32 (bytes32 n) = n := by
  simp only [le32, bytes32, UInt8.toNat_ofNat']
  omega

theorem trimNul_pad {b : List UInt8} (h : (0 : UInt8) ∉ b) (k : Nat) : trimNul (b ++ List.replicate k 0) = b := by
  unfold trimNul
  rw [List.reverse_append, List.reverse_replicate, List.dropWhile_append]
  have h1 : (List.replicate k (0 : UInt8)).dropWhile (· == 0) = [] := by
    induction k with
    | zero => rfl
    | succ k ih => simpa [List.replicate_succ] using ih
  rw [h1]
  simp only [List.isEmpty_nil, if_true]
  have h2 : b.reverse.dropWhile (· == 0) = b.reverse := by
    rcases hb : b.reverse with _ | ⟨x, l⟩
    · rfl
    · have hx : x ∈ b := by rw [← List.mem_reverse, hb]; exact List.mem_cons_self
      have : (x == 0) = false := by
        simp only [beq_eq_false_iff_ne]; rintro rfl; exact h hx
      simp [List.dropWhile_cons, this]
  rw [h2, List.reverse_reverse]

/-- What the reader should make of a record. -/
def Raw.ofRecord (r : Record) : Raw :=
  { wd := r.wd, mask := r.mask, cookie := r.cookie, name := r.name.map (fun x => Char.ofNat x.toNat) }

theorem bytes32_length (n : Nat) : (bytes32 n).length = 4 := rfl

theorem record_length (r : Record) : r.bytes.length = 16 + (r.name.length + r.pad) := by
  simp [Record.bytes, bytes32_length]; omega

/-- Reading four bytes at a known place. -/
theorem take_drop_at {α : Type} {a b c : List α} {i n : Nat} (hi : a.length = i) (hn : b.length = n) :
    ((a ++ b ++ c).drop i).take n = b := by
  subst hi hn
  rw [List.append_assoc, List.drop_left, List.take_left]

theorem readLoop_records (recs : List Record) (hok : ∀ r ∈ recs, r.Ok) (a tail : List UInt8) :
    readLoop (a ++ recs.flatMap Record.bytes ++ tail) (a.length + (recs.flatMap Record.bytes).length) a.length =
      some (recs.map Raw.ofRecord) := by
  induction recs generalizing a with
  | nil =>
    rw [readLoop, if_neg (by simp)]; rfl
  | cons r recs ih =>
    have hr := hok r List.mem_cons_self
    have hlen := record_length r
    rw [readLoop]
    rw [if_pos (by simp only [List.flatMap_cons, List.length_append, hlen]; omega),
      if_pos (by simp only [List.flatMap_cons, List.length_append, hlen]; omega)]
    -- the pieces of the buffer
    have hbuf : a ++ List.flatMap Record.bytes (r :: recs) ++ tail =
        a ++ bytes32 r.wd ++ bytes32 r.mask.toNat ++ bytes32 r.cookie ++ bytes32 (r.name.length + r.pad) ++
          (r.name ++ List.replicate r.pad 0) ++ (recs.flatMap Record.bytes ++ tail) := by
      simp [Record.bytes, List.append_assoc]
    have d1 : ((a ++ List.flatMap Record.bytes (r :: recs) ++ tail).drop a.length).take 4 = bytes32 r.wd := by
      rw [hbuf]; simp only [List.append_assoc]; rw [← List.append_assoc]
      exact take_drop_at rfl rfl
    have d2 : ((a ++ List.flatMap Record.bytes (r :: recs) ++ tail).drop (a.length + 4)).take 4 = bytes32 r.mask.toNat := by
      rw [hbuf]
      have : a ++ bytes32 r.wd ++ bytes32 r.mask.toNat ++ bytes32 r.cookie ++ bytes32 (r.name.length + r.pad) ++
          (r.name ++ List.replicate r.pad 0) ++ (recs.flatMap Record.bytes ++ tail) =
          (a ++ bytes32 r.wd) ++ bytes32 r.mask.toNat ++ (bytes32 r.cookie ++ bytes32 (r.name.length + r.pad) ++
          (r.name ++ List.replicate r.pad 0) ++ (recs.flatMap Record.bytes ++ tail)) := by simp [List.append_assoc]
      rw [this]
      exact take_drop_at (by simp [bytes32_length]) rfl
    have d3 : ((a ++ List.flatMap Record.bytes (r :: recs) ++ tail).drop (a.length + 8)).take 4 = bytes32 r.cookie := by
      rw [hbuf]
      have : a ++ bytes32 r.wd ++ bytes32 r.mask.toNat ++ bytes32 r.cookie ++ bytes32 (r.name.length + r.pad) ++
          (r.name ++ List.replicate r.pad 0) ++ (recs.flatMap Record.bytes ++ tail) =
          (a ++ bytes32 r.wd ++ bytes32 r.mask.toNat) ++ bytes32 r.cookie ++ (bytes32 (r.name.length + r.pad) ++
          (r.name ++ List.replicate r.pad 0) ++ (recs.flatMap Record.bytes ++ tail)) := by simp [List.append_assoc]
      rw [this]
      exact take_drop_at (by simp [bytes32_length]) rfl
    have d4 : ((a ++ List.flatMap Record.bytes (r :: recs) ++ tail).drop (a.length + 12)).take 4 =
        bytes32 (r.name.length + r.pad) := by
      rw [hbuf]
      have : a ++ bytes32 r.wd ++ bytes32 r.mask.toNat ++ bytes32 r.cookie ++ bytes32 (r.name.length + r.pad) ++
          (r.name ++ List.replicate r.pad 0) ++ (recs.flatMap Record.bytes ++ tail) =
          (a ++ bytes32 r.wd ++ bytes32 r.mask.toNat ++ bytes32 r.cookie) ++ bytes32 (r.name.length + r.pad) ++
          ((r.name ++ List.replicate r.pad 0) ++ (recs.flatMap Record.bytes ++ tail)) := by simp [List.append_assoc]
      rw [this]
      exact take_drop_at (by simp [bytes32_length]) rfl
    have d5 : ((a ++ List.flatMap Record.bytes (r :: recs) ++ tail).drop (a.length + 16)).take (r.name.length + r.pad) =
        r.name ++ List.replicate r.pad 0 := by
      rw [hbuf]
      exact take_drop_at (by simp [bytes32_length]) (by simp)
    have l4 := le32_bytes hr.len
    simp only [d1, d2, d3, d4, d5, l4, le32_bytes hr.wd, le32_bytes hr.cookie,
      le32_bytes (show r.mask.toNat < 2 ^ 32 from r.mask.isLt), trimNul_pad hr.name]
    rw [if_pos (by simp only [List.flatMap_cons, List.length_append, hlen]; omega)]
    have ih' := ih (fun x hx => hok x (List.mem_cons_of_mem _ hx)) (a ++ r.bytes)
    have e1 : a ++ r.bytes ++ recs.flatMap Record.bytes ++ tail = a ++ List.flatMap Record.bytes (r :: recs) ++ tail := by
      simp [List.append_assoc]
    have e2 : (a ++ r.bytes).length = a.length + 16 + (r.name.length + r.pad) := by
      rw [List.length_append, hlen]; omega
    have e3 : (a ++ r.bytes).length + (recs.flatMap Record.bytes).length =
        a.length + (List.flatMap Record.bytes (r :: recs)).length := by
      simp only [List.flatMap_cons, List.length_append]; omega
    rw [e1, e3, e2] at ih'
    rw [ih']
    simp only [Option.map_some, List.map_cons, Option.some.injEq, List.cons.injEq, and_true]
    have hname : (if r.name.length + r.pad > 0 then chars r.name else []) = r.name.map (fun x => Char.ofNat x.toNat) := by
      split
      · rfl
      · have : r.name = [] := List.length_eq_zero_iff.1 (by omega)
        rw [this]; rfl
    rw [hname]
    simp only [Raw.ofRecord, BitVec.ofNat_toNat, BitVec.setWidth_eq]

/-- **C34.**  If the kernel fills the beginning of the buffer with any sequence of records, with any padding
of the names, and whatever the rest of the buffer contains, the reader stays within the buffer and returns
exactly these records with their unpadded names, in order. -/
theorem C34_parse (recs : List Record) (hok : ∀ r ∈ recs, r.Ok) (tail : List UInt8) :
    read (recs.flatMap Record.bytes ++ tail) (recs.flatMap Record.bytes).length = some (recs.map Raw.ofRecord) := by
  unfold read
  rcases recs with _ | ⟨r, recs⟩
  · rfl
  · rw [if_neg (by simp only [List.flatMap_cons, List.length_append, record_length]; omega)]
    have := readLoop_records (r :: recs) hok [] tail
    simpa using this

/-- **C34, buffer size.**  The buffer holds 64 records with names of PATH_MAX bytes, so also the longest
record of the kernel (NAME_MAX is 255, names are padded by at most 16 bytes). -/
theorem C34_fits (recs : List Record) (hn : recs.length ≤ 64) (hl : ∀ r ∈ recs, r.name.length + r.pad ≤ 4097) :
    (recs.flatMap Record.bytes).length ≤ eventBufferSize := by
  have : (recs.flatMap Record.bytes).length ≤ recs.length * (16 + 4096 + 1) := by
    clear hn
    induction recs with
    | nil => simp
    | cons r recs ih =>
      have h1 := hl r List.mem_cons_self
      have h2 := ih (fun x hx => hl x (List.mem_cons_of_mem _ hx))
      simp only [List.flatMap_cons, List.length_append, record_length, List.length_cons]
      omega
  refine Nat.le_trans this ?_
  exact Nat.mul_le_mul_right _ hn

/-- Two records, one with a padded name. -/
example : ∃ r1 r2 : Record, r1.Ok ∧ r2.Ok ∧ r1.name.length = 1 ∧ r1.pad = 15 ∧ r2.pad = 0 ∧
    ([r1, r2].flatMap Record.bytes).length = 48 :=
  ⟨⟨1, 0x100, 0, [120], 15⟩, ⟨2, 0x400, 0, [], 0⟩, ⟨by decide, by decide, by decide, by decide⟩,
    ⟨by decide, by decide, by decide, by decide⟩, rfl, rfl, rfl, by decide⟩

end Inotify
end Verif
