/-
C64: the buffer of the Windows watcher.
-/
import Verif.ReaddcwBuf
import Verif.PropsInotify

namespace Verif
namespace Dcw
open Inotify (le32 le32_bytes take_drop_at bytes32_length)
open Spec.Inotify (bytes32)

/-! ### Specification: FILE_NOTIFY_INFORMATION (winnt.h) -/

/-- A change as the kernel writes it: the action, the name in UTF-16, and the number of bytes between the end of the name and the
next record. -/
structure Entry where
  action : Nat
  name : List Nat
  pad : Nat

/-- What the kernel guarantees: fields of 32 bits, units of 16 bits, no zero unit in a name. -/
structure Entry.Ok (r : Entry) : Prop where
  action : r.action < 2 ^ 32
  size : 12 + 2 * r.name.length + r.pad < 2 ^ 32
  name : ∀ u ∈ r.name, u ≠ 0 ∧ u < 2 ^ 16

/-- One unit as two bytes, little endian. -/
def bytes16 (u : Nat) : List UInt8 := [UInt8.ofNat u, UInt8.ofNat (u / 256)]

/-- The bytes of a record: offset of the next record, or 0; action; length of the name in bytes; name; padding. -/
def Entry.bytes (r : Entry) (last : Bool) : List UInt8 :=
  bytes32 (if last then 0 else 12 + 2 * r.name.length + r.pad) ++ bytes32 r.action ++ bytes32 (2 * r.name.length) ++
    r.name.flatMap bytes16 ++ List.replicate r.pad 0

/-- The bytes of a sequence of records. -/
def entriesBytes : List Entry → List UInt8
  | [] => []
  | [r] => r.bytes true
  | r :: l => r.bytes false ++ entriesBytes l

/-! ### Proof -/

theorem flat16_length (l : List Nat) : (l.flatMap bytes16).length = 2 * l.length := by
  induction l with
  | nil => rfl
  | cons a l ih => simp only [List.flatMap_cons, List.length_append, ih, List.length_cons, bytes16, List.length_nil]; omega

theorem entry_length (r : Entry) (last : Bool) : (r.bytes last).length = 12 + 2 * r.name.length + r.pad := by
  simp only [Entry.bytes, List.length_append, bytes32_length, flat16_length, List.length_replicate]

theorem units_flat {l : List Nat} (h : ∀ u ∈ l, u < 2 ^ 16) : units (l.flatMap bytes16) = l := by
  induction l with
  | nil => rfl
  | cons a l ih =>
    simp only [List.flatMap_cons, bytes16, List.cons_append, List.nil_append, units,
      ih (fun u hu => h u (List.mem_cons_of_mem _ hu)), List.cons.injEq, and_true, UInt8.toNat_ofNat']
    have := h a List.mem_cons_self
    omega

theorem takeWhile_all {l : List Nat} (h : ∀ u ∈ l, u ≠ 0) : l.takeWhile (· ≠ 0) = l := by
  induction l with
  | nil => rfl
  | cons a l ih =>
    rw [List.takeWhile_cons, if_pos (by simpa using h a List.mem_cons_self), ih (fun u hu => h u (List.mem_cons_of_mem _ hu))]

/-- One step of the loop at a record. -/
theorem loopevent_at (mx : Nat) (r : Entry) (last : Bool) (hr : r.Ok) (hm : r.name.length ≤ mx) (a t : List UInt8) (n : Nat) :
    loopevent mx (a ++ r.bytes last ++ t) n a.length =
      if last = true then some [⟨r.action, r.name⟩]
      else if n ≤ a.length + (12 + 2 * r.name.length + r.pad) then some [⟨r.action, r.name⟩]
      else (loopevent mx (a ++ r.bytes last ++ t) n (a.length + (12 + 2 * r.name.length + r.pad))).map (⟨r.action, r.name⟩ :: ·) := by
  have hlen := entry_length r last
  have hn := hr.size
  have ha := hr.action
  generalize hnx : (if last then 0 else 12 + 2 * r.name.length + r.pad) = nx
  have hnx2 : nx < 2 ^ 32 := by subst hnx; split <;> omega
  have e0 : a ++ r.bytes last ++ t = a ++ bytes32 nx ++ (bytes32 r.action ++ bytes32 (2 * r.name.length) ++
      r.name.flatMap bytes16 ++ List.replicate r.pad 0 ++ t) := by simp [Entry.bytes, hnx, List.append_assoc]
  have e1 : a ++ r.bytes last ++ t = (a ++ bytes32 nx) ++ bytes32 r.action ++ (bytes32 (2 * r.name.length) ++
      r.name.flatMap bytes16 ++ List.replicate r.pad 0 ++ t) := by simp [Entry.bytes, hnx, List.append_assoc]
  have e2 : a ++ r.bytes last ++ t = (a ++ bytes32 nx ++ bytes32 r.action) ++ bytes32 (2 * r.name.length) ++
      (r.name.flatMap bytes16 ++ List.replicate r.pad 0 ++ t) := by simp [Entry.bytes, hnx, List.append_assoc]
  have e3 : a ++ r.bytes last ++ t = (a ++ bytes32 nx ++ bytes32 r.action ++ bytes32 (2 * r.name.length)) ++
      r.name.flatMap bytes16 ++ (List.replicate r.pad 0 ++ t) := by simp [Entry.bytes, hnx, List.append_assoc]
  have d0 : ((a ++ r.bytes last ++ t).drop a.length).take 4 = bytes32 nx := by
    rw [e0]; exact take_drop_at rfl rfl
  have d1 : ((a ++ r.bytes last ++ t).drop (a.length + 4)).take 4 = bytes32 r.action := by
    rw [e1]; exact take_drop_at (by simp [bytes32_length]) rfl
  have d2 : ((a ++ r.bytes last ++ t).drop (a.length + 8)).take 4 = bytes32 (2 * r.name.length) := by
    rw [e2]; exact take_drop_at (by simp [bytes32_length]) rfl
  have d3 : ((a ++ r.bytes last ++ t).drop (a.length + 12)).take (2 * r.name.length) = r.name.flatMap bytes16 := by
    rw [e3]; exact take_drop_at (by simp [bytes32_length]) (flat16_length _)
  have hl : (a ++ r.bytes last ++ t).length = a.length + (12 + 2 * r.name.length + r.pad) + t.length := by
    simp only [List.length_append, hlen]
  rw [loopevent]
  rw [if_pos (by omega)]
  simp only [d0, d1, d2, le32_bytes hnx2, le32_bytes ha, le32_bytes (show 2 * r.name.length < 2 ^ 32 by omega)]
  rw [show 2 * r.name.length / 2 = r.name.length by omega, d3, units_flat (fun u hu => (hr.name u hu).2),
    takeWhile_all (fun u hu => (hr.name u hu).1), if_pos ⟨hm, by omega⟩]
  cases last with
  | true => simp only [if_true] at hnx ⊢; subst hnx; simp
  | false =>
    simp only [Bool.false_eq_true, if_false] at hnx ⊢
    subst hnx
    rw [dif_neg (by omega)]
    by_cases h : n ≤ a.length + (12 + 2 * r.name.length + r.pad)
    · rw [dif_pos h, if_pos h]
    · rw [dif_neg h, if_neg h]

theorem entriesBytes_pos {l : List Entry} (h : l ≠ []) : 12 ≤ (entriesBytes l).length := by
  match l with
  | [r] => simp only [entriesBytes, entry_length]; omega
  | r :: r2 :: l => simp only [entriesBytes, List.length_append, entry_length]; omega

theorem loopevent_entries (mx : Nat) (l : List Entry) (hne : l ≠ []) (hok : ∀ r ∈ l, r.Ok ∧ r.name.length ≤ mx)
    (a t : List UInt8) :
    loopevent mx (a ++ entriesBytes l ++ t) (a.length + (entriesBytes l).length) a.length =
      some (l.map (fun r => ⟨r.action, r.name⟩)) := by
  induction l generalizing a with
  | nil => exact absurd rfl hne
  | cons r l ih =>
    have hr := hok r List.mem_cons_self
    match l with
    | [] =>
      simp only [entriesBytes]
      rw [loopevent_at mx r true hr.1 hr.2]
      simp
    | r2 :: l =>
      have hp := entriesBytes_pos (l := r2 :: l) (by simp)
      have e : a ++ entriesBytes (r :: r2 :: l) ++ t = a ++ r.bytes false ++ (entriesBytes (r2 :: l) ++ t) := by
        simp [entriesBytes, List.append_assoc]
      have el : (entriesBytes (r :: r2 :: l)).length = 12 + 2 * r.name.length + r.pad + (entriesBytes (r2 :: l)).length := by
        simp only [entriesBytes, List.length_append, entry_length]
      rw [e, loopevent_at mx r false hr.1 hr.2, if_neg (by simp), if_neg (by omega)]
      have := ih (by simp) (fun x hx => hok x (List.mem_cons_of_mem _ hx)) (a ++ r.bytes false)
      rw [List.length_append, entry_length] at this
      rw [show a ++ r.bytes false ++ (entriesBytes (r2 :: l) ++ t) = a ++ r.bytes false ++ entriesBytes (r2 :: l) ++ t by
        simp [List.append_assoc], el, ← Nat.add_assoc, this]
      rfl

/-- A name is shorter than the records around it. -/
theorem name_le {l : List Entry} {r : Entry} (hr : r ∈ l) : 12 + 2 * r.name.length ≤ (entriesBytes l).length := by
  induction l with
  | nil => cases hr
  | cons x l ih =>
    match l with
    | [] => rw [List.mem_singleton.1 hr]; simp only [entriesBytes, entry_length]; omega
    | x2 :: l =>
      simp only [entriesBytes, List.length_append, entry_length]
      rcases List.mem_cons.1 hr with rfl | hr
      · omega
      · have := ih hr
        omega

/-- **C64.**  If the kernel fills the beginning of the buffer with any non-empty sequence of changes that fits, whatever the rest of the
buffer contains, the watcher stays within the buffer and gets exactly these changes with their names, in order.  The array through which the code looks at names
needs 2042 elements; `syscall.MAX_LONG_PATH` is 32768. -/
theorem C64_parse (maxLong : Nat) (hmax : 2042 ≤ maxLong) (l : List Entry) (hne : l ≠ []) (hok : ∀ r ∈ l, r.Ok)
    (rest : List UInt8) (hfit : (entriesBytes l ++ rest).length = readBufferSize) :
    loopevent maxLong (entriesBytes l ++ rest) (entriesBytes l).length 0 = some (l.map (fun r => ⟨r.action, r.name⟩)) := by
  have := loopevent_entries maxLong l hne (fun r hr => ⟨hok r hr, by
    have := name_le hr
    simp only [List.length_append, readBufferSize] at hfit
    omega⟩) [] rest
  simpa using this

/-- **C64, why the array must be that long.**  A change of a file with a name longer than the array makes the watcher panic, wherever it is in the buffer. -/
theorem C64_long (maxLong : Nat) (l1 l2 : List Entry) (r : Entry) (hok : ∀ x ∈ l1 ++ r :: l2, x.Ok)
    (hl1 : ∀ x ∈ l1, x.name.length ≤ maxLong) (hlong : maxLong < r.name.length) (rest : List UInt8) :
    loopevent maxLong (entriesBytes (l1 ++ r :: l2) ++ rest) (entriesBytes (l1 ++ r :: l2)).length 0 = none := by
  have key : ∀ (l1 : List Entry) (a : List UInt8), (∀ x ∈ l1 ++ r :: l2, x.Ok) → (∀ x ∈ l1, x.name.length ≤ maxLong) →
      loopevent maxLong (a ++ entriesBytes (l1 ++ r :: l2) ++ rest) (a.length + (entriesBytes (l1 ++ r :: l2)).length) a.length =
        none := by
    intro l1
    induction l1 with
    | nil =>
      intro a hok _
      have hr := hok r (by simp)
      have hsz := hr.size
      obtain ⟨last, t, ht⟩ : ∃ last t, entriesBytes (r :: l2) = r.bytes last ++ t := by
        cases l2 with
        | nil => exact ⟨true, [], by simp [entriesBytes]⟩
        | cons x l2 => exact ⟨false, _, rfl⟩
      rw [List.nil_append, ht, loopevent]
      split
      · have e2 : a ++ (r.bytes last ++ t) ++ rest = (a ++ bytes32 (if last then 0 else 12 + 2 * r.name.length + r.pad) ++
            bytes32 r.action) ++ bytes32 (2 * r.name.length) ++
            (r.name.flatMap bytes16 ++ List.replicate r.pad 0 ++ t ++ rest) := by simp [Entry.bytes, List.append_assoc]
        have d2 : ((a ++ (r.bytes last ++ t) ++ rest).drop (a.length + 8)).take 4 = bytes32 (2 * r.name.length) := by
          rw [e2]; exact take_drop_at (by simp [bytes32_length]) rfl
        simp only [d2, le32_bytes (show 2 * r.name.length < 2 ^ 32 by omega)]
        rw [if_neg (by omega)]
      · rfl
    | cons x l1 ih =>
      intro a hok hl1
      obtain ⟨y, l3, hy⟩ : ∃ y l3, l1 ++ r :: l2 = y :: l3 := by cases l1 <;> simp
      have hp := entriesBytes_pos (l := l1 ++ r :: l2) (by simp)
      have hb : entriesBytes (x :: l1 ++ r :: l2) = x.bytes false ++ entriesBytes (l1 ++ r :: l2) := by
        rw [List.cons_append, hy]; rfl
      have e : a ++ entriesBytes (x :: l1 ++ r :: l2) ++ rest = a ++ x.bytes false ++ (entriesBytes (l1 ++ r :: l2) ++ rest) := by
        rw [hb]; simp [List.append_assoc]
      have el : (entriesBytes (x :: l1 ++ r :: l2)).length =
          12 + 2 * x.name.length + x.pad + (entriesBytes (l1 ++ r :: l2)).length := by
        rw [hb, List.length_append, entry_length]
      rw [e, loopevent_at maxLong x false (hok x (by simp)) (hl1 x List.mem_cons_self), if_neg (by simp), if_neg (by omega)]
      have := ih (a ++ x.bytes false) (fun z hz => hok z (List.mem_cons_of_mem _ hz)) (fun z hz => hl1 z (List.mem_cons_of_mem _ hz))
      rw [List.length_append, entry_length] at this
      rw [show a ++ x.bytes false ++ (entriesBytes (l1 ++ r :: l2) ++ rest) = a ++ x.bytes false ++ entriesBytes (l1 ++ r :: l2) ++ rest by
        simp [List.append_assoc], el, ← Nat.add_assoc, this]
      rfl
  simpa using key l1 [] hok hl1

/-- Two changes: a file was renamed. -/
example : ∃ (r1 r2 : Entry) (rest : List UInt8), r1.Ok ∧ r2.Ok ∧ r1.action = 4 ∧ r2.action = 5 ∧
    (entriesBytes [r1, r2] ++ rest).length = readBufferSize ∧ (entriesBytes [r1, r2]).take 4 = [16, 0, 0, 0] :=
  ⟨⟨4, [97], 2⟩, ⟨5, [98, 99], 0⟩, List.replicate 4064 7, ⟨by decide, by decide, by decide⟩, ⟨by decide, by decide, by decide⟩, rfl, rfl,
    by rw [List.length_append, List.length_replicate]; decide, by decide⟩

/-- With a limit of 1024 units, a name of 1025 units is a name as the kernel may report it, and the record fits into the buffer. -/
example : ∃ r : Entry, r.Ok ∧ 1024 < r.name.length ∧ (r.bytes true).length ≤ readBufferSize := by
  have hl : ∀ k, (⟨1, List.replicate k 97, 2⟩ : Entry).name.length = k := fun k => List.length_replicate
  refine ⟨⟨1, List.replicate 1025 97, 2⟩, ⟨Nat.lt_of_sub_pos (by decide), ?_, ?_⟩, ?_, ?_⟩
  · rw [hl]; decide
  · intro u hu
    have := (List.mem_replicate.1 hu).2
    subst this
    decide
  · rw [hl]; decide
  · rw [entry_length, hl]; decide

end Dcw
end Verif
