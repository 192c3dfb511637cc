/-
C104: names and paths on Windows.
-/
import Verif.Utf16
import Verif.GoMap

namespace Verif
namespace Utf16

/-! ### Specification -/

/-- A text: Unicode characters without zero. -/
def Text (s : List GoCh) : Prop := ∀ x ∈ s, ∃ c : Char, c ≠ '\x00' ∧ x = .ch c

/-- A name as NTFS allows it: any units of 16 bits without zero, paired surrogates or not. -/
def Name (l : List Nat) : Prop := ∀ u ∈ l, u ≠ 0 ∧ u < 2 ^ 16

/-- The UTF-16 encoding form of a text (The Unicode Standard, D91): one unit per character of the Basic Multilingual Plane, otherwise two surrogates
with ten bits each. -/
inductive Form : List GoCh → List Nat → Prop
  | nil : Form [] []
  | bmp {s l} (c : Char) : c.toNat < 0x10000 → Form s l → Form (.ch c :: s) (c.toNat :: l)
  | pair {s l} (c : Char) (hi lo : Nat) : hi < 1024 → lo < 1024 → c.toNat = 0x10000 + 1024 * hi + lo → Form s l →
      Form (.ch c :: s) ((0xd800 + hi) :: (0xdc00 + lo) :: l)

/-! ### Proof -/

theorem chr_char (c : Char) : chr c.toNat = .ch c := by
  unfold chr
  rw [if_pos (by exact c.valid)]
  simp

theorem char_range (c : Char) : c.toNat < 0xd800 ∨ 0xe000 ≤ c.toNat ∧ c.toNat < 0x110000 := by
  have := c.valid
  rcases this with h | ⟨h1, h2⟩
  · exact .inl h
  · exact .inr ⟨by have : (0xdfff : Nat) < c.toNat := h1; omega, h2⟩

theorem isValid {n : Nat} (h : n < 0xd800 ∨ 0xe000 ≤ n ∧ n < 0x110000) : n.isValidChar := by
  rcases h with h | ⟨h1, h2⟩
  · exact .inl h
  · exact .inr ⟨by omega, h2⟩

theorem toNat_ofNat {n : Nat} (h : n < 0xd800 ∨ 0xe000 ≤ n ∧ n < 0x110000) : (Char.ofNat n).toNat = n := by
  simp [Char.ofNat, isValid h, Char.ofNatAux, Char.toNat]

theorem decode_unit (wtf : Bool) {u : Nat} (h : u < 0xd800 ∨ 0xe000 ≤ u) (l : List Nat) : decode wtf (u :: l) = chr u :: decode wtf l := by
  cases l with
  | nil => simp [decode, h]
  | cons v l => rw [decode, if_pos h]

theorem decode_pair (wtf : Bool) {u v : Nat} (hu : 0xd800 ≤ u ∧ u < 0xdc00) (hv : 0xdc00 ≤ v ∧ v < 0xe000) (l : List Nat) :
    decode wtf (u :: v :: l) = chr ((u - 0xd800) * 1024 + (v - 0xdc00) + 0x10000) :: decode wtf l := by
  rw [decode, if_neg (by omega), if_pos ⟨hu.2, hv⟩]

/-- The encoding form is decoded. -/
theorem Form.decode {s : List GoCh} {l : List Nat} (wtf : Bool) (h : Form s l) : decode wtf l = s := by
  induction h with
  | nil => simp [Utf16.decode]
  | bmp c hc _ ih =>
    have := char_range c
    rw [decode_unit wtf (by omega), ih, chr_char]
  | pair c hi lo h1 h2 h3 _ ih =>
    rw [decode_pair wtf (by omega) (by omega), ih, show (0xd800 + hi - 0xd800) * 1024 + (0xdc00 + lo - 0xdc00) + 0x10000 = c.toNat by omega, chr_char]

/-- A text is encoded to its encoding form. -/
theorem Form.encode {s : List GoCh} (wtf : Bool) (h : Text s) : Form s (encode wtf s) := by
  induction s with
  | nil => exact .nil
  | cons x s ih =>
    obtain ⟨c, _, rfl⟩ := h x List.mem_cons_self
    have hs := ih fun y hy => h y (List.mem_cons_of_mem _ hy)
    have hc := char_range c
    rw [Utf16.encode, encRune]
    split
    · exact .bmp c (by assumption) hs
    · exact .pair c _ _ (by omega) (by omega) (by omega) hs

theorem Form.name {s : List GoCh} {l : List Nat} (h : Form s l) (ht : Text s) : Name l := by
  induction h with
  | nil => intro u hu; cases hu
  | bmp c hc _ ih =>
    intro u hu
    rcases List.mem_cons.1 hu with rfl | hu
    · obtain ⟨d, hd, he⟩ := ht _ List.mem_cons_self
      cases he
      refine ⟨fun h0 => hd ?_, hc⟩
      apply Char.toNat_inj.1
      rw [h0]; rfl
    · exact ih (fun y hy => ht y (List.mem_cons_of_mem _ hy)) u hu
  | pair c hi lo h1 h2 _ _ ih =>
    intro u hu
    rcases List.mem_cons.1 hu with rfl | hu
    · omega
    · rcases List.mem_cons.1 hu with rfl | hu
      · omega
      · exact ih (fun y hy => ht y (List.mem_cons_of_mem _ hy)) u hu

theorem Form.unique {s : List GoCh} {l l' : List Nat} (h : Form s l) (h' : Form s l') : l = l' := by
  induction h generalizing l' with
  | nil => cases h'; rfl
  | bmp c hc _ ih =>
    cases h' with
    | bmp _ _ h' => rw [ih h']
    | pair _ hi lo _ _ h3 _ => omega
  | pair c hi lo h1 h2 h3 _ ih =>
    cases h' with
    | bmp _ hc _ => omega
    | pair _ hi' lo' h1' h2' h3' h' =>
      rw [ih h', show hi = hi' by omega, show lo = lo' by omega]

theorem toString_name (wtf : Bool) {l : List Nat} (h : Name l) : toString wtf l = decode wtf l := by
  rw [toString, Dcw.takeWhile_all fun u hu => (h u hu).1]

theorem toString_name0 (wtf : Bool) {l : List Nat} (h : Name l) : toString wtf (l ++ [0]) = decode wtf l := by
  have : (l ++ [0]).takeWhile (· ≠ 0) = l := by
    induction l with
    | nil => simp
    | cons a l ih =>
      rw [List.cons_append, List.takeWhile_cons, if_pos (by simpa using (h a List.mem_cons_self).1), ih fun u hu => h u (List.mem_cons_of_mem _ hu)]
  rw [toString, this]

/-- Nothing decoded contains a zero character. -/
theorem decode_nonzero (wtf : Bool) {l : List Nat} (h : Name l) : .ch '\x00' ∉ decode wtf l := by
  have hz : ∀ n, n ≠ 0 → chr n ≠ .ch '\x00' := by
    intro n hn he
    unfold chr at he
    split at he
    · next hv =>
      have := congrArg Char.toNat (GoCh.ch.inj he)
      simp [Char.ofNat, hv, Char.ofNatAux, Char.toNat] at this
      exact hn this
    · exact absurd he (by decide)
  have hs : ∀ u, (if wtf = true then GoCh.sur u else chr repl) ≠ .ch '\x00' := by
    intro u
    split
    · exact nofun
    · exact hz _ (by decide)
  induction l using decode.induct with
  | case1 => simp [decode]
  | case2 u =>
    simp only [decode, List.mem_singleton]
    intro he
    split at he
    · exact hz u (h u List.mem_cons_self).1 he.symm
    · exact hs u he.symm
  | case3 u v l h1 ih =>
    rw [decode_unit wtf h1]
    intro hm
    rcases List.mem_cons.1 hm with he | hm
    · exact hz u (h u List.mem_cons_self).1 he.symm
    · exact ih (fun x hx => h x (List.mem_cons_of_mem _ hx)) hm
  | case4 u v l h1 h2 ih =>
    rw [decode, if_neg h1, if_pos h2]
    intro hm
    rcases List.mem_cons.1 hm with he | hm
    · exact hz _ (by omega) he.symm
    · exact ih (fun x hx => h x (List.mem_cons_of_mem _ (List.mem_cons_of_mem _ hx))) hm
  | case5 u v l h1 h2 ih =>
    rw [decode, if_neg h1, if_neg h2]
    intro hm
    rcases List.mem_cons.1 hm with he | hm
    · exact hs u he.symm
    · exact ih (fun x hx => h x (List.mem_cons_of_mem _ hx)) hm

theorem encode_chr {n : Nat} (h : n < 0xd800 ∨ 0xe000 ≤ n ∧ n < 0x110000) (wtf : Bool) (s : List GoCh) :
    encode wtf (chr n :: s) = encRune n ++ encode wtf s := by
  rw [chr, if_pos (isValid h), encode, toNat_ofNat h]

/-- With surrogates kept, decoding loses nothing. -/
theorem encode_decode {l : List Nat} (h : ∀ u ∈ l, u < 2 ^ 16) : encode true (decode true l) = l := by
  induction l using decode.induct with
  | case1 => simp [decode, encode]
  | case2 u =>
    have := h u List.mem_cons_self
    simp only [decode]
    split
    · rw [encode_chr (by omega)]
      simp only [encode, encRune, List.append_nil]
      rw [if_pos (by omega)]
    · simp [encode]
  | case3 u v l h1 ih =>
    have := h u List.mem_cons_self
    rw [decode_unit true h1, encode_chr (by omega), ih fun x hx => h x (List.mem_cons_of_mem _ hx), encRune, if_pos (by omega)]
    rfl
  | case4 u v l h1 h2 ih =>
    rw [decode, if_neg h1, if_pos h2, encode_chr (by omega), ih fun x hx => h x (List.mem_cons_of_mem _ (List.mem_cons_of_mem _ hx)), encRune, if_neg (by omega)]
    simp only [List.cons_append, List.nil_append, List.cons.injEq, and_true]
    omega
  | case5 u v l h1 h2 ih =>
    rw [decode, if_neg h1, if_neg h2]
    simp only [if_true, encode, List.cons_append, List.nil_append]
    rw [ih fun x hx => h x (List.mem_cons_of_mem _ hx)]

/-! ### C104 -/

/-- **C104, names that are text.**  The kernel writes records of changes of files whose names are any Unicode texts, in UTF-16, into the buffer.  With every version of
Go, the names the watcher gets are these texts, in order. -/
theorem C104_text (wtf : Bool) (maxLong : Nat) (hmax : 2042 ≤ maxLong) (l : List (Dcw.Entry × List GoCh)) (hne : l ≠ [])
    (hok : ∀ r ∈ l, r.1.action < 2 ^ 32 ∧ 12 + 2 * r.1.name.length + r.1.pad < 2 ^ 32 ∧ Text r.2 ∧ Form r.2 r.1.name) (rest : List UInt8)
    (hfit : (Dcw.entriesBytes (l.map Prod.fst) ++ rest).length = Dcw.readBufferSize) :
    (Dcw.loopevent maxLong (Dcw.entriesBytes (l.map Prod.fst) ++ rest) (Dcw.entriesBytes (l.map Prod.fst)).length 0).map
      (List.map fun r => (r.action, toString wtf r.name)) = some (l.map fun r => (r.1.action, r.2)) := by
  rw [Dcw.C64_parse maxLong hmax (l.map Prod.fst) (by simpa using hne) ?_ rest hfit]
  · simp only [Option.map_some, List.map_map, Option.some.injEq]
    apply List.map_congr_left
    intro r hr
    obtain ⟨_, _, h1, h2⟩ := hok r hr
    simp only [Function.comp, Prod.mk.injEq, true_and]
    rw [toString_name wtf (h2.name h1), h2.decode]
  · intro r hr
    obtain ⟨x, hx, rfl⟩ := List.mem_map.1 hr
    obtain ⟨h1, h2, h3, h4⟩ := hok x hx
    exact ⟨h1, h2, h4.name h3⟩

/-- **C104, watched paths.**  A path that is a Unicode text is handed to the kernel in its UTF-16 encoding form with a zero at the end; decoded, it is the path again.  So the
paths of events start with the path that is watched, and the watcher deletes the entry of this path and no other from its table when it is unwatched. -/
theorem C104_watched (wtf : Bool) {p : List GoCh} (hp : Text p) :
    ∃ w, Form p w ∧ fromString wtf p = some (w ++ [0]) ∧ toString wtf (w ++ [0]) = p := by
  have hf := Form.encode wtf hp
  refine ⟨_, hf, ?_, ?_⟩
  · rw [fromString, if_neg]
    intro h
    obtain ⟨c, hc, he⟩ := hp _ h
    cases he
    exact hc rfl
  · rw [toString_name0 wtf (hf.name hp), hf.decode]

/-- **C104, any names (partial).**  Since Go 1.21, for all names NTFS allows, paired surrogates or not: opening the path that is reported opens the file that was
changed (the units are the same), so different files are never reported under one name.
Missing: older versions of Go (`C104_refuted`). -/
theorem C104_any_partial {l : List Nat} (h : Name l) :
    fromString true (toString true l) = some (l ++ [0]) ∧ ∀ l', Name l' → toString true l' = toString true l → l' = l := by
  have key : ∀ {l}, Name l → encode true (toString true l) = l := fun h => by rw [toString_name true h]; exact encode_decode fun u hu => (h u hu).2
  refine ⟨?_, fun l' h' he => by rw [← key h', he, key h]⟩
  rw [fromString, if_neg (by rw [toString_name true h]; exact decode_nonzero true h), key h]

/-- **C104 is false up to Go 1.20** for names with unpaired surrogates: two files are reported under one name, and it is the name of neither. -/
theorem C104_refuted : ∃ l l', Name l ∧ Name l' ∧ l ≠ l' ∧ toString false l = toString false l' ∧
    fromString false (toString false l) ≠ some (l ++ [0]) ∧ fromString false (toString false l') ≠ some (l' ++ [0]) :=
  ⟨[0xd800], [0xd801], by unfold Name; decide, by unfold Name; decide, by decide, by decide, by decide, by decide⟩

/-- **C104 is false for watched paths that are no UTF-8,** with every version of Go: the entry is stored under the path but deleted under another, so it stays in
the table after Unwatch.  The path of the directory U+FFFD, given as the byte 255, is an example. -/
theorem C104_watched_refuted (wtf : Bool) : ¬ ∀ (p : List GoCh) (w : List Nat), fromString wtf p = some w →
    ((GoMap.set ([] : GoMap (List GoCh) Unit) p ()).del (toString wtf w)).get? p = none := by
  intro h
  have := h [.bad 255] [0xfffd, 0] (by cases wtf <;> decide)
  revert this
  cases wtf <;> decide

/-- The premises of `C104_text` are met: `/😀` is created, and a file named `é`. -/
example : ∃ (l : List (Dcw.Entry × List GoCh)) (rest : List UInt8), l = [(⟨1, [0xd83d, 0xde00], 0⟩, [.ch '😀']), (⟨1, [0xe9], 2⟩, [.ch 'é'])] ∧
    (∀ r ∈ l, r.1.action < 2 ^ 32 ∧ 12 + 2 * r.1.name.length + r.1.pad < 2 ^ 32 ∧ Text r.2 ∧ Form r.2 r.1.name) ∧
    (Dcw.entriesBytes (l.map Prod.fst) ++ rest).length = Dcw.readBufferSize := by
  refine ⟨_, List.replicate 4064 0, rfl, ?_, by rw [List.length_append, List.length_replicate]; decide⟩
  intro r hr
  rcases List.mem_cons.1 hr with rfl | hr
  · refine ⟨by decide, by decide, fun x hx => ?_, .pair '😀' 0x3d 0x200 (by decide) (by decide) (by decide) .nil⟩
    rw [List.mem_singleton.1 hx]; exact ⟨_, by decide, rfl⟩
  · rw [List.mem_singleton.1 hr]
    refine ⟨by decide, by decide, fun x hx => ?_, .bmp 'é' (by decide) .nil⟩
    rw [List.mem_singleton.1 hx]; exact ⟨_, by decide, rfl⟩

/-- A name with an unpaired surrogate. -/
example : Name [0x61, 0xd800, 0x62] ∧ toString true [0x61, 0xd800, 0x62] = [.ch 'a', .sur 0xd800, .ch 'b'] := ⟨by unfold Name; decide, by decide⟩

end Utf16
end Verif
