/-
C58, C59: the Windows watcher asks the kernel for the right changes and translates what it reports.
-/
import Verif.Readdcw
import Verif.PropsInotify
import Verif.PropsTrigger

namespace Verif
namespace Dcw
open Platform (readdcw)
open Event WP

/-! ### Specification -/

/-- The kinds of change the kernel distinguishes (winnt.h, FILE_NOTIFY_CHANGE_*). -/
inductive Change
  | fileName | dirName | attributes | size | lastWrite | lastAccess | creation | security
  deriving DecidableEq, Repr

/-- The constant of the kernel. -/
def Change.flag : Change → Event
  | .fileName => 0x1
  | .dirName => 0x2
  | .attributes => 0x4
  | .size => 0x8
  | .lastWrite => 0x10
  | .lastAccess => 0x20
  | .creation => 0x40
  | .security => 0x100

/-- Which changes a portable event is about: files and directories are created, removed and renamed; a write is any change
of what is in the file or of its attributes. -/
def Change.portable : Change → List Event
  | .fileName | .dirName => [readdcw.create, readdcw.remove, readdcw.rename]
  | .attributes | .size | .lastWrite | .creation | .security => [readdcw.write]
  | .lastAccess => []

/-- A request for the set `e` asks for the change: it contains the constant itself or a portable event that is about it. -/
def Wants (e : Event) (c : Change) : Prop := c.flag ⊑ e ∨ ∃ x ∈ c.portable, x ⊑ e

/-- One of the two handles of a watch with the set `e` is registered for the change. -/
def Asked (e : Event) (c : Change) : Prop :=
  (hasFile e = true ∧ c.flag ⊑ encode (fileFilter e)) ∨ (hasDir e = true ∧ c.flag ⊑ encode (dirFilter e))

/-! ### Bits -/

theorem valid_bit {e : Event} (h : valid e = true) {j : Nat} (hj : j < 32) :
    e.getLsbD j = true → j = 0 ∨ j = 1 ∨ j = 2 ∨ j = 3 ∨ j = 4 ∨ j = 5 ∨ j = 6 ∨ j = 8 ∨ j = 20 ∨ j = 21 ∨ j = 22 ∨ j = 23 := by
  intro hb
  unfold valid at h
  have h := of_decide_eq_true h
  have h1 := Event.bext.1 h j
  rw [Event.bit_andNot, hb] at h1
  have hm : ∀ j < 32, (readdcw.All ||| changeAll).getLsbD j =
      (j == 0 || j == 1 || j == 2 || j == 3 || j == 4 || j == 5 || j == 6 || j == 8 || j == 20 || j == 21 || j == 22 || j == 23) := by
    decide
  rw [hm j hj] at h1
  simp at h1
  omega

theorem encode_dir {f : Event} (h : f.getLsbD 26 = true) : encode f = dirName := by
  unfold encode
  have : f &&& (onlyGlobal ||| onlyChanges) &&& dirmarker ≠ 0 := by
    refine Event.ne_zero_iff.2 ⟨26, ?_⟩
    rw [BitVec.getLsbD_and, BitVec.getLsbD_and, h]; decide
  simp only [if_pos this]

theorem encode_bit {f : Event} (h : f.getLsbD 26 = false) {j : Nat} (hj : j < 32) :
    (encode f).getLsbD j =
      ((f.getLsbD j && (decide (j < 12) || (decide (24 ≤ j) && decide (j < 28)))) ||
        (j == 0 && (f.getLsbD 20 || f.getLsbD 21 || f.getLsbD 23)) ||
        ((j == 2 || j == 3 || j == 6 || j == 8) && f.getLsbD 22)) := by
  have hm : ∀ j < 32, (onlyGlobal ||| onlyChanges).getLsbD j = (decide (j < 12) || (decide (20 ≤ j) && decide (j < 28))) := by
    decide
  have hm1 : ∀ j < 32, fileName.getLsbD j = (j == 0) := by decide
  have hm2 : ∀ j < 32, (attributes ||| (size ||| (creation ||| security))).getLsbD j = (j == 2 || j == 3 || j == 6 || j == 8) := by decide
  have hc : readdcw.create = BitVec.twoPow 32 20 := by decide
  have hr : readdcw.remove = BitVec.twoPow 32 21 := by decide
  have hw : readdcw.write = BitVec.twoPow 32 22 := by decide
  have hn : readdcw.rename = BitVec.twoPow 32 23 := by decide
  have hd : ¬ (f &&& (onlyGlobal ||| onlyChanges) &&& dirmarker ≠ 0) := by
    rw [show dirmarker = BitVec.twoPow 32 26 by decide, Inotify.and_pow _ (by decide), BitVec.getLsbD_and, h]; simp
  unfold encode
  simp only [if_neg hd, hc, hr, hw, hn, BitVec.or_assoc]
  generalize hg : f &&& (onlyGlobal ||| onlyChanges) = e
  have he : ∀ j < 32, e.getLsbD j = (f.getLsbD j && (decide (j < 12) || (decide (20 ≤ j) && decide (j < 28)))) := by
    intro j hj; rw [← hg, BitVec.getLsbD_and, hm j hj]
  rw [Inotify.stage_bit _ _ (by decide) hj, Inotify.stage_bit _ _ (by decide) hj, Inotify.stage_bit _ _ (by decide) hj,
    Inotify.stage_bit _ _ (by decide) hj]
  simp only [Inotify.stage_bit _ _ (show 22 < 32 by decide) (show 23 < 32 by decide),
    Inotify.stage_bit _ _ (show 21 < 32 by decide) (show 23 < 32 by decide),
    Inotify.stage_bit _ _ (show 20 < 32 by decide) (show 23 < 32 by decide),
    Inotify.stage_bit _ _ (show 21 < 32 by decide) (show 22 < 32 by decide),
    Inotify.stage_bit _ _ (show 20 < 32 by decide) (show 22 < 32 by decide),
    Inotify.stage_bit _ _ (show 20 < 32 by decide) (show 21 < 32 by decide), hm1 _ hj, hm2 _ hj,
    hm1 _ (show 21 < 32 by decide), hm1 _ (show 22 < 32 by decide), hm1 _ (show 23 < 32 by decide),
    hm2 _ (show 23 < 32 by decide), he _ hj, he _ (show 20 < 32 by decide), he _ (show 21 < 32 by decide),
    he _ (show 22 < 32 by decide), he _ (show 23 < 32 by decide)]
  have hcase : ∀ j < 32, ∀ a b c d x : Bool,
      ((((((((x && (decide (j < 12) || (decide (20 ≤ j) && decide (j < 28)))) && !(j == 20)) || (a && (j == 0))) && !(j == 21)) || (b && (j == 0))) && !(j == 22)) || (c && (j == 2 || j == 3 || j == 6 || j == 8))) && !(j == 23) || (d && (j == 0))) =
      ((x && (decide (j < 12) || (decide (24 ≤ j) && decide (j < 28)))) || (j == 0 && (a || b || d)) ||
        ((j == 2 || j == 3 || j == 6 || j == 8) && c)) := by decide
  have := hcase j hj (f.getLsbD 20) (f.getLsbD 21) (f.getLsbD 22) (f.getLsbD 23) (f.getLsbD j)
  rw [← this]
  simp

theorem fileFilter_bit (e : Event) {j : Nat} (hj : j < 32) : (fileFilter e).getLsbD j = (e.getLsbD j && !(j == 1)) := by
  have hm : ∀ j < 32, dirName.getLsbD j = (j == 1) := by decide
  rw [fileFilter, Event.bit_andNot, hm j hj]

theorem dirFilter_26 (e : Event) : (dirFilter e).getLsbD 26 = true := by
  rw [dirFilter, BitVec.getLsbD_or, show dirmarker.getLsbD 26 = true by decide, Bool.or_true]

theorem encode_dirFilter (e : Event) : encode (dirFilter e) = 0x2 := encode_dir (dirFilter_26 e)

theorem valid_not {e : Event} (h : valid e = true) {j : Nat} (hj : j < 32)
    (hn : j ≠ 0 ∧ j ≠ 1 ∧ j ≠ 2 ∧ j ≠ 3 ∧ j ≠ 4 ∧ j ≠ 5 ∧ j ≠ 6 ∧ j ≠ 8 ∧ j ≠ 20 ∧ j ≠ 21 ∧ j ≠ 22 ∧ j ≠ 23) :
    e.getLsbD j = false := by
  rcases hb : e.getLsbD j with _ | _
  · rfl
  · have := valid_bit h hj hb; omega

/-- The bits of the filter of the first handle. -/
theorem file_bit {e : Event} (h : valid e = true) {j : Nat} (hj : j < 32) :
    (encode (fileFilter e)).getLsbD j =
      ((e.getLsbD j && decide (j < 12) && !(j == 1)) || (j == 0 && (e.getLsbD 20 || e.getLsbD 21 || e.getLsbD 23)) ||
        ((j == 2 || j == 3 || j == 6 || j == 8) && e.getLsbD 22)) := by
  rw [encode_bit (by rw [fileFilter_bit e (by decide), valid_not h (by decide) (by decide)]; rfl) hj,
    fileFilter_bit e hj, fileFilter_bit e (by decide), fileFilter_bit e (by decide), fileFilter_bit e (by decide),
    fileFilter_bit e (by decide)]
  by_cases h24 : 24 ≤ j
  · rw [valid_not h hj (by omega)]; simp
  · simp only [h24, decide_false, Bool.false_and, Bool.or_false]
    generalize e.getLsbD j = x
    have e1 : (20 == 1) = false := rfl
    have e2 : (21 == 1) = false := rfl
    have e3 : (23 == 1) = false := rfl
    have e4 : (22 == 1) = false := rfl
    rw [e1, e2, e3, e4]
    cases x <;> cases (j == 1) <;> cases decide (j < 12) <;> simp

theorem flag_sub (c : Change) : ∃ k, k < 9 ∧ c.flag = BitVec.twoPow 32 k := by
  cases c
  · exact ⟨0, by decide, by decide⟩
  · exact ⟨1, by decide, by decide⟩
  · exact ⟨2, by decide, by decide⟩
  · exact ⟨3, by decide, by decide⟩
  · exact ⟨4, by decide, by decide⟩
  · exact ⟨5, by decide, by decide⟩
  · exact ⟨6, by decide, by decide⟩
  · exact ⟨8, by decide, by decide⟩

theorem hasFile_of {e : Event} (h : valid e = true) {j : Nat} (hb : (encode (fileFilter e)).getLsbD j = true) :
    hasFile e = true := by
  unfold hasFile
  refine decide_eq_true fun h0 => ?_
  rw [h0, show encode 0 = 0 by decide] at hb
  simp at hb

theorem hasDir_iff (e : Event) : hasDir e = true ↔ e.getLsbD 1 = true ∨ e.getLsbD 20 = true ∨ e.getLsbD 21 = true := by
  have hm : ∀ j < 32, (dirName ||| readdcw.create ||| readdcw.remove).getLsbD j = (j == 1 || j == 20 || j == 21) := by decide
  unfold hasDir
  rw [decide_eq_true_iff, Event.ne_zero_iff]
  constructor
  · rintro ⟨j, hj⟩
    rw [BitVec.getLsbD_and, Bool.and_eq_true] at hj
    have h32 : j < 32 := by
      rcases Nat.lt_or_ge j 32 with h | h
      · exact h
      · rw [BitVec.getLsbD_of_ge _ _ h] at hj; exact absurd hj.1 (by simp)
    rw [hm j h32] at hj
    obtain ⟨h1, h2⟩ := hj
    simp only [Bool.or_eq_true, beq_iff_eq] at h2
    rcases h2 with (rfl | rfl) | rfl
    · exact .inl h1
    · exact .inr (.inl h1)
    · exact .inr (.inr h1)
  · rintro (h | h | h)
    · exact ⟨1, by rw [BitVec.getLsbD_and, h, hm 1 (by decide)]; rfl⟩
    · exact ⟨20, by rw [BitVec.getLsbD_and, h, hm 20 (by decide)]; rfl⟩
    · exact ⟨21, by rw [BitVec.getLsbD_and, h, hm 21 (by decide)]; rfl⟩

/-- `Asked` bit by bit. -/
theorem asked_iff {e : Event} (h : valid e = true) {c : Change} {k : Nat} (hk : k < 32) (hc : c.flag = BitVec.twoPow 32 k) :
    Asked e c ↔ (encode (fileFilter e)).getLsbD k = true ∨ (k = 1 ∧ hasDir e = true) := by
  unfold Asked
  rw [hc, Inotify.sub_pow _ hk, Inotify.sub_pow _ hk, encode_dirFilter]
  have hm : ∀ j < 32, (0x2 : Event).getLsbD j = (j == 1) := by decide
  rw [hm k hk, beq_iff_eq]
  constructor
  · rintro (⟨_, h1⟩ | ⟨h1, h2⟩)
    · exact .inl h1
    · exact .inr ⟨h2, h1⟩
  · rintro (h1 | ⟨h1, h2⟩)
    · exact .inl ⟨hasFile_of h h1, h1⟩
    · exact .inr ⟨h2, h1⟩

theorem create_bit (e : Event) : readdcw.create ⊑ e ↔ e.getLsbD 20 = true := Trg.sub_bit (k := 20) (by decide) (by decide)
theorem remove_bit (e : Event) : readdcw.remove ⊑ e ↔ e.getLsbD 21 = true := Trg.sub_bit (k := 21) (by decide) (by decide)
theorem write_bit (e : Event) : readdcw.write ⊑ e ↔ e.getLsbD 22 = true := Trg.sub_bit (k := 22) (by decide) (by decide)
theorem rename_bit (e : Event) : readdcw.rename ⊑ e ↔ e.getLsbD 23 = true := Trg.sub_bit (k := 23) (by decide) (by decide)

/-- **C58 (partial).**  A watch for a set the watcher accepts is registered with the kernel for exactly the changes the set
asks for, with two exceptions: names of directories are asked for only if the set contains FileNotifyChangeDirName, Create
or Remove (so not for Rename alone), and the time of the last write only if it contains FileNotifyChangeLastWrite (so not
for Write). -/
theorem C58_native_partial (e : Event) (h : valid e = true) :
    (∀ c, c ≠ .dirName → c ≠ .lastWrite → (Asked e c ↔ Wants e c)) ∧
    (Asked e .dirName ↔ Change.dirName.flag ⊑ e ∨ readdcw.create ⊑ e ∨ readdcw.remove ⊑ e) ∧
    (Asked e .lastWrite ↔ Change.lastWrite.flag ⊑ e) := by
  have key : ∀ (c : Change) (k : Nat) (hk : k < 32) (hc : c.flag = BitVec.twoPow 32 k),
      (Asked e c ↔ (encode (fileFilter e)).getLsbD k = true ∨ (k = 1 ∧ hasDir e = true)) :=
    fun c k hk hc => asked_iff h hk hc
  have hw : ∀ (c : Change) (k : Nat) (hk : k < 32) (hc : c.flag = BitVec.twoPow 32 k),
      (c.flag ⊑ e ↔ e.getLsbD k = true) := fun c k hk hc => by rw [hc]; exact Inotify.sub_pow _ hk
  refine ⟨?_, ?_, ?_⟩
  · intro c h1 h2
    unfold Wants
    cases c with
    | dirName => exact absurd rfl h1
    | lastWrite => exact absurd rfl h2
    | fileName =>
      rw [key _ 0 (by decide) (by decide), hw _ 0 (by decide) (by decide), file_bit h (by decide)]
      simp [Change.portable, create_bit, remove_bit, rename_bit, or_assoc]
    | attributes =>
      rw [key _ 2 (by decide) (by decide), hw _ 2 (by decide) (by decide), file_bit h (by decide)]
      simp [Change.portable, write_bit]
    | size =>
      rw [key _ 3 (by decide) (by decide), hw _ 3 (by decide) (by decide), file_bit h (by decide)]
      simp [Change.portable, write_bit]
    | lastAccess =>
      rw [key _ 5 (by decide) (by decide), hw _ 5 (by decide) (by decide), file_bit h (by decide)]
      simp [Change.portable]
    | creation =>
      rw [key _ 6 (by decide) (by decide), hw _ 6 (by decide) (by decide), file_bit h (by decide)]
      simp [Change.portable, write_bit]
    | security =>
      rw [key _ 8 (by decide) (by decide), hw _ 8 (by decide) (by decide), file_bit h (by decide)]
      simp [Change.portable, write_bit]
  · rw [key _ 1 (by decide) (by decide), hw _ 1 (by decide) (by decide), file_bit h (by decide), hasDir_iff]
    simp [create_bit, remove_bit]
  · rw [key _ 4 (by decide) (by decide), hw _ 4 (by decide) (by decide), file_bit h (by decide)]
    simp

/-- **C58, calls that the kernel accepts.**  The filters consist of valid flags; no handle is registered with an empty
filter; and for a set that is not empty there is at least one handle. -/
theorem C58_accepted (e : Event) (h : valid e = true) :
    encode (fileFilter e) ⊑ 0x17f ∧ encode (dirFilter e) = 0x2 ∧ (hasFile e = true → encode (fileFilter e) ≠ 0) ∧
      (e ≠ 0 → hasFile e = true ∨ hasDir e = true) := by
  refine ⟨?_, encode_dirFilter e, ?_, ?_⟩
  · intro j hj
    have h32 : j < 32 := by
      rcases Nat.lt_or_ge j 32 with h | h
      · exact h
      · rw [BitVec.getLsbD_of_ge _ _ h] at hj; exact absurd hj (by simp)
    rw [file_bit h h32] at hj
    have hm : ∀ j < 32, (0x17f : Event).getLsbD j = (decide (j < 7) || j == 8) := by decide
    rw [hm j h32]
    rcases hb : e.getLsbD j with _ | _
    · rw [hb] at hj
      simp only [Bool.false_and, Bool.false_or, Bool.or_eq_true, Bool.and_eq_true, beq_iff_eq] at hj
      simp; omega
    · have := valid_bit h h32 hb
      have h3 : decide (j < 12) = true ∨ j ≥ 12 := by simp; omega
      simp
      rcases this with rfl | rfl | rfl | rfl | rfl | rfl | rfl | rfl | rfl | rfl | rfl | rfl <;> simp at hj ⊢
  · intro hf
    unfold hasFile at hf
    obtain ⟨j, hj⟩ := Event.ne_zero_iff.1 (of_decide_eq_true hf)
    have h32 : j < 32 := by
      rcases Nat.lt_or_ge j 32 with h | h
      · exact h
      · rw [BitVec.getLsbD_of_ge _ _ h] at hj; exact absurd hj (by simp)
    rw [fileFilter_bit e h32, Bool.and_eq_true] at hj
    obtain ⟨h1, h2⟩ := hj
    rw [Event.ne_zero_iff]
    have := valid_bit h h32 h1
    rcases this with rfl | rfl | rfl | rfl | rfl | rfl | rfl | rfl | rfl | rfl | rfl | rfl
    · exact ⟨0, by rw [file_bit h (by decide), h1]; rfl⟩
    · simp at h2
    · exact ⟨2, by rw [file_bit h (by decide), h1]; rfl⟩
    · exact ⟨3, by rw [file_bit h (by decide), h1]; rfl⟩
    · exact ⟨4, by rw [file_bit h (by decide), h1]; rfl⟩
    · exact ⟨5, by rw [file_bit h (by decide), h1]; rfl⟩
    · exact ⟨6, by rw [file_bit h (by decide), h1]; rfl⟩
    · exact ⟨8, by rw [file_bit h (by decide), h1]; rfl⟩
    · exact ⟨0, by rw [file_bit h (by decide), h1]; simp⟩
    · exact ⟨0, by rw [file_bit h (by decide), h1]; simp⟩
    · exact ⟨2, by rw [file_bit h (by decide), h1]; simp⟩
    · exact ⟨0, by rw [file_bit h (by decide), h1]; simp⟩
  · intro h0
    obtain ⟨j, hj⟩ := Event.ne_zero_iff.1 h0
    have h32 : j < 32 := by
      rcases Nat.lt_or_ge j 32 with h | h
      · exact h
      · rw [BitVec.getLsbD_of_ge _ _ h] at hj; exact absurd hj (by simp)
    by_cases h1 : j = 1
    · subst h1; exact .inr ((hasDir_iff e).2 (.inl hj))
    · left
      unfold hasFile
      refine decide_eq_true (Event.ne_zero_iff.2 ⟨j, ?_⟩)
      rw [fileFilter_bit e h32, hj]; simpa using h1

/-- The hypothesis holds of Create together with the raw flag for attributes. -/
example : valid (readdcw.create ||| attributes) = true ∧ Asked (readdcw.create ||| attributes) .dirName ∧
    ¬ Asked (readdcw.create ||| attributes) .size := by
  refine ⟨by decide, (C58_native_partial _ (by decide)).2.1.2 (.inr (.inl (by decide))), ?_⟩
  rw [(C58_native_partial _ (by decide)).1 .size (by decide) (by decide)]
  unfold Wants
  simp [Change.portable, Change.flag]
  decide

/-- **C58 is false of the code**: a watch for Rename does not ask for renamed directories, and a watch for Write does not
ask for the time of the last write (the only thing that changes when a file is overwritten in place). -/
theorem C58_refuted : (valid readdcw.rename = true ∧ Wants readdcw.rename .dirName ∧ ¬ Asked readdcw.rename .dirName) ∧
    (valid readdcw.write = true ∧ Wants readdcw.write .lastWrite ∧ ¬ Asked readdcw.write .lastWrite) := by
  refine ⟨⟨by decide, .inr ⟨readdcw.rename, by simp [Change.portable], Event.Sub.refl _⟩, ?_⟩,
    by decide, .inr ⟨readdcw.write, by simp [Change.portable], Event.Sub.refl _⟩, ?_⟩
  · rw [(C58_native_partial _ (by decide)).2.1]; decide
  · rw [(C58_native_partial _ (by decide)).2.2]; decide

/-! ### Translation -/

/-- The portable event for an action. -/
def Action.generic : Action → Event
  | .added => readdcw.create
  | .removed => readdcw.remove
  | .modified => readdcw.write
  | .renamedOld | .renamedNew => readdcw.rename
  | .other => 0

/-- The constant `FileAction*` for an action (event_readdcw.go:63-69). -/
def Action.raw : Action → Event
  | .added => 0x1 <<< 12
  | .removed => 0x2 <<< 12
  | .modified => 0x3 <<< 14
  | .renamedOld => 0x4 <<< 15
  | .renamedNew => 0x5 <<< 16
  | .other => 0

/-- A channel with the set `s` is to get the raw action: for a change of a file (`dir = false`) or directory name, if it
asked for such names; for a modification, if it asked for one of the modifications. -/
def RawWanted (dir : Bool) (s : Event) : Action → Prop
  | .modified => s &&& 0x17c ≠ 0
  | .other => False
  | _ => if dir then Change.dirName.flag ⊑ s else Change.fileName.flag ⊑ s

instance (dir : Bool) (s : Event) (a : Action) : Decidable (RawWanted dir s a) := by
  cases a <;> simp only [RawWanted] <;> infer_instance

/-- The filter of a handle: from the set of the watch, and with or without state bits. -/
def gripFilter (dir : Bool) (e st : Event) : Event := (if dir then dirFilter e else fileFilter e) ||| st

/-- What a channel of the watchpoint is sent for one action on a handle. -/
def delivered (wp : WP) (c : Nat) (filter : Event) (a : Action) (p : Path) : List Event :=
  ((send filter a p).filter fun ei => decide (Key.user c ∈ wp.dispatch readdcw ei 0)).map (·.event)

theorem match_plain {v x : Event} (hv : v &&& readdcw.omitted = 0) (hx : x &&& readdcw.omitted = 0)
    (hm : x &&& readdcw.changeModified = 0) : matchesEv readdcw v x = true ↔ x ⊑ v := by
  unfold matchesEv
  have h1 : v &&& readdcw.changeModified &&& x = 0 := by
    rw [BitVec.and_assoc, BitVec.and_comm readdcw.changeModified x, hm]; simp
  have hwin : readdcw.windows = true := rfl
  simp only [hwin, if_true, hv, hx, h1, sub_iff_and]
  simp

theorem match_mod {v : Event} (hv : v &&& readdcw.omitted = 0) : matchesEv readdcw v 0x17c = true ↔ v &&& 0x17c ≠ 0 := by
  unfold matchesEv
  have hwin : readdcw.windows = true := rfl
  have hx : (0x17c : Event) &&& readdcw.omitted = 0 := by decide
  have h1 : v &&& readdcw.changeModified &&& 0x17c = v &&& 0x17c := by
    rw [BitVec.and_assoc]; rfl
  simp only [hwin, if_true, hv, hx, h1]
  constructor
  · intro h
    simp at h
    rcases h with h | h
    · rw [show (0x17c : Event) = 380#32 from rfl, h]; decide
    · exact h
  · intro h
    simp at h ⊢
    exact .inr h

theorem sent_iff {wp : WP} (hn : GoMap.Nodup wp) {c : Nat} {s : Event} (hs : wp.get? (.user c) = some s) (ei : EventInfo)
    (ht : matchesEv readdcw s (eventmask readdcw ei 0) = true → matchesEv readdcw (wp.val .nil) (eventmask readdcw ei 0) = true) :
    Key.user c ∈ wp.dispatch readdcw ei 0 ↔ matchesEv readdcw s (eventmask readdcw ei 0) = true := by
  unfold WP.dispatch
  simp only
  constructor
  · intro h
    split at h
    · simp only [List.mem_map, List.mem_filter, Bool.and_eq_true] at h
      obtain ⟨⟨k, v⟩, ⟨h1, _, h3⟩, rfl⟩ := h
      rw [GoMap.get?_of_mem hn h1] at hs
      cases hs; exact h3
    · cases h
  · intro h
    rw [if_pos (ht h)]
    simp only [List.mem_map, List.mem_filter, Bool.and_eq_true]
    exact ⟨(.user c, s), ⟨GoMap.mem_of_get? hs, by simp, h⟩, rfl⟩

theorem send_eq (f : Event) (a : Action) (p : Path) : send f a p =
    (if (decode f a).2 ≠ 0 then [{ event := (decode f a).2, path := p, ftype := ftype f a }] else []) ++
    (if (decode f a).1 ≠ 0 then [{ event := (decode f a).1, path := p, ftype := ftype f a }] else []) := by
  unfold send
  simp only
  generalize (decode f a).1 = x
  generalize (decode f a).2 = y
  by_cases h1 : x = 0
  · by_cases h2 : y = 0
    · rw [if_pos ⟨h1, h2⟩, if_neg (not_not_intro h2), if_neg (not_not_intro h1)]; rfl
    · rw [if_neg (fun h => h2 h.2), if_pos h1, if_pos h2, if_neg (not_not_intro h1)]; rfl
  · by_cases h2 : y = 0
    · rw [if_neg (fun h => h1 h.1), if_neg h1, if_neg (not_not_intro h2), if_neg (not_not_intro h2), if_pos h1]; rfl
    · rw [if_neg (fun h => h1 h.1), if_neg h1, if_pos h2, if_pos h2, if_pos h1]; rfl

theorem and_or_zero {a b x : Event} (hb : b &&& x = 0) : (a ||| b) &&& x = a &&& x := by
  have hb' : x &&& b = 0 := by rw [BitVec.and_comm]; exact hb
  rw [BitVec.and_comm, BitVec.and_or_distrib_left, hb', BitVec.and_comm]; exact BitVec.or_zero

/-- The flags that matter are the same in the set and in the filter of the handle. -/
theorem grip_and {e st x : Event} (dir : Bool) (hst : st ⊑ onlyStates) (hx : x &&& onlyStates = 0) (hd : x &&& dirmarker = 0)
    (hn : dir = true ∨ x &&& dirName = 0) : gripFilter dir e st &&& x = e &&& x := by
  unfold gripFilter
  rw [and_or_zero]
  · cases dir with
    | true =>
      simp only [if_true, dirFilter]
      exact and_or_zero (by rw [BitVec.and_comm]; exact hd)
    | false =>
      have hn : x &&& dirName = 0 := by simpa using hn
      simp only [Bool.false_eq_true, if_false, fileFilter]
      clear hx hd hst
      rw [Event.bext] at hn ⊢
      intro i
      have := hn i
      rw [BitVec.getLsbD_and] at this
      rw [BitVec.getLsbD_and, Event.bit_andNot, BitVec.getLsbD_and]
      simp at this
      cases h1 : BitVec.getLsbD x i
      · simp
      · rw [this h1]; simp
  · clear hd hn
    rw [Event.bext] at hx ⊢
    intro i
    have h1 := hst i
    have h2 := hx i
    simp only [BitVec.getLsbD_and] at h2 ⊢
    cases h3 : BitVec.getLsbD st i
    · simp
    · rw [h1 h3] at h2; simpa using h2

theorem grip_marker {e st : Event} (dir : Bool) (hst : st ⊑ onlyStates) (he : e.getLsbD 26 = false) :
    decide (gripFilter dir e st &&& dirmarker ≠ 0) = dir := by
  have hb : (gripFilter dir e st).getLsbD 26 = dir := by
    unfold gripFilter
    have hs : st.getLsbD 26 = false := by
      rcases h : st.getLsbD 26 with _ | _
      · rfl
      · exact absurd (hst 26 h) (by decide)
    rw [BitVec.getLsbD_or, hs, Bool.or_false]
    cases dir with
    | true => exact dirFilter_26 e
    | false =>
      simp only [Bool.false_eq_true, if_false]
      rw [fileFilter_bit e (by decide), he]; rfl
  have := Trg.and_bit (e := gripFilter dir e st) (f := dirmarker) (k := 26) (by decide) (by decide)
  cases dir with
  | true => exact decide_eq_true (this.2 hb)
  | false =>
    refine decide_eq_false fun h => ?_
    rw [this.1 h] at hb; cases hb

theorem valid_omit {v : Event} (hv : v &&& readdcw.omitted = 0) {s : Event} (h : s ⊑ v) : s &&& readdcw.omitted = 0 := by
  rw [Event.bext] at hv ⊢
  intro i
  have h1 := hv i
  rw [BitVec.getLsbD_and] at h1 ⊢
  cases h2 : BitVec.getLsbD s i
  · simp
  · rw [h i h2] at h1; exact h1

theorem filter_two (x y : Event) (ei : Event → EventInfo) (he : ∀ z, (ei z).event = z) (q : EventInfo → Bool) :
    (((if x ≠ 0 then [ei x] else []) ++ (if y ≠ 0 then [ei y] else [])).filter q).map (·.event) =
      (if x ≠ 0 ∧ q (ei x) = true then [x] else []) ++ (if y ≠ 0 ∧ q (ei y) = true then [y] else []) := by
  rw [List.filter_append, List.map_append]
  congr 1
  · by_cases h1 : x = 0
    · rw [if_neg (not_not_intro h1), if_neg (fun h => h.1 h1)]; rfl
    · rw [if_pos h1]
      cases h2 : q (ei x)
      · rw [if_neg (fun h => by cases h.2)]; simp [h2]
      · rw [if_pos ⟨h1, rfl⟩]; simp [h2, he]
  · by_cases h1 : y = 0
    · rw [if_neg (not_not_intro h1), if_neg (fun h => h.1 h1)]; rfl
    · rw [if_pos h1]
      cases h2 : q (ei y)
      · rw [if_neg (fun h => by cases h.2)]; simp [h2]
      · rw [if_pos ⟨h1, rfl⟩]; simp [h2, he]

/-- The condition under which `gensys` gives the raw constant. -/
def SysCond (f : Event) : Prop :=
  ((decide (f &&& dirmarker ≠ 0) && decide (f &&& dirName ≠ 0)) || (!decide (f &&& dirmarker ≠ 0) && decide (f &&& fileName ≠ 0)) ||
    decide (f &&& readdcw.changeModified ≠ 0)) = true

instance (f : Event) : Decidable (SysCond f) := by unfold SysCond; infer_instance

theorem gensys_eq (f ge se : Event) : gensys f ge se = (if f &&& ge ≠ 0 then ge else 0, if SysCond f then se else 0) := by
  unfold gensys SysCond
  rfl

theorem if_half (C : Prop) [Decidable C] {x : Event} (hx : x ≠ 0) (q : Event → Bool) (W : Prop) [Decidable W]
    (h : W ↔ C ∧ q x = true) :
    (if (if C then x else 0) ≠ 0 ∧ q (if C then x else 0) = true then [if C then x else 0] else []) = if W then [x] else [] := by
  by_cases hC : C
  · rw [if_pos hC]
    by_cases hq : q x = true
    · rw [if_pos ⟨hx, hq⟩, if_pos (h.2 ⟨hC, hq⟩)]
    · rw [if_neg (fun h2 => hq h2.2), if_neg (fun h2 => hq (h.1 h2).2)]
  · rw [if_neg hC, if_neg (fun h2 => h2.1 rfl), if_neg (fun h2 => hC (h.1 h2).1)]

theorem mask_generic {ei : EventInfo} (h : ei.event &&& readdcw.fileActionAll = 0) : eventmask readdcw ei 0 = ei.event := by
  unfold eventmask
  have hwin : readdcw.windows = true := rfl
  have h0 : ei.event ||| (0 : Event) = ei.event := BitVec.or_zero
  simp only [hwin, if_true, h0]
  rw [if_neg (not_not_intro h)]

theorem mask_path (e : Event) (p : Path) (t : FType) : eventmask readdcw { event := e, path := p, ftype := t } 0 =
    eventmask readdcw { event := e, path := [], ftype := t } 0 := by unfold eventmask; rfl

section
variable {wp : WP} {c : Nat} {s st : Event} {dir : Bool}

/-- A portable event is delivered iff the channel asked for it. -/
theorem generic_wanted (hn : GoMap.Nodup wp) (hs : wp.get? (.user c) = some s) (hsub : s ⊑ wp.val .nil)
    (ho : wp.val .nil &&& readdcw.omitted = 0) {ge : Event} (hst : st ⊑ onlyStates) (hge : Trg.One ge)
    (h1 : ge &&& onlyStates = 0) (h2 : ge &&& dirmarker = 0) (h3 : ge &&& dirName = 0) (h4 : ge &&& readdcw.omitted = 0)
    (h5 : ge &&& readdcw.changeModified = 0) (h6 : ge &&& readdcw.fileActionAll = 0) (h7 : ge &&& readdcw.internal = 0)
    (ei : EventInfo) (hei : ei.event = ge) :
    ge ⊑ s ↔ gripFilter dir (wp.total readdcw) st &&& ge ≠ 0 ∧
      decide (Key.user c ∈ wp.dispatch readdcw ei 0) = true := by
  have hm : eventmask readdcw ei 0 = ge := by rw [mask_generic (by rw [hei]; exact h6), hei]
  have hmono : matchesEv readdcw s (eventmask readdcw ei 0) = true →
      matchesEv readdcw (wp.val .nil) (eventmask readdcw ei 0) = true := by
    rw [hm, match_plain (valid_omit ho hsub) h4 h5, match_plain ho h4 h5]
    exact fun h => h.trans hsub
  rw [decide_eq_true_iff, sent_iff hn hs ei hmono, hm, match_plain (valid_omit ho hsub) h4 h5,
    grip_and dir hst h1 h2 (.inr h3), Trg.one_and hge]
  constructor
  · intro h
    refine ⟨?_, h⟩
    intro i hi
    have h8 := hsub i (h i hi)
    unfold WP.total
    rw [Event.bit_andNot, h8]
    have := Event.bext.1 h7 i
    rw [BitVec.getLsbD_and, hi] at this
    simp at this
    simp [this]
  · exact fun h => h.2

/-- A raw action is delivered iff the channel asked for the flag. -/
theorem raw_wanted (hn : GoMap.Nodup wp) (hs : wp.get? (.user c) = some s) (hsub : s ⊑ wp.val .nil)
    (ho : wp.val .nil &&& readdcw.omitted = 0) {x : Event} (hx : x = if dir then dirName else fileName)
    (hst : st ⊑ onlyStates) (hv : valid (wp.total readdcw) = true) (ei : EventInfo) (hm : eventmask readdcw ei 0 = x) :
    (if dir then Change.dirName.flag ⊑ s else Change.fileName.flag ⊑ s) ↔ SysCond (gripFilter dir (wp.total readdcw) st) ∧
      decide (Key.user c ∈ wp.dispatch readdcw ei 0) = true := by
  have h4 : x &&& readdcw.omitted = 0 := by subst hx; cases dir <;> decide
  have h5 : x &&& readdcw.changeModified = 0 := by subst hx; cases dir <;> decide
  have h7 : x &&& readdcw.internal = 0 := by subst hx; cases dir <;> decide
  have hone : Trg.One x := by subst hx; cases dir <;> exact Trg.one_of (by decide)
  have hmono : matchesEv readdcw s (eventmask readdcw ei 0) = true →
      matchesEv readdcw (wp.val .nil) (eventmask readdcw ei 0) = true := by
    rw [hm, match_plain (valid_omit ho hsub) h4 h5, match_plain ho h4 h5]
    exact fun h => h.trans hsub
  have hl : (if dir then Change.dirName.flag ⊑ s else Change.fileName.flag ⊑ s) ↔ x ⊑ s := by
    subst hx; cases dir <;> exact Iff.rfl
  rw [decide_eq_true_iff, sent_iff hn hs ei hmono, hm, match_plain (valid_omit ho hsub) h4 h5, hl]
  refine ⟨fun h => ⟨?_, h⟩, fun h => h.2⟩
  have ht : x ⊑ wp.total readdcw := by
    intro i hi
    have h8 := hsub i (h i hi)
    unfold WP.total
    rw [Event.bit_andNot, h8]
    have := Event.bext.1 h7 i
    rw [BitVec.getLsbD_and, hi] at this
    simp at this
    simp [this]
  have hf : gripFilter dir (wp.total readdcw) st &&& x ≠ 0 := by
    rw [grip_and dir hst (by subst hx; cases dir <;> decide) (by subst hx; cases dir <;> decide)
      (by subst hx; cases dir
          · exact .inr (by decide)
          · exact .inl rfl), Trg.one_and hone]
    exact ht
  unfold SysCond
  rw [grip_marker dir hst (valid_not hv (by decide) (by decide))]
  subst hx
  cases dir with
  | true => simp only [if_true] at hf; simp only [decide_eq_true hf]; rfl
  | false => simp only [Bool.false_eq_true, if_false] at hf; simp only [decide_eq_true hf]; rfl

/-- A modification is delivered iff the channel asked for one of the modifications. -/
theorem mod_wanted (hn : GoMap.Nodup wp) (hs : wp.get? (.user c) = some s) (hsub : s ⊑ wp.val .nil)
    (ho : wp.val .nil &&& readdcw.omitted = 0) (hst : st ⊑ onlyStates) (ei : EventInfo)
    (hm : eventmask readdcw ei 0 = 0x17c) :
    s &&& 0x17c ≠ 0 ↔ SysCond (gripFilter dir (wp.total readdcw) st) ∧
      decide (Key.user c ∈ wp.dispatch readdcw ei 0) = true := by
  have hup : ∀ {v : Event}, s ⊑ v → s &&& 0x17c ≠ 0 → v &&& 0x17c ≠ 0 := by
    intro v h
    rw [Event.ne_zero_iff, Event.ne_zero_iff]
    rintro ⟨i, hi⟩
    rw [BitVec.getLsbD_and, Bool.and_eq_true] at hi
    exact ⟨i, by rw [BitVec.getLsbD_and, h i hi.1, hi.2]; rfl⟩
  have hmono : matchesEv readdcw s (eventmask readdcw ei 0) = true →
      matchesEv readdcw (wp.val .nil) (eventmask readdcw ei 0) = true := by
    rw [hm, match_mod (valid_omit ho hsub), match_mod ho]
    exact hup hsub
  rw [decide_eq_true_iff, sent_iff hn hs ei hmono, hm, match_mod (valid_omit ho hsub)]
  refine ⟨fun h => ⟨?_, h⟩, fun h => h.2⟩
  have hf : gripFilter dir (wp.total readdcw) st &&& readdcw.changeModified ≠ 0 := by
    rw [grip_and dir hst (by decide) (by decide) (.inr (by decide))]
    have h9 := hup hsub h
    rw [Event.ne_zero_iff] at h9 ⊢
    obtain ⟨i, hi⟩ := h9
    rw [BitVec.getLsbD_and, Bool.and_eq_true] at hi
    refine ⟨i, ?_⟩
    unfold WP.total
    rw [BitVec.getLsbD_and, Event.bit_andNot, hi.1, show readdcw.changeModified = 0x17c from rfl, hi.2]
    have hd : (0x17c : Event) &&& readdcw.internal = 0 := by decide
    have := Event.bext.1 hd i
    rw [BitVec.getLsbD_and, hi.2] at this
    simp at this
    simp [this]
  unfold SysCond
  rw [decide_eq_true hf, Bool.or_true]

end

/-- **C59.**  For every watchpoint, every channel in it, every action the kernel reports on one of the two handles of the
directory: the channel is sent the raw action iff it asked for the flag that stands for it, and the portable event iff it
asked for that; nothing else. -/
theorem C59_delivery (wp : WP) (c : Nat) (s st : Event) (dir : Bool) (a : Action) (p : Path) (hn : GoMap.Nodup wp)
    (hs : wp.get? (.user c) = some s) (hsub : s ⊑ wp.val .nil) (ho : wp.val .nil &&& readdcw.omitted = 0)
    (hv : valid (wp.total readdcw) = true) (hst : st ⊑ onlyStates) :
    delivered wp c (gripFilter dir (wp.total readdcw) st) a p =
      (if RawWanted dir s a then [a.raw] else []) ++ (if a.generic ≠ 0 ∧ a.generic ⊑ s then [a.generic] else []) := by
  by_cases ha : a = .other
  · subst ha
    unfold delivered
    rw [send_eq]
    simp [decode, RawWanted, Action.generic]
  have hsp : ∀ ge se, decode (gripFilter dir (wp.total readdcw) st) a = gensys (gripFilter dir (wp.total readdcw) st) ge se →
      ge ≠ 0 → se ≠ 0 →
      (ge ⊑ s ↔ gripFilter dir (wp.total readdcw) st &&& ge ≠ 0 ∧ decide (Key.user c ∈ wp.dispatch readdcw
        { event := ge, path := p, ftype := ftype (gripFilter dir (wp.total readdcw) st) a } 0) = true) →
      (RawWanted dir s a ↔ SysCond (gripFilter dir (wp.total readdcw) st) ∧ decide (Key.user c ∈ wp.dispatch readdcw
        { event := se, path := p, ftype := ftype (gripFilter dir (wp.total readdcw) st) a } 0) = true) →
      delivered wp c (gripFilter dir (wp.total readdcw) st) a p =
        (if RawWanted dir s a then [se] else []) ++ (if ge ≠ 0 ∧ ge ⊑ s then [ge] else []) := by
    intro ge se hd hge hse h1 h2
    unfold delivered
    rw [send_eq, hd, gensys_eq]
    have := filter_two (if SysCond (gripFilter dir (wp.total readdcw) st) then se else 0)
      (if gripFilter dir (wp.total readdcw) st &&& ge ≠ 0 then ge else 0)
      (fun e => { event := e, path := p, ftype := ftype (gripFilter dir (wp.total readdcw) st) a }) (fun _ => rfl)
      (fun ei => decide (Key.user c ∈ wp.dispatch readdcw ei 0))
    rw [this]
    congr 1
    · exact if_half _ hse (fun e => decide (Key.user c ∈ wp.dispatch readdcw
        { event := e, path := p, ftype := ftype (gripFilter dir (wp.total readdcw) st) a } 0)) _ h2
    · exact if_half _ hge (fun e => decide (Key.user c ∈ wp.dispatch readdcw
        { event := e, path := p, ftype := ftype (gripFilter dir (wp.total readdcw) st) a } 0)) _
        ⟨fun h => h1.1 h.2, fun h => ⟨hge, h1.2 h⟩⟩
  have hft : a ≠ .modified → ftype (gripFilter dir (wp.total readdcw) st) a = if dir then .directory else .file := by
    intro hm
    unfold ftype
    rw [if_neg hm]
    have := grip_marker (e := wp.total readdcw) dir hst (valid_not hv (by decide) (by decide))
    cases dir with
    | true => rw [if_pos (of_decide_eq_true this)]; rfl
    | false => rw [if_neg (of_decide_eq_false this)]; rfl
  cases a with
  | other => exact absurd rfl ha
  | modified =>
    refine hsp readdcw.write actionModified rfl (by decide) (by decide) ?_ ?_
    · exact generic_wanted hn hs hsub ho hst (Trg.one_of (by decide)) (by decide) (by decide) (by decide) (by decide) (by decide)
        (by decide) (by decide) _ rfl
    · exact mod_wanted hn hs hsub ho hst _ (by rw [mask_path, show ftype (gripFilter dir (wp.total readdcw) st) .modified = .unknown from rfl]; decide)
  | added =>
    refine hsp readdcw.create actionAdded rfl (by decide) (by decide) ?_ ?_
    · exact generic_wanted hn hs hsub ho hst (Trg.one_of (by decide)) (by decide) (by decide) (by decide) (by decide) (by decide)
        (by decide) (by decide) _ rfl
    · exact raw_wanted hn hs hsub ho rfl hst hv _ (by rw [hft (by decide), mask_path]; cases dir <;> decide)
  | removed =>
    refine hsp readdcw.remove actionRemoved rfl (by decide) (by decide) ?_ ?_
    · exact generic_wanted hn hs hsub ho hst (Trg.one_of (by decide)) (by decide) (by decide) (by decide) (by decide) (by decide)
        (by decide) (by decide) _ rfl
    · exact raw_wanted hn hs hsub ho rfl hst hv _ (by rw [hft (by decide), mask_path]; cases dir <;> decide)
  | renamedOld =>
    refine hsp readdcw.rename actionRenamedOld rfl (by decide) (by decide) ?_ ?_
    · exact generic_wanted hn hs hsub ho hst (Trg.one_of (by decide)) (by decide) (by decide) (by decide) (by decide) (by decide)
        (by decide) (by decide) _ rfl
    · exact raw_wanted hn hs hsub ho rfl hst hv _ (by rw [hft (by decide), mask_path]; cases dir <;> decide)
  | renamedNew =>
    refine hsp readdcw.rename actionRenamedNew rfl (by decide) (by decide) ?_ ?_
    · exact generic_wanted hn hs hsub ho hst (Trg.one_of (by decide)) (by decide) (by decide) (by decide) (by decide) (by decide)
        (by decide) (by decide) _ rfl
    · exact raw_wanted hn hs hsub ho rfl hst hv _ (by rw [hft (by decide), mask_path]; cases dir <;> decide)

namespace Ex

/-- Channel 1 asks for Create and the names of files, channel 2 for changed attributes. -/
def wp : WP := [(.user 1, readdcw.create ||| fileName), (.user 2, attributes), (.nil, readdcw.create ||| fileName ||| attributes)]

/-- A new file: channel 1 is sent the raw action and then Create; channel 2 nothing. -/
example : delivered wp 1 (gripFilter false (wp.total readdcw) 0) .added [['a'], ['f']] = [0x1000, readdcw.create] ∧
    delivered wp 2 (gripFilter false (wp.total readdcw) 0) .added [['a'], ['f']] = [] := by
  refine ⟨?_, ?_⟩
  · rw [C59_delivery wp 1 (readdcw.create ||| fileName) 0 false .added _ (by unfold GoMap.Nodup; decide) (by decide) (by decide)
      (by decide) (by decide) (by decide)]
    decide
  · rw [C59_delivery wp 2 attributes 0 false .added _ (by unfold GoMap.Nodup; decide) (by decide) (by decide)
      (by decide) (by decide) (by decide)]
    decide

end Ex

end Dcw
end Verif
