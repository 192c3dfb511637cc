/-
Events and platforms.

Models: /repo/event.go (lines 20-34) and the platform constants in
event_inotify.go:13-24, event_kqueue.go:16-27, event_fen.go:10-21,
event_fsevents.go:10-44, event_readdcw.go:17-71, event_stub.go:11-22.
-/

namespace Verif

/-- `type Event uint32` (event.go:20). -/
abbrev Event := BitVec 32

/-- Go's bit clear operator `a &^ b`. -/
notation:60 a:60 " &^ " b:61 => a &&& ~~~b

/-- `a ⊑ b`: every bit of `a` is a bit of `b`. -/
def Event.Sub (a b : Event) : Prop := ∀ i, BitVec.getLsbD a i = true → BitVec.getLsbD b i = true

infix:50 " ⊑ " => Event.Sub

/-- The constants of one target platform.

`create … omit` are the constants of the platform's `event_*.go`.  The last five fields
are used only by the Windows variant of `eventmask`/`matches`
(event_readdcw.go:36-71, watchpoint_readdcw.go); `windows` selects that variant. -/
structure Platform where
  create : Event
  remove : Event
  write : Event
  rename : Event
  recursive : Event
  omitted : Event
  windows : Bool := false
  fileActionAll : Event := 0
  changeFileName : Event := 0
  changeDirName : Event := 0
  changeModified : Event := 0

namespace Platform

/-- `const internal = recursive | omit` (event.go:34). -/
def internal (P : Platform) : Event := P.recursive ||| P.omitted

/-- `All = Create | Remove | Write | Rename` (event.go:31). -/
def All (P : Platform) : Event := P.create ||| P.remove ||| P.write ||| P.rename

/-- A single-bit event. -/
def single (e : Event) : Bool := e != 0 && e &&& (e - 1) == 0

/-- No two events of the list share a bit. -/
def disjoint : List Event → Bool
  | [] => true
  | e :: l => l.all (fun b => e &&& b == 0) && disjoint l

/-- The core constants of a platform. -/
def core (P : Platform) : List Event :=
  [P.create, P.remove, P.write, P.rename, P.recursive, P.omitted]

/-- The six core constants are distinct single bits. -/
def WF (P : Platform) : Prop := P.core.all single = true ∧ disjoint P.core = true

instance (P : Platform) : Decidable P.WF := inferInstanceAs (Decidable (_ ∧ _))

/-- event_inotify.go:13-24. -/
def inotify : Platform where
  create := 0x100000
  remove := 0x200000
  write := 0x400000
  rename := 0x800000
  recursive := 0x1000000
  omitted := 0x2000000

/-- event_kqueue.go:16-27. -/
def kqueue : Platform where
  create := 0x100
  remove := 0x200
  write := 0x400
  rename := 0x800
  recursive := 0x1000
  omitted := 0x2000

/-- event_fen.go:10-21. -/
def fen : Platform where
  create := 0x100
  remove := 0x200
  write := 0x400
  rename := 0x800
  recursive := 0x1000
  omitted := 0x2000

/-- event_fsevents.go:10-21 (values of the FSEvents flags from lines 24-44). -/
def fsevents : Platform where
  create := 0x100
  remove := 0x200
  write := 0x1000
  rename := 0x800
  recursive := 0x200000
  omitted := 0x400000

/-- event_readdcw.go:17-29, 36-50, 71. `fileNotifyChangeModified` is
`0x17f &^ (FileNotifyChangeFileName|FileNotifyChangeDirName) = 0x17c`. -/
def readdcw : Platform where
  create := 0x100000
  remove := 0x200000
  write := 0x400000
  rename := 0x800000
  recursive := 0x1000000
  omitted := 0x2000000
  windows := true
  fileActionAll := 0x7f000
  changeFileName := 0x1
  changeDirName := 0x2
  changeModified := 0x17c

/-- event_stub.go:11-22. -/
def stub : Platform where
  create := 0x1
  remove := 0x2
  write := 0x4
  rename := 0x8
  recursive := 0x10
  omitted := 0x20

/-- All platforms of the repository. -/
def all : List Platform := [inotify, kqueue, fen, fsevents, readdcw, stub]

theorem all_wf : ∀ P ∈ all, P.WF := by decide

theorem inotify_wf : inotify.WF := by decide
theorem kqueue_wf : kqueue.WF := by decide
theorem fen_wf : fen.WF := by decide
theorem fsevents_wf : fsevents.WF := by decide
theorem readdcw_wf : readdcw.WF := by decide

end Platform

/-! ### Bit-level reasoning -/

namespace Event

theorem bext {a b : Event} : a = b ↔ ∀ i, BitVec.getLsbD a i = BitVec.getLsbD b i :=
  ⟨fun h _ => h ▸ rfl, fun h => BitVec.eq_of_getLsbD_eq fun i _ => h i⟩

theorem bit_andNot (a b : Event) (i : Nat) :
    BitVec.getLsbD (a &&& ~~~b) i = (BitVec.getLsbD a i && !BitVec.getLsbD b i) := by
  by_cases h : i < 32
  · simp [h]
  · rw [BitVec.getLsbD_of_ge _ _ (by omega), BitVec.getLsbD_of_ge _ _ (by omega)]; rfl

theorem bit_zero (i : Nat) : BitVec.getLsbD (0#32) i = false := by simp


end Event

/-- Decide a goal about bitwise operations on events bit by bit. -/
macro "ebits" : tactic => `(tactic|
  (simp only [Event.bext, Event.Sub, Event.bit_andNot, BitVec.getLsbD_and, BitVec.getLsbD_or,
    Event.bit_zero, BitVec.ofNat_eq_ofNat, ne_eq, Platform.internal] at * <;> grind (splitImp := true)))

namespace Event

theorem Sub.refl (a : Event) : a ⊑ a := fun _ h => h
theorem Sub.trans {a b c : Event} (h : a ⊑ b) (h' : b ⊑ c) : a ⊑ c := fun i hi => h' i (h i hi)
theorem Sub.antisymm {a b : Event} (h : a ⊑ b) (h' : b ⊑ a) : a = b := by ebits
theorem zero_sub (a : Event) : 0 ⊑ a := by ebits
theorem sub_zero {a : Event} (h : a ⊑ 0) : a = 0 := by ebits
theorem sub_or_left (a b : Event) : a ⊑ a ||| b := by ebits
theorem sub_or_right (a b : Event) : b ⊑ a ||| b := by ebits
theorem or_sub {a b c : Event} (h : a ⊑ c) (h' : b ⊑ c) : a ||| b ⊑ c := by ebits
theorem sub_iff_and {a b : Event} : a ⊑ b ↔ b &&& a = a := by
  constructor <;> intro h <;> ebits
theorem sub_iff_or {a b : Event} : a ⊑ b ↔ b ||| a = b := by
  constructor <;> intro h <;> ebits

instance (a b : Event) : Decidable (a ⊑ b) := decidable_of_iff _ sub_iff_and.symm

/-- A subset is numerically not larger. -/
theorem Sub.le {a b : Event} (h : a ⊑ b) : a ≤ b := by
  have h' : b &&& a = a := sub_iff_and.1 h
  have h2 : (b &&& a).toNat ≤ b.toNat := by
    rw [BitVec.toNat_and]; exact Nat.and_le_left
  rw [h'] at h2
  exact BitVec.le_def.2 h2

theorem zero_of_getLsbD {a : Event} (h : ∀ i, BitVec.getLsbD a i = false) : a = 0 := by ebits

theorem ne_zero_iff {a : Event} : a ≠ 0 ↔ ∃ i, BitVec.getLsbD a i = true := by
  constructor
  · intro h; ebits
  · rintro ⟨i, hi⟩ h; subst h; simp at hi

end Event

namespace Platform
variable {P : Platform}

/-- Consequences of well-formedness in the form used by the bit tactic. -/
structure Facts (P : Platform) : Prop where
  create_ne : P.create ≠ 0
  remove_ne : P.remove ≠ 0
  write_ne : P.write ≠ 0
  rename_ne : P.rename ≠ 0
  recursive_ne : P.recursive ≠ 0
  omit_ne : P.omitted ≠ 0
  rec_omit : P.recursive &&& P.omitted = 0
  create_rec : P.create &&& P.recursive = 0
  create_omit : P.create &&& P.omitted = 0

theorem WF.facts (h : P.WF) : P.Facts := by
  obtain ⟨h1, h2⟩ := h
  simp [core, single, disjoint] at h1 h2
  obtain ⟨⟨a, _⟩, ⟨b, _⟩, ⟨c, _⟩, ⟨d, _⟩, ⟨e, _⟩, ⟨f, _⟩⟩ := h1
  obtain ⟨⟨_, _, _, g, i⟩, _, _, _, j⟩ := h2
  exact ⟨a, b, c, d, e, f, j, g, i⟩

end Platform

end Verif
