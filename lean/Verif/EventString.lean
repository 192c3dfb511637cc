/-
The text of an event set (C77).

Models /repo/event.go: `estr` (126-143), `Event.String` (37-47); and `osestr` in event_inotify.go:43-56, event_kqueue.go:52-60, event_fen.go:47-58,
event_fsevents.go:46-62, event_readdcw.go:73-88, event_stub.go:24.  `range` over a map takes any order.

The values are those of <sys/inotify.h>, <sys/event.h> (BSD), <sys/port.h>, <FSEvents.h>, <winnt.h>.
-/
import Verif.Event
import Mathlib.Data.List.Perm.Basic
import Mathlib.Tactic.Tauto

namespace Verif
namespace EventString

abbrev Str := List Char
abbrev Table := List (Event × Str)

/-- `estr` (event.go:126-143). -/
def estr (P : Platform) : Table :=
  [(P.create, "notify.Create".toList), (P.remove, "notify.Remove".toList), (P.write, "notify.Write".toList),
   (P.rename, "notify.Rename".toList), (P.recursive, "recursive".toList), (P.omitted, "omit".toList)]

def inotifyStr : Table :=
  [(0x1, "notify.InAccess".toList), (0x2, "notify.InModify".toList), (0x4, "notify.InAttrib".toList), (0x8, "notify.InCloseWrite".toList),
   (0x10, "notify.InCloseNowrite".toList), (0x20, "notify.InOpen".toList), (0x40, "notify.InMovedFrom".toList), (0x80, "notify.InMovedTo".toList),
   (0x100, "notify.InCreate".toList), (0x200, "notify.InDelete".toList), (0x400, "notify.InDeleteSelf".toList), (0x800, "notify.InMoveSelf".toList)]

def kqueueStr : Table :=
  [(0x1, "notify.NoteDelete".toList), (0x2, "notify.NoteWrite".toList), (0x4, "notify.NoteExtend".toList), (0x8, "notify.NoteAttrib".toList),
   (0x10, "notify.NoteLink".toList), (0x20, "notify.NoteRename".toList), (0x40, "notify.NoteRevoke".toList)]

def fenStr : Table :=
  [(0x1, "notify.FileAccess".toList), (0x2, "notify.FileModified".toList), (0x4, "notify.FileAttrib".toList), (0x10, "notify.FileDelete".toList),
   (0x20, "notify.FileRenameTo".toList), (0x40, "notify.FileRenameFrom".toList), (0x100000, "notify.FileTrunc".toList),
   (0x10000000, "notify.FileNoFollow".toList), (0x20000000, "notify.Unmounted".toList), (0x40000000, "notify.MountedOver".toList)]

def fseventsStr : Table :=
  [(0x1, "notify.FSEventsMustScanSubDirs".toList), (0x2, "notify.FSEventsUserDropped".toList), (0x4, "notify.FSEventsKernelDropped".toList),
   (0x8, "notify.FSEventsEventIdsWrapped".toList), (0x10, "notify.FSEventsHistoryDone".toList), (0x20, "notify.FSEventsRootChanged".toList),
   (0x40, "notify.FSEventsMount".toList), (0x80, "notify.FSEventsUnmount".toList), (0x400, "notify.FSEventsInodeMetaMod".toList),
   (0x2000, "notify.FSEventsFinderInfoMod".toList), (0x4000, "notify.FSEventsChangeOwner".toList), (0x8000, "notify.FSEventsXattrMod".toList),
   (0x10000, "notify.FSEventsIsFile".toList), (0x20000, "notify.FSEventsIsDir".toList), (0x40000, "notify.FSEventsIsSymlink".toList)]

def readdcwStr : Table :=
  [(0x1, "notify.FileNotifyChangeFileName".toList), (0x2, "notify.FileNotifyChangeDirName".toList), (0x4, "notify.FileNotifyChangeAttributes".toList),
   (0x8, "notify.FileNotifyChangeSize".toList), (0x10, "notify.FileNotifyChangeLastWrite".toList), (0x20, "notify.FileNotifyChangeLastAccess".toList),
   (0x40, "notify.FileNotifyChangeCreation".toList), (0x100, "notify.FileNotifyChangeSecurity".toList),
   (0x1000, "notify.FileActionAdded".toList), (0x2000, "notify.FileActionRemoved".toList), (0xc000, "notify.FileActionModified".toList),
   (0x20000, "notify.FileActionRenamedOldName".toList), (0x50000, "notify.FileActionRenamedNewName".toList)]

/-- The platforms and their `osestr`. -/
def all : List (Platform × Table) :=
  [(.inotify, inotifyStr), (.kqueue, kqueueStr), (.fen, fenStr), (.fsevents, fseventsStr), (.readdcw, readdcwStr), (.stub, [])]

/-- The names appended in one loop over a map (event.go:40-44). -/
def names (e : Event) (t : Table) : List Str := (t.filter (fun x => decide (e &&& x.1 = x.1))).map Prod.snd

/-- `strings.Join(s, "|")`. -/
def join : List Str → Str
  | [] => []
  | [a] => a
  | a :: b :: l => a ++ '|' :: join (b :: l)

/-- `e.String()` can be `out`. -/
def Prints (P : Platform) (os : Table) (e : Event) (out : Str) : Prop :=
  ∃ t1 t2, t1.Perm (estr P) ∧ t2.Perm os ∧ out = join (names e t1 ++ names e t2)

/-! ### The tables -/

/-- Names are different, not empty and without the separator; values are disjoint and not zero. -/
def ok (t : Table) : Bool :=
  decide ((t.map Prod.snd).Nodup) && t.all (fun x => decide (x.2 ≠ []) && decide ('|' ∉ x.2) && decide (x.1 ≠ 0)) &&
  decide (t.Pairwise (fun x y => x.1 &&& y.1 = 0))

theorem all_ok : ∀ x ∈ all, ok (estr x.1 ++ x.2) = true := by
  simp only [all, List.forall_mem_cons]
  refine ⟨?_, ?_, ?_, ?_, ?_, ?_, by simp⟩ <;> decide

theorem ok_nodup {t : Table} (h : ok t = true) : (t.map Prod.snd).Nodup := by
  simp only [ok, Bool.and_eq_true, decide_eq_true_eq] at h; exact h.1.1

theorem ok_each {t : Table} (h : ok t = true) {x : Event × Str} (hx : x ∈ t) : x.2 ≠ [] ∧ '|' ∉ x.2 ∧ x.1 ≠ 0 := by
  simp only [ok, Bool.and_eq_true, decide_eq_true_eq, List.all_eq_true] at h
  have := h.1.2 x hx
  exact ⟨this.1.1, this.1.2, this.2⟩

theorem ok_disjoint {t : Table} (h : ok t = true) {x y : Event × Str} (hx : x ∈ t) (hy : y ∈ t) (hne : x ≠ y) : x.1 &&& y.1 = 0 := by
  have h : t.Pairwise (fun x y => x.1 &&& y.1 = 0) := by
    simp only [ok, Bool.and_eq_true, decide_eq_true_eq] at h; exact h.2
  clear * - h hx hy hne
  induction t with
  | nil => simp at hx
  | cons a t ih =>
    rw [List.pairwise_cons] at h
    rcases List.mem_cons.mp hx with hxa | hx'
    · rcases List.mem_cons.mp hy with hya | hy'
      · exact absurd (hxa.trans hya.symm) hne
      · rw [hxa]; exact h.1 y hy'
    · rcases List.mem_cons.mp hy with hya | hy'
      · rw [hya, BitVec.and_comm]; exact h.1 x hx'
      · exact ih hx' hy' h.2

theorem nodup_inj {t : Table} (h : (t.map Prod.snd).Nodup) {x y : Event × Str} (hx : x ∈ t) (hy : y ∈ t) (he : x.2 = y.2) : x = y := by
  induction t with
  | nil => simp at hx
  | cons a t ih =>
    rw [List.map_cons, List.nodup_cons] at h
    rcases List.mem_cons.mp hx with hxa | hx'
    · rcases List.mem_cons.mp hy with hya | hy'
      · exact hxa.trans hya.symm
      · exact absurd (List.mem_map.mpr ⟨y, hy', by rw [← he, hxa]⟩) h.1
    · rcases List.mem_cons.mp hy with hya | hy'
      · exact absurd (List.mem_map.mpr ⟨x, hx', by rw [he, hya]⟩) h.1
      · exact ih h.2 hx' hy'

/-! ### Joining -/

theorem join_cons {a : Str} {l : List Str} : join (a :: l) = match l with | [] => a | _ :: _ => a ++ '|' :: join l := by
  cases l <;> rfl

theorem append_sep {a b x y : Str} (ha : '|' ∉ a) (hb : '|' ∉ b) (h : a ++ '|' :: x = b ++ '|' :: y) : a = b ∧ x = y := by
  induction a generalizing b with
  | nil =>
    cases b with
    | nil => simpa using h
    | cons c b => simp at h; exact absurd (by simp [← h.1]) hb
  | cons c a ih =>
    cases b with
    | nil => simp at h; exact absurd (by simp [h.1]) ha
    | cons d b =>
      simp only [List.cons_append, List.cons.injEq] at h
      obtain ⟨h1, h2⟩ := ih (by simp at ha; exact ha.2) (by simp at hb; exact hb.2) h.2
      exact ⟨by rw [h.1, h1], h2⟩

/-- The names can be read back. -/
theorem join_inj {l l' : List Str} (h : ∀ a ∈ l, a ≠ [] ∧ '|' ∉ a) (h' : ∀ a ∈ l', a ≠ [] ∧ '|' ∉ a) (he : join l = join l') : l = l' := by
  induction l generalizing l' with
  | nil =>
    cases l' with
    | nil => rfl
    | cons b l' =>
      exfalso
      have hb := (h' b (by simp)).1
      cases l' with
      | nil => exact hb he.symm
      | cons c l' => cases b <;> simp [join] at he
  | cons a l ih =>
    cases l' with
    | nil =>
      exfalso
      have ha := (h a (by simp)).1
      cases l with
      | nil => exact ha he
      | cons c l => cases a <;> simp [join] at he
    | cons b l' =>
      have ha := (h a (by simp)).2
      have hb := (h' b (by simp)).2
      rw [join_cons, join_cons] at he
      cases l with
      | nil =>
        cases l' with
        | nil => rw [show a = b from he]
        | cons d l' => exfalso; simp only at he; exact ha (by simp [he])
      | cons c l =>
        cases l' with
        | nil => exfalso; simp only at he; exact hb (by simp [← he])
        | cons d l' =>
          simp only at he
          obtain ⟨h1, h2⟩ := append_sep ha hb he
          rw [h1, ih (fun x hx => h x (by simp [hx])) (fun x hx => h' x (by simp [hx])) h2]

/-! ### C77 -/

theorem and_eq_iff (e v : Event) : e &&& v = v ↔ v ⊑ e := by
  constructor <;> intro h <;> ebits

theorem prints_names {P : Platform} {os : Table} {e : Event} {out : Str} (h : Prints P os e out) :
    ∃ l, out = join l ∧ l.Perm (names e (estr P ++ os)) := by
  obtain ⟨t1, t2, h1, h2, rfl⟩ := h
  refine ⟨_, rfl, ?_⟩
  unfold names
  rw [List.filter_append, List.map_append]
  exact ((h1.filter _).map _).append ((h2.filter _).map _)

theorem mem_names {t : Table} {e : Event} {n : Str} : n ∈ names e t ↔ ∃ v, (v, n) ∈ t ∧ v ⊑ e := by
  simp only [names, List.mem_map, List.mem_filter, decide_eq_true_eq, and_eq_iff]
  constructor
  · rintro ⟨⟨v, n'⟩, ⟨h1, h2⟩, rfl⟩; exact ⟨v, h1, h2⟩
  · rintro ⟨v, h1, h2⟩; exact ⟨(v, n), ⟨h1, h2⟩, rfl⟩

/-- **C77, names.**  On every platform, for every set and every order of the maps: the text is a list of names separated by bars, in which the name of every constant
contained in the set occurs exactly once, and nothing else occurs. -/
theorem C77_names {P : Platform} {os : Table} (hP : (P, os) ∈ all) {e : Event} {out : Str} (h : Prints P os e out) :
    ∃ l : List Str, out = join l ∧ l.Nodup ∧ (∀ n, n ∈ l ↔ ∃ v, (v, n) ∈ estr P ++ os ∧ v ⊑ e) ∧
      ∀ l' : List Str, (∀ n ∈ l', n ≠ [] ∧ '|' ∉ n) → out = join l' → l' = l := by
  have hok := all_ok _ hP
  obtain ⟨l, h1, h2⟩ := prints_names h
  have hmem : ∀ n, n ∈ l ↔ ∃ v, (v, n) ∈ estr P ++ os ∧ v ⊑ e := fun n => by rw [h2.mem_iff, mem_names]
  refine ⟨l, h1, ?_, hmem, fun l' hl' he => join_inj hl' (fun n hn => ?_) (he.symm.trans h1)⟩
  · rw [h2.nodup_iff]
    exact (ok_nodup hok).sublist (List.filter_sublist.map _)
  · obtain ⟨v, hv, _⟩ := (hmem n).mp hn
    exact ⟨(ok_each hok hv).1, (ok_each hok hv).2.1⟩

/-- The set is a union of constants that have names. -/
def Named (t : Table) (e : Event) : Prop := ∃ s : Table, (∀ x ∈ s, x ∈ t) ∧ e = s.foldr (fun x a => x.1 ||| a) 0

theorem bit_foldr (s : Table) (i : Nat) :
    BitVec.getLsbD (s.foldr (fun x a => x.1 ||| a) (0 : Event)) i = true ↔ ∃ x ∈ s, BitVec.getLsbD x.1 i = true := by
  induction s with
  | nil => simp
  | cons x s ih =>
    rw [List.foldr_cons, BitVec.getLsbD_or, Bool.or_eq_true, ih]
    simp only [List.mem_cons, exists_eq_or_imp]

/-- **C77, the text determines the set.**  Two sets of named constants with the same text are equal. -/
theorem C77_determines {P : Platform} {os : Table} (hP : (P, os) ∈ all) {e e' : Event} {out : Str} (h : Prints P os e out) (h' : Prints P os e' out)
    (he : Named (estr P ++ os) e) (he' : Named (estr P ++ os) e') : e = e' := by
  have hok := all_ok _ hP
  have key : ∀ {e e' : Event}, Prints P os e out → Prints P os e' out → Named (estr P ++ os) e → e ⊑ e' := by
    intro e e' h h' he
    obtain ⟨l, h1, _, h3, _⟩ := C77_names hP h
    obtain ⟨l', h1', _, h3', h4'⟩ := C77_names hP h'
    have hl : l = l' := by
      refine h4' l (fun n hn => ?_) h1
      obtain ⟨v, hv, _⟩ := (h3 n).mp hn
      exact ⟨(ok_each hok hv).1, (ok_each hok hv).2.1⟩
    obtain ⟨s, hs, rfl⟩ := he
    intro i hi
    obtain ⟨x, hx, hxi⟩ := (bit_foldr s i).mp hi
    have hxs : x.1 ⊑ s.foldr (fun x a => x.1 ||| a) 0 := fun j hj => (bit_foldr s j).mpr ⟨x, hx, hj⟩
    obtain ⟨v, hv, hve⟩ := (h3' x.2).mp (hl ▸ (h3 x.2).mpr ⟨x.1, hs x hx, hxs⟩)
    have : (v, x.2) = x := by
      have hn := ok_nodup hok
      exact nodup_inj hn hv (hs x hx) rfl
    have hvx : v = x.1 := congrArg Prod.fst this
    exact hve i (hvx ▸ hxi)
  exact Event.Sub.antisymm (key h h' he) (key h' h he')

/-- **C77, single constants.**  A single constant prints as its name, whatever the order: this is the case of the events that are delivered. -/
theorem C77_single {P : Platform} {os : Table} (hP : (P, os) ∈ all) {v : Event} {n : Str} (hv : (v, n) ∈ estr P ++ os) (out : Str) :
    Prints P os v out ↔ out = n := by
  have hok := all_ok _ hP
  have hl : ∀ {out}, Prints P os v out → out = n := by
    intro out h
    obtain ⟨l, h1, h2, h3, _⟩ := C77_names hP h
    have hone : ∀ m, m ∈ l ↔ m = n := by
      intro m
      rw [h3]
      constructor
      · rintro ⟨u, hu, huv⟩
        by_cases hne : ((u, m) : Event × Str) = (v, n)
        · exact congrArg Prod.snd hne
        · exfalso
          have hd := ok_disjoint hok hu hv hne
          have hz := (ok_each hok hu).2.2
          apply hz
          simp only at hd hz ⊢
          clear hz h3
          ebits
      · rintro rfl; exact ⟨v, hv, Event.Sub.refl _⟩
    have : l = [n] := by
      have hn : n ∈ l := (hone n).mpr rfl
      match l, h2, hone, hn with
      | [a], _, ho, _ => rw [(ho a).mp (by simp)]
      | a :: b :: l, hnd, ho, _ =>
        have h1 := (ho a).mp (by simp)
        have h2 := (ho b).mp (by simp)
        simp [h1, h2] at hnd
    rw [h1, this]; rfl
  refine ⟨hl, ?_⟩
  rintro rfl
  have hx : Prints P os v (join (names v (estr P) ++ names v os)) := ⟨_, _, List.Perm.refl _, List.Perm.refl _, rfl⟩
  rw [← hl hx]; exact hx

/-- The exported constants of the platforms (event.go:24-29, event_inotify.go:28-41, event_kqueue.go:29-50, event_fen.go:23-45, event_fsevents.go:24-44,
event_readdcw.go:36-69): one for each bit on Linux, on the BSDs, on Solaris and on macOS. -/
def exported : List (Platform × List Event) :=
  [(.inotify, [0x1, 0x2, 0x4, 0x8, 0x10, 0x20, 0x40, 0x80, 0x100, 0x200, 0x400, 0x800, 0x100000, 0x200000, 0x400000, 0x800000]),
   (.kqueue, [0x1, 0x2, 0x4, 0x8, 0x10, 0x20, 0x40, 0x100, 0x200, 0x400, 0x800]),
   (.fen, [0x1, 0x2, 0x4, 0x10, 0x20, 0x40, 0x100000, 0x10000000, 0x20000000, 0x40000000, 0x100, 0x200, 0x400, 0x800]),
   (.fsevents, [0x1, 0x2, 0x4, 0x8, 0x10, 0x20, 0x40, 0x80, 0x100, 0x200, 0x400, 0x800, 0x1000, 0x2000, 0x4000, 0x8000, 0x10000, 0x20000, 0x40000]),
   (.readdcw, [0x1, 0x2, 0x4, 0x8, 0x10, 0x20, 0x40, 0x100, 0x1000, 0x2000, 0xc000, 0x20000, 0x50000, 0x100000, 0x200000, 0x400000, 0x800000]),
   (.stub, [Platform.stub.create, Platform.stub.remove, Platform.stub.write, Platform.stub.rename])]

/-- **C77, every constant has a name.**  On every platform every exported constant prints as one name that is not empty. -/
theorem C77_complete (i : Fin 6) {v : Event} (hv : v ∈ (exported[i.val]'i.isLt).2) :
    ∃ n, n ≠ [] ∧ ∀ out, Prints (all[i.val]'i.isLt).1 (all[i.val]'i.isLt).2 v out ↔ out = n := by
  have key : ∀ (i : Fin 6), ((exported[i.val]'i.isLt).2.all (fun v =>
      (estr (all[i.val]'i.isLt).1 ++ (all[i.val]'i.isLt).2).any (fun x => decide (x.1 = v)))) = true := by decide
  have h := List.any_eq_true.mp (List.all_eq_true.mp (key i) v hv)
  obtain ⟨⟨u, n⟩, hm, hu⟩ := h
  have hu : u = v := of_decide_eq_true hu
  subst hu
  have hP : ((all[i.val]'i.isLt).1, (all[i.val]'i.isLt).2) ∈ all := List.getElem_mem _
  exact ⟨n, (ok_each (all_ok _ hP) hm).1, C77_single hP hm⟩

/-- **C77, nothing but the constants has a name:** the names of a platform are those of its exported constants and of the two internal marks. -/
theorem C77_exact (i : Fin 6) (v : Event) :
    (∃ n, (v, n) ∈ estr (all[i.val]'i.isLt).1 ++ (all[i.val]'i.isLt).2) ↔
      v ∈ (exported[i.val]'i.isLt).2 ∨ v = (all[i.val]'i.isLt).1.recursive ∨ v = (all[i.val]'i.isLt).1.omitted := by
  have k1 : ∀ (i : Fin 6), ∀ x ∈ estr (all[i.val]'i.isLt).1 ++ (all[i.val]'i.isLt).2,
      x.1 ∈ (exported[i.val]'i.isLt).2 ∨ x.1 = (all[i.val]'i.isLt).1.recursive ∨ x.1 = (all[i.val]'i.isLt).1.omitted := by decide
  have k2 : ∀ (i : Fin 6), ((exported[i.val]'i.isLt).2.all (fun v =>
      (estr (all[i.val]'i.isLt).1 ++ (all[i.val]'i.isLt).2).any (fun x => decide (x.1 = v)))) = true := by decide
  constructor
  · rintro ⟨n, h⟩; exact k1 i _ h
  · rintro (h | rfl | rfl)
    · obtain ⟨⟨u, n⟩, hm, hu⟩ := List.any_eq_true.mp (List.all_eq_true.mp (k2 i) v h)
      exact ⟨n, of_decide_eq_true hu ▸ hm⟩
    · exact ⟨"recursive".toList, List.mem_append_left _ (by simp [estr])⟩
    · exact ⟨"omit".toList, List.mem_append_left _ (by simp [estr])⟩

/-- The exported constants do not overlap the internal marks, and each platform's are different. -/
theorem C77_exported (i : Fin 6) : ((exported[i.val]'i.isLt).1 = (all[i.val]'i.isLt).1) ∧ (exported[i.val]'i.isLt).2.Nodup ∧
    (all[i.val]'i.isLt).1.recursive ∉ (exported[i.val]'i.isLt).2 ∧ (all[i.val]'i.isLt).1.omitted ∉ (exported[i.val]'i.isLt).2 := by
  refine ⟨?_, by revert i; decide⟩
  match i with
  | 0 => rfl
  | 1 => rfl
  | 2 => rfl
  | 3 => rfl
  | 4 => rfl
  | 5 => rfl

/-- A set of two on Linux, and a single action on Windows. -/
example : (Platform.inotify, inotifyStr) ∈ all ∧ Prints .inotify inotifyStr 0x100002 "notify.Create|notify.InModify".toList ∧
    Named (estr .inotify ++ inotifyStr) 0x100002 ∧ ((0xc000, "notify.FileActionModified".toList) : Event × Str) ∈ estr .readdcw ++ readdcwStr :=
  ⟨by simp [all], ⟨_, _, List.Perm.refl _, List.Perm.refl _, by decide⟩,
    ⟨[(0x100000, "notify.Create".toList), (0x2, "notify.InModify".toList)], by decide, by decide⟩, by decide⟩

/-- **C77 is false of sets of two or more:** the text of the same set differs from call to call. -/
theorem C77_order_refuted : Prints .inotify inotifyStr (Platform.inotify.create ||| Platform.inotify.write) "notify.Create|notify.Write".toList ∧
    Prints .inotify inotifyStr (Platform.inotify.create ||| Platform.inotify.write) "notify.Write|notify.Create".toList :=
  ⟨⟨_, _, List.Perm.refl _, List.Perm.refl _, by decide⟩, ⟨(estr .inotify).reverse, _, List.reverse_perm _, List.Perm.refl _, by decide⟩⟩

end EventString
end Verif
