/-
Watchpoints.

Models: /repo/watchpoint.go (whole file), /repo/watchpoint_other.go (lines 12-24),
/repo/watchpoint_readdcw.go (lines 14-39), and the parts of `EventInfo` (event.go:108-112)
that the trees look at.
-/
import Verif.Event
import Verif.GoMap

namespace Verif

/-- A path name component; strings are lists of characters. -/
abbrev Comp := List Char

/-- An absolute path as the list of its components: `/a/b` is `["a","b"]`, the name `""` of
the root node is `[]`, and `/` is `[""]`.  Module `PathStr` proves that the string functions
of util.go agree with this view. -/
abbrev Path := List Comp

/-- File type as cached in a Windows event (event_readdcw.go:90-94). -/
inductive FType | unknown | file | directory
  deriving DecidableEq, Repr

/-- The part of an `EventInfo` used by the trees: `Event()`, `Path()`, `isDir()` (`none` is an
error) and, for Windows, the cached file type. -/
structure EventInfo where
  event : Event
  path : Path
  isDir : Option Bool := some false
  ftype : FType := .unknown
  deriving DecidableEq, Repr

/-- Keys of a watchpoint map (watchpoint.go:23 `map[chan<- EventInfo]Event`): the nil channel
(total event set), the tree's internal channel `t.rec`, and user channels. -/
inductive Key
  | nil
  | recCh
  | user (c : Nat)
  deriving DecidableEq, Repr

/-- `type eventDiff [2]Event` (watchpoint.go:10). -/
abbrev Diff := Event × Event

/-- `var none eventDiff` (watchpoint.go:26). -/
def Diff.none : Diff := (0, 0)

/-- `func (diff eventDiff) Event() Event` (watchpoint.go:12-14). -/
def Diff.event (d : Diff) : Event := d.2 &^ d.1

/-- `type watchpoint map[chan<- EventInfo]Event` (watchpoint.go:23). -/
abbrev WP := GoMap Key Event

namespace WP
open GoMap

/-- `wp[k]`, the zero value if the key is missing. -/
def val (wp : WP) (k : Key) : Event := (wp.get? k).getD 0

/-- `func (wp watchpoint) dryAdd` (watchpoint.go:35-41). -/
def dryAdd (P : Platform) (wp : WP) (ch : Key) (e : Event) : Diff :=
  let e := e &^ P.internal
  if wp.val ch &&& e = e then Diff.none
  else
    let total := wp.val ch &^ P.internal
    (total, total ||| e)

/-- Strip the internal bits and normalise (watchpoint.go:49-55 and 72-78). -/
def mkDiff (P : Platform) (a b : Event) : Diff :=
  let d0 := a &^ P.internal
  let d1 := b &^ P.internal
  if d0 = d1 then Diff.none else (d0, d1)

/-- `func (wp watchpoint) Add` (watchpoint.go:44-56). -/
def add (P : Platform) (wp : WP) (c : Key) (e : Event) : WP × Diff :=
  let wp : WP := wp.set c (wp.val c ||| e)
  let d0 := wp.val .nil
  let d1 := d0 ||| e
  let wp : WP := wp.set .nil (d1 &^ P.omitted)
  (wp, mkDiff P d0 d1)

/-- The loop `for _, e := range wp { diff[1] |= e }` (watchpoint.go:67-69). -/
def orAll : WP → Event
  | [] => 0
  | (_, e) :: wp => e ||| orAll wp

/-- `func (wp watchpoint) Del` (watchpoint.go:58-79). -/
def del (P : Platform) (wp : WP) (c : Key) (e : Event) : WP × Diff :=
  let wp : WP := wp.set c (wp.val c &^ e)
  let wp : WP := if wp.val c = 0 then GoMap.del wp c else wp
  let d0 := wp.val .nil
  let wp : WP := GoMap.del wp .nil
  if wp.length ≠ 0 then
    let d1 := orAll wp
    (wp.set .nil (d1 &^ P.omitted), mkDiff P d0 d1)
  else
    (wp, mkDiff P d0 0)

/-- `func eventmask` (watchpoint_other.go:12-14, watchpoint_readdcw.go:14-29). -/
def eventmask (P : Platform) (ei : EventInfo) (extra : Event) : Event :=
  let e := ei.event ||| extra
  if P.windows then
    if e &&& P.fileActionAll ≠ 0 then
      let e := match ei.ftype with
        | .file => e ||| P.changeFileName
        | .directory => e ||| P.changeDirName
        | .unknown => e ||| P.changeModified
      e &^ P.fileActionAll
    else e
  else e

/-- `func matches` (watchpoint_other.go:22-24, watchpoint_readdcw.go:37-39). -/
def matchesEv (P : Platform) (set event : Event) : Bool :=
  if P.windows then
    decide ((set &&& P.omitted) ^^^ (event &&& P.omitted) = 0) &&
      (decide (set &&& event = event) || decide (set &&& P.changeModified &&& event ≠ 0))
  else
    decide ((set &&& P.omitted) ^^^ (event &&& P.omitted) = 0) && decide (set &&& event = event)

/-- `func (wp watchpoint) Dispatch` (watchpoint.go:81-95): the channels to which a
non-blocking send of `ei` is attempted, in range order.  What the attempt does to the channel
is modelled by `Chan.offer` in module `Channel`. -/
def dispatch (P : Platform) (wp : WP) (ei : EventInfo) (extra : Event) : List Key :=
  let e := eventmask P ei extra
  if matchesEv P (wp.val .nil) e then
    (wp.filter fun p => decide (p.1 ≠ Key.nil) && matchesEv P p.2 e).map Prod.fst
  else []

/-- `func (wp watchpoint) Total` (watchpoint.go:97-99). -/
def total (P : Platform) (wp : WP) : Event := wp.val .nil &^ P.internal

/-- `func (wp watchpoint) IsRecursive` (watchpoint.go:101-103). -/
def isRecursive (P : Platform) (wp : WP) : Bool := decide (wp.val .nil &&& P.recursive ≠ 0)

/-! ### Lemmas -/

/-- Bit `i` of event `e`. -/
abbrev bit (e : Event) (i : Nat) : Bool := BitVec.getLsbD e i

@[simp] theorem val_nil (k : Key) : val [] k = 0 := rfl

theorem val_eq_of_get? {wp : WP} {k : Key} {v : Event} (h : wp.get? k = some v) : wp.val k = v := by
  simp [val, h]

theorem val_eq_zero_of_none {wp : WP} {k : Key} (h : wp.get? k = none) : wp.val k = 0 := by
  simp [val, h]

theorem val_set (wp : WP) (k k' : Key) (v : Event) :
    val (wp.set k v) k' = if k = k' then v else val wp k' := by
  simp only [val, get?_set]; split <;> simp

theorem val_del (wp : WP) (k k' : Key) :
    val (GoMap.del wp k) k' = if k = k' then 0 else val wp k' := by
  simp only [val, get?_del]; split <;> simp

theorem bit_orAll (wp : WP) (i : Nat) :
    bit (orAll wp) i = true ↔ ∃ k v, (k, v) ∈ wp ∧ bit v i = true := by
  induction wp with
  | nil => simp [orAll]
  | cons p wp ih =>
    obtain ⟨k, v⟩ := p
    simp only [orAll, bit, BitVec.getLsbD_or, Bool.or_eq_true, List.mem_cons, Prod.mk.injEq]
    simp only [bit] at ih
    rw [ih]
    constructor
    · rintro (h | ⟨k', v', h, h'⟩)
      · exact ⟨k, v, .inl ⟨rfl, rfl⟩, h⟩
      · exact ⟨k', v', .inr h, h'⟩
    · rintro ⟨k', v', (⟨rfl, rfl⟩ | h), h'⟩
      · exact .inl h'
      · exact .inr ⟨k', v', h, h'⟩

theorem mkDiff_fst_snd (P : Platform) (a b : Event) :
    mkDiff P a b = if a &^ P.internal = b &^ P.internal then Diff.none
      else (a &^ P.internal, b &^ P.internal) := rfl

theorem get?_add (P : Platform) (wp : WP) {c : Key} (hc : c ≠ .nil) (e : Event) (k : Key) :
    (add P wp c e).1.get? k =
      if k = .nil then some ((wp.val .nil ||| e) &^ P.omitted)
      else if k = c then some (wp.val c ||| e) else wp.get? k := by
  simp only [add, get?_set, val_set]
  grind

theorem add_diff (P : Platform) (wp : WP) {c : Key} (hc : c ≠ .nil) (e : Event) :
    (add P wp c e).2 = mkDiff P (wp.val .nil) (wp.val .nil ||| e) := by
  simp only [add, val_set]
  grind

/-- A watchpoint in which the total is the union of the channels' sets. -/
structure Inv (P : Platform) (wp : WP) : Prop where
  nodup : wp.Nodup
  /-- The total entry exists iff some channel is registered. -/
  nil_none : wp.get? .nil = none ↔ ∀ k, k ≠ .nil → wp.get? k = none
  /-- The total entry is the union of all others without the `omit` bit. -/
  total_bit : ∀ i, bit (wp.val .nil) i = true ↔
    bit P.omitted i = false ∧ ∃ k v, k ≠ Key.nil ∧ wp.get? k = some v ∧ bit v i = true

theorem inv_nil (P : Platform) : Inv P [] where
  nodup := by simp
  nil_none := by simp
  total_bit := by simp [val]

theorem Inv.add {P : Platform} {wp : WP} (h : Inv P wp) {c : Key} (hc : c ≠ .nil) (e : Event) :
    Inv P (add P wp c e).1 where
  nodup := (h.nodup.set _ _).set _ _
  nil_none := by
    simp only [get?_add P wp hc, if_true]
    simp only [reduceCtorEq, false_iff]
    intro hh
    have := hh c hc
    simp [hc] at this
  total_bit := by
    intro i
    have hat : val (WP.add P wp c e).1 .nil = (wp.val .nil ||| e) &^ P.omitted := by
      simp [val, get?_add P wp hc]
    rw [hat]
    simp only [bit, Event.bit_andNot, BitVec.getLsbD_or, Bool.and_eq_true, Bool.or_eq_true,
      Bool.not_eq_true', get?_add P wp hc]
    have hb := h.total_bit i
    simp only [bit] at hb
    rw [hb]
    constructor
    · rintro ⟨⟨_, k, v, hk, hg, hv⟩ | he, ho⟩
      · refine ⟨ho, ?_⟩
        by_cases hkc : k = c
        · subst hkc
          refine ⟨k, wp.val k ||| e, hc, by simp [hc], ?_⟩
          simp [val, hg, hv]
        · exact ⟨k, v, hk, by simp [hk, hkc, hg], hv⟩
      · exact ⟨ho, c, wp.val c ||| e, hc, by simp [hc], by simp [he]⟩
    · rintro ⟨ho, k, v, hk, hg, hv⟩
      refine ⟨?_, ho⟩
      simp only [hk, if_false] at hg
      by_cases hkc : k = c
      · subst hkc
        simp only [if_true, Option.some.injEq] at hg
        subst hg
        simp only [BitVec.getLsbD_or, Bool.or_eq_true] at hv
        rcases hv with hv | hv
        · left
          refine ⟨ho, k, wp.val k, hk, ?_, hv⟩
          simp only [val] at hv ⊢
          cases hg : wp.get? k with
          | none => rw [hg] at hv; simp at hv
          | some v => simp
        · right; exact hv
      · simp only [hkc, if_false] at hg
        left; exact ⟨ho, k, v, hk, hg, hv⟩

/-- The intermediate map of `Del`: the channel's entry reduced, the total removed. -/
def del0 (wp : WP) (c : Key) (e : Event) : WP :=
  let wp : WP := wp.set c (wp.val c &^ e)
  let wp : WP := if wp.val c = 0 then GoMap.del wp c else wp
  GoMap.del wp .nil

theorem get?_del0 (wp : WP) {c : Key} (hc : c ≠ .nil) (e : Event) (k : Key) :
    (del0 wp c e).get? k =
      if k = .nil then none
      else if k = c then (if wp.val c &^ e = 0 then none else some (wp.val c &^ e))
      else wp.get? k := by
  simp only [del0, val_set, if_true]
  split <;> simp only [get?_del, get?_set] <;> grind

theorem nodup_del0 {wp : WP} (h : wp.Nodup) (c : Key) (e : Event) : (del0 wp c e).Nodup := by
  simp only [del0]
  split
  · exact ((h.set _ _).del _).del _
  · exact (h.set _ _).del _

theorem del_eq (P : Platform) (wp : WP) {c : Key} (hc : c ≠ .nil) (e : Event) :
    del P wp c e =
      (if (del0 wp c e) = [] then [] else
          (del0 wp c e).set .nil (orAll (del0 wp c e) &^ P.omitted),
       mkDiff P (wp.val .nil) (orAll (del0 wp c e))) := by
  have hnil : val (if val (wp.set c (wp.val c &^ e)) c = 0
      then GoMap.del (wp.set c (wp.val c &^ e)) c else wp.set c (wp.val c &^ e)) .nil = wp.val .nil := by
    split <;> simp [val_del, val_set, hc]
  simp only [del, hnil]
  change (if (del0 wp c e).length ≠ 0
    then ((del0 wp c e).set .nil (orAll (del0 wp c e) &^ P.omitted),
      mkDiff P (wp.val .nil) (orAll (del0 wp c e)))
    else (del0 wp c e, mkDiff P (wp.val .nil) 0)) = _
  generalize del0 wp c e = m
  cases m <;> simp [orAll]

theorem get?_del_ne_nil (P : Platform) (wp : WP) {c : Key} (hc : c ≠ .nil) (e : Event) {k : Key}
    (hk : k ≠ .nil) :
    (del P wp c e).1.get? k =
      if k = c then (if wp.val c &^ e = 0 then none else some (wp.val c &^ e)) else wp.get? k := by
  rw [del_eq P wp hc]
  have := get?_del0 wp hc e k
  simp only [hk, if_false] at this
  rw [← this]
  dsimp only
  split
  · next h => simp [h]
  · simp [get?_set, Ne.symm hk]

theorem get?_del_nil (P : Platform) (wp : WP) {c : Key} (hc : c ≠ .nil) (e : Event) :
    (del P wp c e).1.get? .nil =
      if del0 wp c e = [] then none else some (orAll (del0 wp c e) &^ P.omitted) := by
  rw [del_eq P wp hc]
  dsimp only
  split <;> simp [get?_set]

theorem val_del_nil (P : Platform) (wp : WP) {c : Key} (hc : c ≠ .nil) (e : Event) :
    (del P wp c e).1.val .nil = orAll (del0 wp c e) &^ P.omitted := by
  rw [val, get?_del_nil P wp hc]
  split
  · next h => simp [h, orAll]
  · simp

theorem bit_orAll_del0 {wp : WP} (hn : wp.Nodup) {c : Key} (hc : c ≠ .nil) (e : Event) (i : Nat) :
    bit (orAll (del0 wp c e)) i = true ↔
      ∃ k v, k ≠ Key.nil ∧ (del0 wp c e).get? k = some v ∧ bit v i = true := by
  rw [bit_orAll]
  constructor
  · rintro ⟨k, v, hm, hv⟩
    have hg := get?_of_mem (nodup_del0 hn c e) hm
    refine ⟨k, v, ?_, hg, hv⟩
    rintro rfl
    rw [get?_del0 wp hc] at hg; simp at hg
  · rintro ⟨k, v, _, hg, hv⟩
    exact ⟨k, v, mem_of_get? hg, hv⟩

theorem Nodup_del_fst {P : Platform} {wp : WP} (h : wp.Nodup) {c : Key} (hc : c ≠ .nil) (e : Event) :
    (del P wp c e).1.Nodup := by
  rw [del_eq P wp hc]
  dsimp only
  split
  · simp
  · exact (nodup_del0 h c e).set _ _

/-- `Del` recomputes the total, so it establishes the invariant from any map. -/
theorem inv_del {P : Platform} {wp : WP} (h : wp.Nodup) {c : Key} (hc : c ≠ .nil) (e : Event) :
    Inv P (del P wp c e).1 where
  nodup := Nodup_del_fst h hc e
  nil_none := by
    rw [get?_del_nil P wp hc]
    have h0 := fun k => get?_del0 wp hc e k
    constructor
    · intro hh k hk
      split at hh
      · next he =>
        rw [get?_del_ne_nil P wp hc e hk]
        have := h0 k
        rw [he] at this
        simp only [get?_nil, hk, if_false] at this
        exact this.symm
      · simp at hh
    · intro hh
      rw [if_pos]
      rw [GoMap.eq_nil_iff_get?]
      intro k
      rw [h0 k]
      split
      · rfl
      · next hk =>
        have := hh k hk
        rw [get?_del_ne_nil P wp hc e hk] at this
        exact this
  total_bit := by
    intro i
    rw [val_del_nil P wp hc]
    simp only [bit, Event.bit_andNot, Bool.and_eq_true, Bool.not_eq_true']
    have hb := bit_orAll_del0 h hc e i
    simp only [bit] at hb
    rw [hb, and_comm]
    constructor
    · rintro ⟨ho, k, v, hk, hg, hv⟩
      refine ⟨ho, k, v, hk, ?_, hv⟩
      rw [get?_del_ne_nil P wp hc e hk]
      rw [get?_del0 wp hc] at hg
      simpa [hk] using hg
    · rintro ⟨ho, k, v, hk, hg, hv⟩
      refine ⟨ho, k, v, hk, ?_, hv⟩
      rw [get?_del_ne_nil P wp hc e hk] at hg
      rw [get?_del0 wp hc]
      simpa [hk] using hg

theorem del_diff (P : Platform) (wp : WP) {c : Key} (hc : c ≠ .nil) (e : Event) :
    (del P wp c e).2 = mkDiff P (wp.val .nil) ((del P wp c e).1.val .nil) := by
  rw [val_del_nil P wp hc, del_eq P wp hc]
  simp only [mkDiff]
  have : ∀ x : Event, (x &^ P.omitted) &^ P.internal = x &^ P.internal := by intro x; ebits
  rw [this]

theorem add_diff' (P : Platform) (wp : WP) {c : Key} (hc : c ≠ .nil) (e : Event) :
    (add P wp c e).2 = mkDiff P (wp.val .nil) ((add P wp c e).1.val .nil) := by
  rw [add_diff P wp hc]
  have h1 : (add P wp c e).1.val .nil = (wp.val .nil ||| e) &^ P.omitted := by
    simp [val, get?_add P wp hc]
  rw [h1]
  simp only [mkDiff]
  have : ∀ x : Event, (x &^ P.omitted) &^ P.internal = x &^ P.internal := by intro x; ebits
  rw [this]

theorem Inv.val_sub {P : Platform} {wp : WP} (h : Inv P wp) {k : Key} (hk : k ≠ .nil) :
    (wp.val k &^ P.omitted) ⊑ wp.val .nil := by
  intro i hi
  rw [Event.bit_andNot] at hi
  simp only [Bool.and_eq_true, Bool.not_eq_true'] at hi
  refine (h.total_bit i).2 ⟨hi.2, k, wp.val k, hk, ?_, hi.1⟩
  cases hg : wp.get? k with
  | none => simp [val, hg] at hi
  | some v => simp [val, hg]

theorem Inv.eq_nil_iff {P : Platform} {wp : WP} (h : Inv P wp) : wp = [] ↔ wp.get? .nil = none := by
  rw [GoMap.eq_nil_iff_get?]
  constructor
  · intro hh; exact hh _
  · intro hh k
    by_cases hk : k = .nil
    · exact hk ▸ hh
    · exact h.nil_none.1 hh k hk

end WP
end Verif
