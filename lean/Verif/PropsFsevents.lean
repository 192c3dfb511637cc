/-
C37, C38, C39: the FSEvents watcher.
-/
import Verif.Fsevents
import Verif.PropsPath
import Verif.PropsInotify

namespace Verif
namespace Fsevents
open PathStr (Str Comps str sep)
open Event

/-! ### C37: splitting a flag set -/

/-- The single flag number `k`. -/
def flag (k : Nat) : Event := BitVec.twoPow 32 k

theorem bit_shift (set : Event) (k : Nat) : (set >>> k) &&& 1 ≠ 0 ↔ set.getLsbD k = true := by
  rw [show (1 : Event) = BitVec.twoPow 32 0 from rfl, Inotify.and_pow _ (by omega), BitVec.getLsbD_ushiftRight]
  simp

theorem splitLoop_eq (set : Event) : ∀ n k, k + n = 32 →
    splitLoop (flag k) (set >>> k) = ((List.range' k n).filter (fun j => set.getLsbD j)).map flag
  | 0, k, h => by
    have : set >>> k = 0 := by
      apply zero_of_getLsbD; intro i
      rw [BitVec.getLsbD_ushiftRight]; exact BitVec.getLsbD_of_ge _ _ (by omega)
    rw [this, splitLoop]; simp
  | n + 1, k, h => by
    have hf : flag k <<< 1 = flag (k + 1) := by
      simp [flag, BitVec.twoPow, ← BitVec.shiftLeft_add]
    have hs : set >>> k >>> 1 = set >>> (k + 1) := by rw [BitVec.shiftRight_add]
    have ih := splitLoop_eq set n (k + 1) (by omega)
    rw [splitLoop, hf, hs, ih, List.range'_succ]
    by_cases h0 : set >>> k = 0
    · rw [if_neg (by simpa using h0)]
      have hz : ∀ j, k ≤ j → set.getLsbD j = false := by
        intro j hj
        have := congrArg (fun x => BitVec.getLsbD x (j - k)) h0
        simp only [BitVec.getLsbD_ushiftRight] at this
        rw [show k + (j - k) = j by omega] at this
        simpa using this
      rw [List.filter_eq_nil_iff.2]
      · rfl
      · intro j hj
        have : k ≤ j := by
          rcases List.mem_cons.1 hj with rfl | hj
          · omega
          · have := (List.mem_range'_1.1 hj).1; omega
        simp [hz j this]
    · rw [if_pos h0]
      by_cases hb : set.getLsbD k = true
      · rw [if_pos ((bit_shift set k).2 hb), List.filter_cons_of_pos (by simpa using hb), List.map_cons]
      · rw [if_neg (fun h => hb ((bit_shift set k).1 h)), List.filter_cons_of_neg (by simpa using hb)]

/-- The flags of a set in increasing order. -/
theorem splitflags_eq (set : Event) : splitflags set = ((List.range 32).filter (fun j => set.getLsbD j)).map flag := by
  have := splitLoop_eq set 32 0 (by omega)
  rw [List.range_eq_range', ← this, splitflags]
  rfl

theorem mem_splitflags {set f : Event} : f ∈ splitflags set ↔ ∃ k, k < 32 ∧ set.getLsbD k = true ∧ f = flag k := by
  rw [splitflags_eq]
  simp only [List.mem_map, List.mem_filter, List.mem_range]
  constructor
  · rintro ⟨k, ⟨h, h'⟩, rfl⟩; exact ⟨k, h, h', rfl⟩
  · rintro ⟨k, h, h', rfl⟩; exact ⟨k, ⟨h, h'⟩, rfl⟩

theorem flag_lt {i j : Nat} (hij : i < j) (hj : j < 32) : flag i < flag j := by
  rw [BitVec.lt_def]
  simp only [flag, BitVec.toNat_twoPow]
  rw [Nat.mod_eq_of_lt (Nat.pow_lt_pow_right (by omega) (by omega)), Nat.mod_eq_of_lt (Nat.pow_lt_pow_right (by omega) hj)]
  exact Nat.pow_lt_pow_right (by omega) hij

theorem bit_flag {k : Nat} (hk : k < 32) (i : Nat) : (flag k).getLsbD i = true ↔ i = k := by
  rw [flag, BitVec.getLsbD_twoPow]
  simp [hk]; exact eq_comm

/-- **C37.**  Splitting a flag set (the loop terminates, since `splitflags` is a total function) gives single flags,
strictly increasing and so without repetition, whose union is the set. -/
theorem C37_split (set : Event) :
    (∀ f ∈ splitflags set, ∃ k < 32, f = 1#32 <<< k) ∧ (splitflags set).Pairwise (· < ·) ∧
      (splitflags set).foldr (· ||| ·) 0 = set := by
  refine ⟨fun f hf => ?_, ?_, ?_⟩
  · obtain ⟨k, hk, _, rfl⟩ := mem_splitflags.1 hf
    exact ⟨k, hk, rfl⟩
  · rw [splitflags_eq, List.pairwise_map]
    refine List.Pairwise.imp_of_mem ?_ (List.Pairwise.filter _ List.pairwise_lt_range)
    intro a b _ hb hab
    exact flag_lt hab (List.mem_range.1 (List.mem_filter.1 hb).1)
  · have hbit : ∀ (l : List Event) i, (l.foldr (· ||| ·) 0).getLsbD i = true ↔ ∃ f ∈ l, f.getLsbD i = true := by
      intro l i
      induction l with
      | nil => simp
      | cons a l ih => simp only [List.foldr_cons, BitVec.getLsbD_or, Bool.or_eq_true, ih, List.mem_cons]; simp
    refine bext.2 fun i => Bool.eq_iff_iff.2 ?_
    rw [hbit]
    constructor
    · rintro ⟨f, hf, hi⟩
      obtain ⟨k, hk, hb, rfl⟩ := mem_splitflags.1 hf
      rw [(bit_flag hk i).1 hi]; exact hb
    · intro hi
      have hk : i < 32 := by
        refine Decidable.byContradiction fun hge => ?_
        rw [BitVec.getLsbD_of_ge _ _ (by omega)] at hi; cases hi
      exact ⟨flag i, mem_splitflags.2 ⟨i, hk, hi, rfl⟩, (bit_flag hk i).2 rfl⟩

/-- The split of created, modified, is-file. -/
example : splitflags 0x11100 = [0x100, 0x1000, 0x10000] := by rw [splitflags_eq]; decide

/-! ### C38: what `Dispatch` forwards -/

theorem hasPrefix_iff : ∀ s p : Str, hasPrefix s p = true ↔ p <+: s
  | _, [] => by simp [hasPrefix]
  | [], b :: p => by simp [hasPrefix]
  | a :: s, b :: p => by
    simp only [hasPrefix, Bool.and_eq_true, beq_iff_eq, hasPrefix_iff s p, List.cons_prefix_cons]
    exact ⟨fun h => ⟨h.1.symm, h.2⟩, fun h => ⟨h.1.symm, h.2⟩⟩

/-- The path selection in terms of strings: the watched path itself, or the watched path followed by a separator and
the base. -/
theorem base_iff (w : Watch) (p b : Str) :
    w.base p = some b ↔ (p = w.path ∧ b = []) ∨ (p = w.path ++ '/' :: b ∧ (w.isrec = true ∨ '/' ∉ b)) := by
  unfold Watch.base
  by_cases hp : w.path <+: p
  · rw [if_neg (by rw [(hasPrefix_iff _ _).2 hp]; simp)]
    obtain ⟨t, rfl⟩ := hp
    cases t with
    | nil =>
      rw [if_neg (by simp)]
      simp only [List.append_nil, Option.some.injEq]
      constructor
      · rintro rfl; exact .inl ⟨trivial, rfl⟩
      · rintro (⟨_, h⟩ | ⟨h, _⟩)
        · exact h.symm
        · have := congrArg List.length h; simp at this
    | cons c t =>
      rw [if_pos (by simp)]
      have hget : (w.path ++ c :: t)[w.path.length]? = some c := by simp
      have hdrop : (w.path ++ c :: t).drop (w.path.length + 1) = t := by
        rw [List.drop_append, List.drop_eq_nil_of_le (by omega)]; simp
      rw [hget, hdrop]
      by_cases hc : c = '/'
      · rw [if_neg (by simp [hc])]
        simp only
        by_cases hr : w.isrec = false ∧ '/' ∈ t
        · rw [if_pos hr]
          constructor
          · intro h; cases h
          · rintro (⟨h, _⟩ | ⟨h, h'⟩)
            · have := congrArg List.length h; simp at this
            · have : t = b := by simpa [hc] using h
              subst this
              rcases h' with h' | h'
              · rw [hr.1] at h'; cases h'
              · exact absurd hr.2 h'
        · rw [if_neg hr]
          constructor
          · intro h
            have : t = b := by simpa using h
            subst this
            refine .inr ⟨by rw [hc], ?_⟩
            by_cases hm : '/' ∈ t
            · left
              refine Decidable.byContradiction fun hf => ?_
              exact hr ⟨by simpa using hf, hm⟩
            · exact .inr hm
          · rintro (⟨h, _⟩ | ⟨h, h'⟩)
            · have := congrArg List.length h; simp at this
            · have : t = b := by simpa [hc] using h
              rw [this]
      · rw [if_pos (by simpa using hc)]
        constructor
        · intro h; cases h
        · rintro (⟨h, _⟩ | ⟨h, h'⟩)
          · have := congrArg List.length h; simp at this
          · have : c = '/' ∧ t = b := by simpa using h
            exact absurd this.1 hc
  · rw [if_pos (by
      cases hh : hasPrefix p w.path with
      | false => rfl
      | true => exact absurd ((hasPrefix_iff _ _).1 hh) hp)]
    constructor
    · intro h; cases h
    · rintro (⟨rfl, _⟩ | ⟨rfl, _⟩)
      · exact absurd (List.prefix_refl _) hp
      · exact absurd (List.prefix_append _ _) hp

theorem strip_fields (w : Watch) (b : Str) (set : Event) :
    (w.strip b set).1.path = w.path ∧ (w.strip b set).1.events = w.events ∧ (w.strip b set).1.isrec = w.isrec ∧
      (w.strip b set).1.flushed = w.flushed := by
  unfold Watch.strip; simp only; split <;> simp

theorem dispatch1_fields (w : Watch) (ev : FSEvent) :
    (w.dispatch1 ev).1.path = w.path ∧ (w.dispatch1 ev).1.events = w.events ∧
      (w.dispatch1 ev).1.isrec = w.isrec := by
  unfold Watch.dispatch1
  split
  · simp
  · split
    · simp
    · split
      · simp
      · cases w.base ev.path with
        | none => simp
        | some b => have := strip_fields w b ev.flags; exact ⟨this.1, this.2.1, this.2.2.1⟩

theorem stripVal_sub (prev set : Event) : (stripVal prev set).1 ⊑ set := by
  unfold stripVal
  intro i hi
  split at hi
  · simp only at hi
    split at hi
    · simp only [bit_andNot, Bool.and_eq_true] at hi; exact hi.1.1
    · simp only [bit_andNot, Bool.and_eq_true] at hi; exact hi.1
  · split at hi
    · simp only at hi
      split at hi <;> (simp only [bit_andNot, Bool.and_eq_true] at hi; exact hi.1)
    · split at hi
      · exact hi
      · split at hi
        · simp only [bit_andNot, Bool.and_eq_true] at hi; exact hi.1
        · exact hi

/-- What one raw event gives, exactly. -/
theorem dispatch1_eq (w : Watch) (ev : FSEvent) :
    (w.dispatch1 ev).2 =
      if ev.flags &&& historyDone ≠ 0 ∨ w.flushed = false ∨ (ev.flags &&& failure ≠ 0 ∧ failure &&& w.events = 0) then []
      else match w.base ev.path with
        | none => []
        | some b => (splitflags ((w.strip b ev.flags).2 &&& w.events)).map (fun f => (ev, f)) := by
  unfold Watch.dispatch1
  by_cases h1 : ev.flags &&& historyDone ≠ 0
  · rw [if_pos h1, if_pos (.inl h1)]
  rw [if_neg h1]
  by_cases h2 : w.flushed = false
  · rw [if_pos h2, if_pos (.inr (.inl h2))]
  rw [if_neg h2]
  by_cases h3 : ev.flags &&& failure ≠ 0 ∧ failure &&& w.events = 0
  · rw [if_pos h3, if_pos (.inr (.inr h3))]
  rw [if_neg h3, if_neg (by rintro (h | h | h) <;> contradiction)]
  cases w.base ev.path with
  | none => rfl
  | some b =>
    simp only
    split
    · rename_i h0; rw [h0, splitflags, splitLoop]; simp
    · rfl

/-- The watch sees the path: it is the watched path or below it, and directly below unless recursive.  `p` and `q` are
the components of the watched path and of the event's path. -/
def Inside (isrec : Bool) (p q : Path) : Prop := p <+: q ∧ (isrec = true ∨ q.length ≤ p.length + 1)

theorem str_sep (b : Comp) (r : Path) : '/' ∈ b ++ str r ↔ '/' ∈ b ∨ r ≠ [] := by
  cases r with
  | nil => simp [PathStr.str_nil]
  | cons c r => simp [PathStr.str_cons, sep]

theorem base_str (w : Watch) {p q : Path} (hp : Comps p) (hq : Comps q) (hw : w.path = str p) :
    (∃ b, w.base (str q) = some b) ↔ Inside w.isrec p q := by
  simp only [base_iff, hw]
  constructor
  · rintro ⟨b, ⟨h, _⟩ | ⟨h, h'⟩⟩
    · rw [PathStr.str_inj hq hp h]; exact ⟨List.prefix_refl _, .inr (by omega)⟩
    · obtain ⟨c, r, rfl, hr⟩ : ∃ c r, q = p ++ c :: r ∧ b = c ++ str r := by
        obtain ⟨c, r, rfl⟩ := PathStr.extends_of_str hp hq (t := b) h
        refine ⟨c, r, rfl, ?_⟩
        rw [PathStr.str_append, PathStr.str_cons] at h
        simpa [sep] using h.symm
      refine ⟨List.prefix_append _ _, h'.imp id fun h' => ?_⟩
      rw [hr, str_sep] at h'
      have : r = [] := by exact Decidable.byContradiction fun hne => h' (.inr hne)
      simp [this]
  · rintro ⟨⟨t, rfl⟩, h⟩
    cases t with
    | nil => exact ⟨[], .inl ⟨by simp, rfl⟩⟩
    | cons c r =>
      refine ⟨c ++ str r, .inr ⟨by rw [PathStr.str_append, PathStr.str_cons]; simp [sep], h.imp id fun h => ?_⟩⟩
      rw [str_sep]
      have hr : r = [] := by
        simp only [List.length_append, List.length_cons] at h
        exact List.length_eq_zero_iff.1 (by omega)
      have : '/' ∉ c := hq c (by simp)
      simp [hr, this]

theorem dispatch_append (w : Watch) (pre post : List FSEvent) :
    w.dispatch (pre ++ post) =
      (((w.dispatch pre).1.dispatch post).1, (w.dispatch pre).2 ++ ((w.dispatch pre).1.dispatch post).2) := by
  induction pre generalizing w with
  | nil => simp [Watch.dispatch]
  | cons ev pre ih => simp [Watch.dispatch, ih, List.append_assoc]

theorem dispatch_fields (w : Watch) (evs : List FSEvent) :
    (w.dispatch evs).1.path = w.path ∧ (w.dispatch evs).1.events = w.events ∧ (w.dispatch evs).1.isrec = w.isrec := by
  induction evs generalizing w with
  | nil => simp [Watch.dispatch]
  | cons ev evs ih =>
    have h1 := dispatch1_fields w ev
    have h2 := ih (w.dispatch1 ev).1
    simp only [Watch.dispatch]
    exact ⟨h2.1.trans h1.1, h2.2.1.trans h1.2.1, h2.2.2.trans h1.2.2⟩

theorem dispatch1_flushed (w : Watch) (ev : FSEvent) :
    (w.dispatch1 ev).1.flushed = true ↔ w.flushed = true ∨ ev.flags &&& historyDone ≠ 0 := by
  unfold Watch.dispatch1
  by_cases h1 : ev.flags &&& historyDone ≠ 0
  · rw [if_pos h1]; exact ⟨fun _ => .inr h1, fun _ => rfl⟩
  · rw [if_neg h1]
    have : (w.flushed = true ∨ ev.flags &&& historyDone ≠ 0) ↔ w.flushed = true := or_iff_left h1
    rw [this]
    split
    · rfl
    · split
      · rfl
      · cases w.base ev.path with
        | none => rfl
        | some b => rw [(strip_fields w b ev.flags).2.2.2]

/-- The history-done marker has been seen once it was in a batch. -/
theorem dispatch_flushed (w : Watch) (evs : List FSEvent) :
    (w.dispatch evs).1.flushed = true ↔ w.flushed = true ∨ ∃ m ∈ evs, m.flags &&& historyDone ≠ 0 := by
  induction evs generalizing w with
  | nil => simp [Watch.dispatch]
  | cons ev evs ih =>
    simp only [Watch.dispatch, ih, dispatch1_flushed, List.mem_cons, exists_eq_or_imp, or_assoc]

theorem strip_eq (w : Watch) (b : Str) (set : Event) : (w.strip b set).2 = (stripVal ((w.prev.get? b).getD 0) set).1 := rfl

theorem stripVal_plain (prev : Event) {set : Event} (h : set &&& (created ||| removed) = 0) : (stripVal prev set).1 = set := by
  have hc : set &&& created = 0 := by
    refine zero_of_getLsbD fun i => ?_
    have := congrArg (fun x => BitVec.getLsbD x i) h
    simp only [BitVec.getLsbD_and, BitVec.getLsbD_or] at this ⊢
    rcases hb : BitVec.getLsbD set i <;> simp_all
  have hr : set &&& removed = 0 := by
    refine zero_of_getLsbD fun i => ?_
    have := congrArg (fun x => BitVec.getLsbD x i) h
    simp only [BitVec.getLsbD_and, BitVec.getLsbD_or] at this ⊢
    rcases hb : BitVec.getLsbD set i <;> simp_all
  have kill : ∀ x : Event, set &&& x = 0 → set &^ x = set := by
    intro x hx
    refine bext.2 fun i => ?_
    have := congrArg (fun x => BitVec.getLsbD x i) hx
    simp only [bit_andNot, BitVec.getLsbD_and] at this ⊢
    rcases hb : BitVec.getLsbD set i
    · simp
    · rw [hb] at this; have hlt := BitVec.lt_of_getLsbD hb; simp_all
  unfold stripVal
  split
  · simp only [kill _ hc]
    rw [if_neg (by simpa using hr)]
  · split
    · simp only [kill _ hr]
      rw [if_neg (by simpa using hc)]
    · rw [h, if_neg (by decide), if_neg (by decide)]

/-- The conditions under which a raw event is looked at: the marker came before it, it is not a marker itself, and it
reports no failure unless failures were asked for. -/
def Considered (w : Watch) (pre : List FSEvent) (ev : FSEvent) : Prop :=
  (w.flushed = true ∨ ∃ m ∈ pre, m.flags &&& historyDone ≠ 0) ∧ ev.flags &&& historyDone = 0 ∧
    (ev.flags &&& failure ≠ 0 → failure &&& w.events ≠ 0)

/-- **C38, exactly.**  In any batch, the events forwarded for a raw event are: none, unless it comes after the
history-done marker, is no marker or unrequested failure, and its path is the watched path or below it by whole
components (directly below it if the watch is not recursive); otherwise one event for each requested flag among
those it carries, in increasing order, where only creation and removal and what comes with them may have been
stripped. -/
theorem C38_exact (w : Watch) {p q : Path} (hp : Comps p) (hq : Comps q) (hw : w.path = str p)
    (pre post : List FSEvent) (ev : FSEvent) (hev : ev.path = str q) :
    ∃ out set, (w.dispatch (pre ++ ev :: post)).2 =
        (w.dispatch pre).2 ++ out ++ ((w.dispatch (pre ++ [ev])).1.dispatch post).2 ∧
      (¬ (Considered w pre ev ∧ Inside w.isrec p q) → out = []) ∧
      (Considered w pre ev ∧ Inside w.isrec p q → out = (splitflags (set &&& w.events)).map (fun f => (ev, f))) ∧
      set ⊑ ev.flags ∧ (ev.flags &&& (created ||| removed) = 0 → set = ev.flags) := by
  obtain ⟨hf1, hf2, hf3⟩ := dispatch_fields w pre
  have hfl := dispatch_flushed w pre
  refine ⟨((w.dispatch pre).1.dispatch1 ev).2,
    match (w.dispatch pre).1.base ev.path with
      | none => ev.flags
      | some b => ((w.dispatch pre).1.strip b ev.flags).2, ?_, ?_, ?_, ?_, ?_⟩
  · rw [show pre ++ ev :: post = (pre ++ [ev]) ++ post by simp, dispatch_append w (pre ++ [ev]) post, dispatch_append w pre [ev]]
    simp [Watch.dispatch]
  all_goals
    have hb := base_str (w.dispatch pre).1 hp hq (hf1.trans hw)
    rw [hf3] at hb
    try rw [hev]
  · intro hn
    rw [dispatch1_eq]
    split
    · rfl
    · rename_i hc
      rw [hev]
      cases hbb : (w.dispatch pre).1.base (str q) with
      | none => rfl
      | some b =>
        refine absurd ⟨⟨?_, ?_, ?_⟩, hb.1 ⟨b, hbb⟩⟩ hn
        · refine hfl.1 ?_
          cases hx : (w.dispatch pre).1.flushed with
          | true => rfl
          | false => exact absurd (.inr (.inl hx)) hc
        · exact Decidable.byContradiction fun h => hc (.inl h)
        · intro h h'
          exact hc (.inr (.inr ⟨h, by rw [hf2]; exact h'⟩))
  · rintro ⟨⟨h1, h2, h3⟩, hin⟩
    obtain ⟨b, hbb⟩ := hb.2 hin
    rw [dispatch1_eq, if_neg, hev, hbb, hf2]
    rintro (h | h | ⟨h, h'⟩)
    · exact h h2
    · rw [hfl.2 h1] at h; cases h
    · rw [hf2] at h'; exact h3 h h'
  · cases (w.dispatch pre).1.base (str q) with
    | none => exact Sub.refl _
    | some b => exact stripVal_sub _ _
  · intro h
    cases (w.dispatch pre).1.base (str q) with
    | none => rfl
    | some b => exact stripVal_plain _ h

/-- **C38, soundness.**  What is forwarded from a batch is a single requested flag of a raw event of the batch that
comes after the history-done marker and whose path is inside the watch. -/
theorem C38_sound (w : Watch) {p : Path} (hp : Comps p) (hw : w.path = str p) (evs : List FSEvent)
    (hevs : ∀ ev ∈ evs, ∃ q, Comps q ∧ ev.path = str q) {ev : FSEvent} {f : Event} (h : (ev, f) ∈ (w.dispatch evs).2) :
    ∃ pre post q, evs = pre ++ ev :: post ∧ ev.path = str q ∧ Inside w.isrec p q ∧ Considered w pre ev ∧
      ∃ k < 32, f = 1#32 <<< k ∧ ev.flags.getLsbD k = true ∧ w.events.getLsbD k = true := by
  suffices H : ∀ pre post, evs = pre ++ post → (ev, f) ∈ (w.dispatch pre).2 →
      ∃ pre post q, evs = pre ++ ev :: post ∧ ev.path = str q ∧ Inside w.isrec p q ∧ Considered w pre ev ∧
      ∃ k < 32, f = 1#32 <<< k ∧ ev.flags.getLsbD k = true ∧ w.events.getLsbD k = true from
    H evs [] (by simp) h
  intro pre
  generalize hn : pre.length = n
  induction n generalizing pre with
  | zero => intro post _ h; rw [List.length_eq_zero_iff.1 hn] at h; simp [Watch.dispatch] at h
  | succ n ih =>
    intro post he h
    obtain ⟨pre, ev', rfl⟩ : ∃ pre' ev', pre = pre' ++ [ev'] :=
      ⟨pre.dropLast, pre.getLast (by intro h0; rw [h0] at hn; simp at hn), (List.dropLast_concat_getLast _).symm⟩
    replace ih := ih pre (by simpa using hn)
    obtain ⟨q, hq, hqe⟩ := hevs ev' (by rw [he]; simp)
    obtain ⟨out, set, h1, h2, h3, h4, _⟩ := C38_exact w hp hq hw pre [] ev' hqe
    rw [show pre ++ ev' :: [] = pre ++ [ev'] from rfl] at h1
    rw [h1] at h
    simp only [Watch.dispatch, List.append_nil, List.mem_append] at h
    rcases h with h | h
    · exact ih (ev' :: post) (by rw [he]; simp) h
    · by_cases hc : Considered w pre ev' ∧ Inside w.isrec p q
      · rw [h3 hc] at h
        obtain ⟨f', hf', hh⟩ := List.mem_map.1 h
        cases hh
        obtain ⟨k, hk, hb, rfl⟩ := mem_splitflags.1 hf'
        rw [BitVec.getLsbD_and, Bool.and_eq_true] at hb
        exact ⟨pre, post, q, by rw [he]; simp, hqe, hc.2, hc.1, k, hk, rfl, h4 k hb.1, hb.2⟩
      · rw [h2 hc] at h; simp at h

namespace Ex

/-- A non-recursive watch on `/d` for creation, removal and modification. -/
def w : Watch := { path := "/d".toList, events := 0x1300, isrec := false }

/-- The marker, then creation and modification of `/d/f`, of `/d/s/f` and of `/df`. -/
def batch : List FSEvent :=
  [⟨"/d/f".toList, 0x1100⟩, ⟨"/".toList, 0x10⟩, ⟨"/d/f".toList, 0x11100⟩, ⟨"/d/s/f".toList, 0x11100⟩, ⟨"/df".toList, 0x11100⟩]

/-- Only the first after the marker is forwarded, as two events. -/
example : (w.dispatch batch).2 = [(⟨"/d/f".toList, 0x11100⟩, 0x100), (⟨"/d/f".toList, 0x11100⟩, 0x1000)] := by
  have h : splitflags 0x1100 = [0x100, 0x1000] := by rw [splitflags_eq]; decide
  have h1 : (w.dispatch1 ⟨"/d/f".toList, 0x1100⟩) = (w, []) := rfl
  have h2 : (w.dispatch1 ⟨"/".toList, 0x10⟩) = ({ w with flushed := true }, []) := rfl
  have h3 : ({ w with flushed := true }.dispatch1 ⟨"/d/f".toList, 0x11100⟩) =
      ({ w with flushed := true, prev := [("f".toList, created)] }, (splitflags 0x1100).map (fun f => (⟨"/d/f".toList, 0x11100⟩, f))) := rfl
  simp only [batch, Watch.dispatch, h1, h2, h3, h]
  rfl

end Ex

/-- A watch of the file system root forwards nothing but events about the root itself: the check of the separator
looks one character too far, since the path `/` already ends in it. -/
theorem C38_root (w : Watch) (hw : w.path = "/".toList) (evs : List FSEvent)
    (hevs : ∀ ev ∈ evs, ∃ q, Comps q ∧ [] ∉ q ∧ q ≠ [] ∧ ev.path = str q) : (w.dispatch evs).2 = [] := by
  induction evs generalizing w with
  | nil => rfl
  | cons ev evs ih =>
    obtain ⟨q, hq, hne, hq0, hqe⟩ := hevs ev (by simp)
    have hb : w.base ev.path = none := by
      cases hbb : w.base ev.path with
      | none => rfl
      | some b =>
        rw [base_iff, hw, hqe] at hbb
        cases q with
        | nil => exact absurd rfl hq0
        | cons c r =>
          rw [PathStr.str_cons] at hbb
          cases c with
          | nil => simp at hne
          | cons x c =>
            have hx : x ≠ '/' := by
              intro hx; exact hq (x :: c) (by simp) (by simp [hx, sep])
            rcases hbb with ⟨h, _⟩ | ⟨h, _⟩
            · simp [sep] at h
            · simp [sep] at h; exact absurd h.1 hx
    simp only [Watch.dispatch]
    rw [ih _ ((dispatch1_fields w ev).1.trans hw) (fun ev' h' => hevs ev' (by simp [h'])), dispatch1_eq, hb]
    split <;> rfl

/-! ### C39: creations and removals alternate -/

theorem created_bit (e : Event) : e &&& created ≠ 0 ↔ e.getLsbD 8 = true := Inotify.and_pow e (k := 8) (by omega)
theorem removed_bit (e : Event) : e &&& removed ≠ 0 ↔ e.getLsbD 9 = true := Inotify.and_pow e (k := 9) (by omega)

theorem both_lit : ∀ j < 32, (created ||| removed).getLsbD j = (j == 8 || j == 9) := by decide
theorem write_lit : ∀ j < 32, (modified ||| inodeMetaMod).getLsbD j = (j == 10 || j == 12) := by decide

/-- The creation and removal flags among those forwarded for a path, in order. -/
def marks (q : Str) (out : List (FSEvent × Event)) : List Event :=
  (out.filter (fun x => x.1.path = q ∧ (x.2 = created ∨ x.2 = removed))).map Prod.snd

theorem marks_append (q : Str) (a b : List (FSEvent × Event)) : marks q (a ++ b) = marks q a ++ marks q b := by
  simp [marks]

theorem marks_other {q : Str} {ev : FSEvent} (h : ev.path ≠ q) (l : List Event) : marks q (l.map (fun f => (ev, f))) = [] := by
  unfold marks
  rw [List.filter_eq_nil_iff.2]; · rfl
  intro x hx
  obtain ⟨f, _, rfl⟩ := List.mem_map.1 hx
  simp [h]

theorem marks_split {q : Str} {ev : FSEvent} (h : ev.path = q) (e : Event) :
    marks q ((splitflags e).map (fun f => (ev, f))) =
      (if e.getLsbD 8 then [created] else []) ++ (if e.getLsbD 9 then [removed] else []) := by
  have h1 : marks q ((splitflags e).map (fun f => (ev, f))) =
      (splitflags e).filter (fun f => f = created ∨ f = removed) := by
    unfold marks
    rw [List.filter_map, List.map_map]
    have : (Prod.snd ∘ fun f => (ev, f)) = (id : Event → Event) := rfl
    rw [this, List.map_id]
    congr 1
    funext f
    simp [h]
  rw [h1, splitflags_eq, List.filter_map, List.filter_filter]
  have h2 : (List.range 32).filter (fun a => ((fun f => decide (f = created ∨ f = removed)) ∘ flag) a && e.getLsbD a) =
      [8, 9].filter (fun a => e.getLsbD a) := by
    have h3 : (List.range 32).filter ((fun f => decide (f = created ∨ f = removed)) ∘ flag) = [8, 9] := by decide
    rw [← h3, List.filter_filter]
    congr 1
    funext a
    exact Bool.and_comm _ _
  rw [h2]
  cases h8 : e.getLsbD 8 <;> cases h9 : e.getLsbD 9 <;> simp only [List.filter, h8, h9] <;> rfl

theorem stripVal_created (set : Event) :
    (set.getLsbD 9 = false ∧ (stripVal created set).2 = created ∧ (stripVal created set).1.getLsbD 8 = false ∧
      (stripVal created set).1.getLsbD 9 = false) ∨
    (set.getLsbD 9 = true ∧ (stripVal created set).2 = removed ∧ (stripVal created set).1.getLsbD 8 = false ∧
      (stripVal created set).1.getLsbD 9 = true) := by
  have h8 : created.getLsbD 8 = true := by decide
  have h9 : created.getLsbD 9 = false := by decide
  have hw8 := write_lit 8 (by omega)
  have hw9 := write_lit 9 (by omega)
  unfold stripVal
  rw [if_pos rfl]
  simp only
  by_cases h : set.getLsbD 9 = true
  · rw [if_pos ((removed_bit _).2 (by rw [bit_andNot, h, h9]; rfl))]
    refine .inr ⟨h, rfl, ?_, ?_⟩
    · rw [bit_andNot, bit_andNot, h8]; simp
    · rw [bit_andNot, bit_andNot, h, h9, hw9]; rfl
  · rw [if_neg (fun hc => h (by have := (removed_bit _).1 hc; rw [bit_andNot, Bool.and_eq_true] at this; exact this.1))]
    refine .inl ⟨by simpa using h, rfl, ?_, ?_⟩
    · rw [bit_andNot, h8]; simp
    · rw [bit_andNot, Bool.eq_false_iff.2 h]; rfl

theorem stripVal_removed (set : Event) :
    (set.getLsbD 8 = false ∧ (stripVal removed set).2 = removed ∧ (stripVal removed set).1.getLsbD 8 = false ∧
      (stripVal removed set).1.getLsbD 9 = false) ∨
    (set.getLsbD 8 = true ∧ (stripVal removed set).2 = created ∧ (stripVal removed set).1.getLsbD 8 = true ∧
      (stripVal removed set).1.getLsbD 9 = false) := by
  have h8 : removed.getLsbD 8 = false := by decide
  have h9 : removed.getLsbD 9 = true := by decide
  unfold stripVal
  rw [if_neg (by decide), if_pos rfl]
  simp only
  by_cases h : set.getLsbD 8 = true
  · rw [if_pos ((created_bit _).2 (by rw [bit_andNot, h, h8]; rfl))]
    refine .inr ⟨h, rfl, ?_, ?_⟩
    · rw [bit_andNot, h, h8]; rfl
    · rw [bit_andNot, h9]; simp
  · rw [if_neg (fun hc => h (by have := (created_bit _).1 hc; rw [bit_andNot, Bool.and_eq_true] at this; exact this.1))]
    refine .inl ⟨by simpa using h, rfl, ?_, ?_⟩
    · rw [bit_andNot, Bool.eq_false_iff.2 h]; rfl
    · rw [bit_andNot, h9]; simp

/-- No two neighbours are equal. -/
def Alternate : List Event → Prop
  | a :: b :: l => a ≠ b ∧ Alternate (b :: l)
  | _ => True

/-- Creation or removal. -/
def IsMark (e : Event) : Prop := e = created ∨ e = removed

theorem prev_strip (w : Watch) (b : Str) (set : Event) :
    ((w.strip b set).1.prev.get? b).getD 0 = (stripVal ((w.prev.get? b).getD 0) set).2 := by
  unfold Watch.strip
  simp only
  split
  · rename_i h; exact h.symm
  · rw [GoMap.get?_set, if_pos rfl]; rfl

theorem prev_strip_ne (w : Watch) {b b' : Str} (h : b' ≠ b) (set : Event) :
    (w.strip b set).1.prev.get? b' = w.prev.get? b' := by
  unfold Watch.strip
  simp only
  split
  · rfl
  · rw [GoMap.get?_set, if_neg (fun hh => h hh.symm)]

/-- One raw event when the last mark of the path is known. -/
theorem step_marks (w : Watch) {q b : Str} (hb : w.base q = some b) (hev : created ||| removed ⊑ w.events)
    {last : Event} (hl : IsMark last) (hprev : (w.prev.get? b).getD 0 = last) (ev : FSEvent)
    (hnt : ev.path ≠ w.path ++ ['/'] ∧ q ≠ w.path ++ ['/']) :
    (((w.dispatch1 ev).1.prev.get? b).getD 0 = last ∧ marks q (w.dispatch1 ev).2 = []) ∨
    ∃ l', l' ≠ last ∧ IsMark l' ∧ ((w.dispatch1 ev).1.prev.get? b).getD 0 = l' ∧ marks q (w.dispatch1 ev).2 = [l'] := by
  have he8 : w.events.getLsbD 8 = true := hev 8 (by rw [both_lit 8 (by omega)]; rfl)
  have he9 : w.events.getLsbD 9 = true := hev 9 (by rw [both_lit 9 (by omega)]; rfl)
  unfold Watch.dispatch1
  split
  · exact .inl ⟨hprev, rfl⟩
  · split
    · exact .inl ⟨hprev, rfl⟩
    · split
      · exact .inl ⟨hprev, rfl⟩
      · cases hbb : w.base ev.path with
        | none => exact .inl ⟨hprev, rfl⟩
        | some b' =>
          simp only
          have hout : (if (w.strip b' ev.flags).2 &&& w.events = 0 then [] else
              (splitflags ((w.strip b' ev.flags).2 &&& w.events)).map (fun f => (ev, f))) =
              (splitflags ((w.strip b' ev.flags).2 &&& w.events)).map (fun f => (ev, f)) := by
            split
            · rename_i h0; rw [h0, splitflags, splitLoop]; simp
            · rfl
          rw [hout]
          by_cases hq : ev.path = q
          · have hbe : b' = b := by rw [hq, hb] at hbb; exact (Option.some.inj hbb).symm
            subst hbe
            rw [marks_split hq, prev_strip, hprev, strip_eq, hprev, BitVec.getLsbD_and, BitVec.getLsbD_and, he8, he9,
              Bool.and_true, Bool.and_true]
            rcases hl with rfl | rfl
            · rcases stripVal_created ev.flags with ⟨_, h2, h3, h4⟩ | ⟨_, h2, h3, h4⟩
              · rw [h2, h3, h4]; exact .inl ⟨rfl, rfl⟩
              · rw [h2, h3, h4]; exact .inr ⟨removed, by decide, .inr rfl, rfl, rfl⟩
            · rcases stripVal_removed ev.flags with ⟨_, h2, h3, h4⟩ | ⟨_, h2, h3, h4⟩
              · rw [h2, h3, h4]; exact .inl ⟨rfl, rfl⟩
              · rw [h2, h3, h4]; exact .inr ⟨created, by decide, .inl rfl, rfl, rfl⟩
          · have hbe : b ≠ b' := by
              rintro rfl
              rw [base_iff] at hb hbb
              rcases hb with ⟨h1, h2⟩ | ⟨h1, _⟩ <;> rcases hbb with ⟨h3, h4⟩ | ⟨h3, _⟩
              · exact hq (h3.trans h1.symm)
              · exact hnt.1 (by rw [h3, h2])
              · exact hnt.2 (by rw [h1, h4])
              · exact hq (h3.trans h1.symm)
            rw [marks_other hq, prev_strip_ne w hbe]
            exact .inl ⟨hprev, rfl⟩

theorem chain_marks {q b : Str} {last : Event} (hl : IsMark last) (evs : List FSEvent) (w : Watch)
    (hb : w.base q = some b) (hev : created ||| removed ⊑ w.events) (hprev : (w.prev.get? b).getD 0 = last)
    (hnt : (∀ ev ∈ evs, ev.path ≠ w.path ++ ['/']) ∧ q ≠ w.path ++ ['/']) :
    Alternate (last :: marks q (w.dispatch evs).2) := by
  induction evs generalizing w last with
  | nil => simp [Watch.dispatch, marks, Alternate]
  | cons ev evs ih =>
    obtain ⟨hf1, hf2, hf3⟩ := dispatch1_fields w ev
    have hb' : (w.dispatch1 ev).1.base q = some b := by rw [base_iff] at hb ⊢; rw [hf1, hf3]; exact hb
    have hnt' : (∀ e ∈ evs, e.path ≠ (w.dispatch1 ev).1.path ++ ['/']) ∧ q ≠ (w.dispatch1 ev).1.path ++ ['/'] := by
      rw [hf1]; exact ⟨fun e he => hnt.1 e (by simp [he]), hnt.2⟩
    simp only [Watch.dispatch, marks_append]
    rcases step_marks w hb hev hl hprev ev ⟨hnt.1 ev (by simp), hnt.2⟩ with ⟨h1, h2⟩ | ⟨l', h0, h1, h2, h3⟩
    · rw [h2]
      exact ih hl (w.dispatch1 ev).1 hb' (by rw [hf2]; exact hev) h1 hnt'
    · rw [h3]
      have := ih h1 (w.dispatch1 ev).1 hb' (by rw [hf2]; exact hev) h2 hnt'
      exact ⟨fun h => h0 h.symm, this⟩

/-- **C39.**  Once a pure creation or pure removal of a path was reported (`ev0` carries exactly one of the two flags,
and it is forwarded), the creation and removal flags forwarded for that path alternate, over every later sequence of
raw events for this and other paths, cut into batches in any way.  Paths end in no separator, and the watch asks for
both flags. -/
theorem C39_alternate (w : Watch) (ev0 : FSEvent) {m : Event} (hm : m = created ∨ m = removed)
    (hpure : ev0.flags &&& (created ||| removed) = m) (hrep : (ev0, m) ∈ (w.dispatch1 ev0).2)
    (hev : created ||| removed ⊑ w.events) (batches : List (List FSEvent))
    (hnt : ∀ ev ∈ ev0 :: batches.flatten, ev.path ≠ w.path ++ ['/']) :
    Alternate (marks ev0.path (w.dispatch (ev0 :: batches.flatten)).2) := by
  obtain ⟨hf1, hf2, hf3⟩ := dispatch1_fields w ev0
  rw [dispatch1_eq] at hrep
  split at hrep
  · simp at hrep
  rename_i hc
  cases hbb : w.base ev0.path with
  | none => rw [hbb] at hrep; simp at hrep
  | some b =>
    rw [hbb] at hrep
    have he8 : w.events.getLsbD 8 = true := hev 8 (by rw [both_lit 8 (by omega)]; rfl)
    have he9 : w.events.getLsbD 9 = true := hev 9 (by rw [both_lit 9 (by omega)]; rfl)
    have hd : (w.dispatch1 ev0).2 = (splitflags ((w.strip b ev0.flags).2 &&& w.events)).map (fun f => (ev0, f)) := by
      rw [dispatch1_eq, if_neg hc, hbb]
    have hd1 : (w.dispatch1 ev0).1 = (w.strip b ev0.flags).1 := by
      unfold Watch.dispatch1
      rw [if_neg (fun h => hc (.inl h)), if_neg (fun h => hc (.inr (.inl h))), if_neg (fun h => hc (.inr (.inr h))), hbb]
    have h8 : ev0.flags.getLsbD 8 = m.getLsbD 8 := by
      have := congrArg (fun x => BitVec.getLsbD x 8) hpure
      simp only [BitVec.getLsbD_and, both_lit 8 (by omega)] at this; simpa using this
    have h9 : ev0.flags.getLsbD 9 = m.getLsbD 9 := by
      have := congrArg (fun x => BitVec.getLsbD x 9) hpure
      simp only [BitVec.getLsbD_and, both_lit 9 (by omega)] at this; simpa using this
    -- the raw event gives exactly the mark m, which is remembered
    have key : (stripVal ((w.prev.get? b).getD 0) ev0.flags).2 = m ∧
        marks ev0.path (w.dispatch1 ev0).2 = [m] := by
      have hbit : ((stripVal ((w.prev.get? b).getD 0) ev0.flags).1 &&& w.events) ⊑ ev0.flags := fun i hi => by
        rw [BitVec.getLsbD_and, Bool.and_eq_true] at hi; exact stripVal_sub _ _ i hi.1
      obtain ⟨f, hf, hfe⟩ := List.mem_map.1 hrep
      have hfm : f = m := congrArg Prod.snd hfe
      subst hfm
      obtain ⟨k, hk, hkb, hkf⟩ := mem_splitflags.1 hf
      rw [strip_eq] at hkb
      rw [hd, marks_split rfl, strip_eq]
      have hpre : (w.prev.get? b).getD 0 ≠ f := by
        intro hcon
        rw [hcon] at hkb
        rcases hm with rfl | rfl
        · have hk8 : k = 8 := by
            have h := (bit_flag hk 8).1 (by rw [← hkf]; decide); exact h.symm
          subst hk8
          rw [BitVec.getLsbD_and, Bool.and_eq_true] at hkb
          rcases stripVal_created ev0.flags with ⟨_, _, h3, _⟩ | ⟨_, _, h3, _⟩ <;> (rw [h3] at hkb; exact absurd hkb.1 (by simp))
        · have hk9 : k = 9 := by
            have h := (bit_flag hk 9).1 (by rw [← hkf]; decide); exact h.symm
          subst hk9
          rw [BitVec.getLsbD_and, Bool.and_eq_true] at hkb
          rcases stripVal_removed ev0.flags with ⟨_, _, _, h3⟩ | ⟨_, _, _, h3⟩ <;> (rw [h3] at hkb; exact absurd hkb.1 (by simp))
      rcases hm with rfl | rfl
      · have hk8 : k = 8 := ((bit_flag hk 8).1 (by rw [← hkf]; decide)).symm
        subst hk8
        rw [hkb]
        have hn9 : ((stripVal ((w.prev.get? b).getD 0) ev0.flags).1 &&& w.events).getLsbD 9 = false := by
          cases hx : ((stripVal ((w.prev.get? b).getD 0) ev0.flags).1 &&& w.events).getLsbD 9 with
          | false => rfl
          | true => have := hbit 9 hx; rw [h9] at this; exact absurd this (by decide)
        rw [hn9]
        refine ⟨?_, rfl⟩
        unfold stripVal
        rw [if_neg hpre]
        split
        · simp only
          rw [if_pos]
          rw [created_bit, bit_andNot, h8]; decide
        · rfl
      · have hk9 : k = 9 := ((bit_flag hk 9).1 (by rw [← hkf]; decide)).symm
        subst hk9
        rw [hkb]
        have hn8 : ((stripVal ((w.prev.get? b).getD 0) ev0.flags).1 &&& w.events).getLsbD 8 = false := by
          cases hx : ((stripVal ((w.prev.get? b).getD 0) ev0.flags).1 &&& w.events).getLsbD 8 with
          | false => rfl
          | true => have := hbit 8 hx; rw [h8] at this; exact absurd this (by decide)
        rw [hn8]
        refine ⟨?_, rfl⟩
        unfold stripVal
        split
        · simp only
          rw [if_pos]
          rw [removed_bit, bit_andNot, h9]; decide
        · rw [hpure, if_neg (by decide)]
    simp only [Watch.dispatch, marks_append]
    rw [key.2]
    refine chain_marks hm _ (w.dispatch1 ev0).1 (b := b) (by rw [base_iff] at hbb ⊢; rw [hf1, hf3]; exact hbb)
      (by rw [hf2]; exact hev) (by rw [hd1, prev_strip]; exact key.1) ?_
    rw [hf1]
    exact ⟨fun ev he => hnt ev (by simp [List.mem_flatten.1 he]), hnt ev0 (by simp)⟩

/-- **C39, what is reported.**  A raw event of the path that is considered gives exactly one mark if it carries the flag
opposite to the last mark, and none otherwise; with no mark so far, a pure creation or removal gives that mark. -/
theorem C39_toggle (w : Watch) {b : Str} (ev : FSEvent) (hb : w.base ev.path = some b)
    (hev : created ||| removed ⊑ w.events) (hc : Considered w [] ev) :
    ((w.prev.get? b).getD 0 = created → marks ev.path (w.dispatch1 ev).2 = if ev.flags.getLsbD 9 then [removed] else []) ∧
    ((w.prev.get? b).getD 0 = removed → marks ev.path (w.dispatch1 ev).2 = if ev.flags.getLsbD 8 then [created] else []) ∧
    (∀ m, IsMark m → ev.flags &&& (created ||| removed) = m → w.prev.get? b = none →
      marks ev.path (w.dispatch1 ev).2 = [m]) := by
  have he8 : w.events.getLsbD 8 = true := hev 8 (by rw [both_lit 8 (by omega)]; rfl)
  have he9 : w.events.getLsbD 9 = true := hev 9 (by rw [both_lit 9 (by omega)]; rfl)
  obtain ⟨h1, h2, h3⟩ := hc
  have hf : w.flushed = true := by simpa using h1
  have hd : marks ev.path (w.dispatch1 ev).2 =
      (if (stripVal ((w.prev.get? b).getD 0) ev.flags).1.getLsbD 8 then [created] else []) ++
      (if (stripVal ((w.prev.get? b).getD 0) ev.flags).1.getLsbD 9 then [removed] else []) := by
    rw [dispatch1_eq, if_neg, hb]
    · simp only
      rw [marks_split rfl, strip_eq, BitVec.getLsbD_and, BitVec.getLsbD_and, he8, he9, Bool.and_true, Bool.and_true]
    · rintro (h | h | ⟨h, h'⟩)
      · exact h h2
      · rw [hf] at h; cases h
      · exact h3 h h'
  rw [hd]
  refine ⟨fun hp => ?_, fun hp => ?_, fun m hm hpure hp => ?_⟩
  · rw [hp]
    rcases stripVal_created ev.flags with ⟨h, _, h3, h4⟩ | ⟨h, _, h3, h4⟩ <;> (rw [h, h3, h4]; rfl)
  · rw [hp]
    rcases stripVal_removed ev.flags with ⟨h, _, h3, h4⟩ | ⟨h, _, h3, h4⟩ <;> (rw [h, h3, h4]; rfl)
  · have h8 : ev.flags.getLsbD 8 = m.getLsbD 8 := by
      have := congrArg (fun x => BitVec.getLsbD x 8) hpure
      simp only [BitVec.getLsbD_and, both_lit 8 (by omega)] at this; simpa using this
    have h9 : ev.flags.getLsbD 9 = m.getLsbD 9 := by
      have := congrArg (fun x => BitVec.getLsbD x 9) hpure
      simp only [BitVec.getLsbD_and, both_lit 9 (by omega)] at this; simpa using this
    rw [hp]
    have hs : (stripVal ((none : Option Event).getD 0) ev.flags).1 =
        if ev.flags &&& (created ||| removed) = created then ev.flags
        else if ev.flags &&& (created ||| removed) = removed then ev.flags &^ (modified ||| inodeMetaMod) else ev.flags := by
      unfold stripVal
      rw [if_neg (by decide), if_neg (by decide)]
      split
      · rfl
      · split <;> rfl
    rw [hs, hpure]
    rcases hm with rfl | rfl
    · rw [if_pos rfl, h8, h9]; rfl
    · rw [if_neg (show ¬ removed = created by decide), if_pos rfl, bit_andNot, bit_andNot, write_lit 8 (by omega), write_lit 9 (by omega), h8, h9]
      rfl

/-- **C48.**  A removal that is reported without a creation comes with no modification and no change of metadata:
these flags, which FSEvents retains from earlier changes, are dropped. -/
theorem C48_remove_alone (w : Watch) (ev : FSEvent) (h : (ev, removed) ∈ (w.dispatch1 ev).2)
    (hn : (ev, created) ∉ (w.dispatch1 ev).2) (hev : created ⊑ w.events) :
    (ev, modified) ∉ (w.dispatch1 ev).2 ∧ (ev, inodeMetaMod) ∉ (w.dispatch1 ev).2 := by
  have he8 : w.events.getLsbD 8 = true := hev 8 (by decide)
  rw [dispatch1_eq] at h hn ⊢
  split at h
  · simp at h
  cases hb : w.base ev.path with
  | none => rw [hb] at h; simp at h
  | some b =>
    rename_i hc
    rw [hb] at h
    rw [if_neg hc, hb] at hn
    simp only at hn
    rw [if_neg hc]
    simp only at h ⊢
    have mem : ∀ k < 32, (ev, flag k) ∈ (splitflags ((w.strip b ev.flags).2 &&& w.events)).map (fun f => (ev, f)) ↔
        (stripVal ((w.prev.get? b).getD 0) ev.flags).1.getLsbD k = true ∧ w.events.getLsbD k = true := by
      intro k hk
      rw [List.mem_map]
      constructor
      · rintro ⟨f, hf, he⟩
        obtain ⟨j, hj, hb, rfl⟩ := mem_splitflags.1 hf
        have : flag j = flag k := congrArg Prod.snd he
        have : j = k := by
          have h1 := (bit_flag hj j).2 rfl
          rw [this] at h1
          exact (bit_flag hk j).1 h1
        subst this
        rwa [strip_eq, BitVec.getLsbD_and, Bool.and_eq_true] at hb
      · intro hb
        exact ⟨flag k, mem_splitflags.2 ⟨k, hk, by rw [strip_eq, BitVec.getLsbD_and, Bool.and_eq_true]; exact hb, rfl⟩, rfl⟩
    have h9 := (mem 9 (by omega)).1 h
    have h8 : (stripVal ((w.prev.get? b).getD 0) ev.flags).1.getLsbD 8 = false := by
      cases hx : (stripVal ((w.prev.get? b).getD 0) ev.flags).1.getLsbD 8 with
      | false => rfl
      | true => exact absurd ((mem 8 (by omega)).2 ⟨hx, he8⟩) hn
    have key : (stripVal ((w.prev.get? b).getD 0) ev.flags).1.getLsbD 10 = false ∧
        (stripVal ((w.prev.get? b).getD 0) ev.flags).1.getLsbD 12 = false := by
      generalize (w.prev.get? b).getD 0 = prev at h9 h8
      revert h9 h8
      unfold stripVal
      split
      · simp only
        split
        · intro _ _
          refine ⟨?_, ?_⟩ <;> (simp only [bit_andNot]; rw [write_lit _ (by omega)]; simp)
        · rename_i hr
          intro h9 _
          exact absurd ((removed_bit _).2 h9.1) hr
      · split
        · simp only
          have h9' : removed.getLsbD 9 = true := by decide
          split <;> (intro h9 _; rw [bit_andNot, h9'] at h9; simp at h9)
        · split
          · rename_i hx
            intro h9 _
            have := congrArg (fun x => BitVec.getLsbD x 9) hx
            simp only [BitVec.getLsbD_and, both_lit 9 (by omega), h9.1] at this
            exact absurd this (by decide)
          · split
            · intro _ _
              refine ⟨?_, ?_⟩ <;> (simp only [bit_andNot]; rw [write_lit _ (by omega)]; simp)
            · rename_i hx
              intro h9 h8
              refine absurd ?_ hx
              refine bext.2 fun i => ?_
              by_cases hi : i < 32
              · rw [BitVec.getLsbD_and, both_lit i hi]
                by_cases h9i : i = 9
                · subst h9i; rw [h9.1]; rfl
                · by_cases h8i : i = 8
                  · subst h8i; rw [h8]; rfl
                  · have : removed.getLsbD i = false := by
                      cases hr : removed.getLsbD i with
                      | false => rfl
                      | true => exact absurd ((bit_flag (k := 9) (by omega) i).1 hr) h9i
                    rw [this]; simp [h9i, h8i]
              · rw [BitVec.getLsbD_of_ge _ _ (by omega), BitVec.getLsbD_of_ge _ _ (by omega)]
    refine ⟨fun hx => ?_, fun hx => ?_⟩
    · have := ((mem 12 (by omega)).1 hx).1
      rw [key.2] at this; cases this
    · have := ((mem 10 (by omega)).1 hx).1
      rw [key.1] at this; cases this

namespace Ex

/-- After the history marker, with nothing remembered. -/
def w1 : Watch := { w with flushed := true }

/-- `/d/f` created; then FSEvents retains the creation flag: written, removed, created again, removed and created
between two reports. -/
def hist : List FSEvent :=
  [⟨"/d/f".toList, 0x1100⟩, ⟨"/d/f".toList, 0x1300⟩, ⟨"/d/f".toList, 0x1300⟩, ⟨"/d/f".toList, 0x1300⟩]

theorem rep : (⟨"/d/f".toList, 0x100⟩, created) ∈ (w1.dispatch1 ⟨"/d/f".toList, 0x100⟩).2 := by
  have h : splitflags 0x100 = [0x100] := by rw [splitflags_eq]; decide
  have h1 : (w1.dispatch1 ⟨"/d/f".toList, 0x100⟩).2 = (splitflags 0x100).map (fun f => (⟨"/d/f".toList, 0x100⟩, f)) := rfl
  rw [h1, h]; simp [created]

/-- `C39_alternate` applies: created, and then whatever FSEvents says. -/
example : Alternate (marks "/d/f".toList (w1.dispatch (⟨"/d/f".toList, 0x100⟩ :: [hist, hist].flatten)).2) :=
  C39_alternate w1 ⟨"/d/f".toList, 0x100⟩ (.inl rfl) (by decide) rep
    (fun i hi => by
      have hlt : i < 32 := BitVec.lt_of_getLsbD hi
      rw [both_lit i hlt] at hi
      have : i = 8 ∨ i = 9 := by simpa using hi
      rcases this with rfl | rfl <;> decide) [hist, hist] (by decide)

/-- The removal after it comes alone, though the raw flags contain creation and modification. -/
example : ({ w1 with prev := [("f".toList, created)] }.dispatch1 ⟨"/d/f".toList, 0x1300⟩).2 =
    [(⟨"/d/f".toList, 0x1300⟩, removed)] := by
  have h : splitflags 0x200 = [0x200] := by rw [splitflags_eq]; decide
  have h1 : ({ w1 with prev := [("f".toList, created)] }.dispatch1 ⟨"/d/f".toList, 0x1300⟩).2 =
    (splitflags 0x200).map (fun f => (⟨"/d/f".toList, 0x1300⟩, f)) := rfl
  rw [h1, h]; rfl

end Ex

/-- Before any pure creation or removal was seen, a raw event with both flags is reported as both and not remembered:
the next removal is reported again.  The hypothesis of `C39_alternate` is needed. -/
theorem C39_needs_pure : marks "/d/f".toList (Ex.w1.dispatch [⟨"/d/f".toList, 0x300⟩, ⟨"/d/f".toList, 0x200⟩]).2 =
    [created, removed, removed] := by
  have h1 : splitflags 0x300 = [0x100, 0x200] := by rw [splitflags_eq]; decide
  have h2 : splitflags 0x200 = [0x200] := by rw [splitflags_eq]; decide
  have h3 : Ex.w1.dispatch1 ⟨"/d/f".toList, 0x300⟩ = (Ex.w1, (splitflags 0x300).map (fun f => (⟨"/d/f".toList, 0x300⟩, f))) := rfl
  have h4 : (Ex.w1.dispatch1 ⟨"/d/f".toList, 0x200⟩).2 = (splitflags 0x200).map (fun f => (⟨"/d/f".toList, 0x200⟩, f)) := rfl
  simp only [Watch.dispatch, h3, h4, h1, h2]
  decide

end Fsevents
end Verif
