/-
What the watchers keep in memory about paths (C111).

The tables are those of the models: `prev` of a watch of FSEvents (/repo/watcher_fsevents.go:45-48, 87-115), the table `i.m` of inotify
(/repo/watcher_inotify.go:44, 95-104, 342-363).  For the objects of Core Foundation: `Start` (/repo/watcher_fsevents_cgo.go:134-153) and `Stop` (156-164).
-/
import Verif.PropsInotify2
import Verif.PropsFsevents
import Verif.Streams
import Mathlib.Data.List.Perm.Subperm
import Mathlib.Data.List.Nodup

namespace Verif

/-! ### FSEvents: one entry for every name that ever appeared or went away -/
namespace Fsevents
open PathStr (Str)

/-- What `strip` stores. -/
theorem strip_keys (w : Watch) (b b' : Str) (set : Event) :
    (b' ∈ (w.strip b set).1.prev.keys ↔ b' ∈ w.prev.keys ∨
      (b' = b ∧ (set &&& (created ||| removed) = created ∨ set &&& (created ||| removed) = removed))) := by
  have hz : (0 : Event) ≠ created ∧ (0 : Event) ≠ removed ∧ created ≠ removed := by decide
  unfold Watch.strip
  dsimp only
  by_cases hb : b' = b
  · subst hb
    simp only [true_and]
    cases hg : w.prev.get? b' with
    | some v =>
      have h1 : b' ∈ w.prev.keys := (GoMap.mem_keys_iff _ _).2 ⟨v, hg⟩
      simp only [h1, true_or, iff_true]
      split
      · exact h1
      · rw [GoMap.mem_keys_iff]
        exact ⟨_, by rw [GoMap.get?_set, if_pos rfl]⟩
    | none =>
      have h1 : b' ∉ w.prev.keys := (GoMap.get?_eq_none_iff _ _).1 hg
      simp only [h1, false_or, Option.getD_none]
      unfold stripVal
      rw [if_neg hz.1, if_neg hz.2.1]
      by_cases h2 : set &&& (created ||| removed) = created
      · rw [if_pos h2]
        simp only [h2, true_or, iff_true, if_neg hz.1.symm]
        exact (GoMap.mem_keys_iff _ _).2 ⟨_, by rw [GoMap.get?_set, if_pos rfl]⟩
      · rw [if_neg h2]
        by_cases h3 : set &&& (created ||| removed) = removed
        · rw [if_pos h3]
          simp only [h3, or_true, iff_true, if_neg hz.2.1.symm]
          exact (GoMap.mem_keys_iff _ _).2 ⟨_, by rw [GoMap.get?_set, if_pos rfl]⟩
        · rw [if_neg h3]
          simp [h2, h3, h1]
  · simp only [hb, false_and, or_false]
    split
    · rfl
    · rw [GoMap.mem_keys_iff, GoMap.mem_keys_iff]
      simp only [GoMap.get?_set, if_neg (Ne.symm hb)]

/-- The watch takes up the report: history is over, it is about a path in its scope, and it is not a failure that nobody asked for. -/
def Heeds (path : Str) (events : Event) (isrec : Bool) (ev : FSEvent) (b : Str) : Prop :=
  ev.flags &&& historyDone = 0 ∧ ¬ (ev.flags &&& failure ≠ 0 ∧ failure &&& events = 0) ∧
    Watch.base { path := path, events := events, isrec := isrec } ev.path = some b

/-- The report tells a creation and no removal, or a removal and no creation. -/
def Tells (ev : FSEvent) : Prop := ev.flags &&& (created ||| removed) = created ∨ ev.flags &&& (created ||| removed) = removed

theorem base_eq (w : Watch) (p : Str) : w.base p = Watch.base { path := w.path, events := w.events, isrec := w.isrec } p := rfl

theorem strip_fixed (w : Watch) (b : Str) (set : Event) :
    (w.strip b set).1.path = w.path ∧ (w.strip b set).1.events = w.events ∧ (w.strip b set).1.isrec = w.isrec ∧ (w.strip b set).1.flushed = w.flushed := by
  unfold Watch.strip
  dsimp only
  split <;> exact ⟨rfl, rfl, rfl, rfl⟩

/-- One report. -/
theorem dispatch1_keys (w : Watch) (ev : FSEvent) (b : Str) :
    (b ∈ (w.dispatch1 ev).1.prev.keys ↔ b ∈ w.prev.keys ∨ (w.flushed = true ∧ Heeds w.path w.events w.isrec ev b ∧ Tells ev)) ∧
    (w.dispatch1 ev).1.path = w.path ∧ (w.dispatch1 ev).1.events = w.events ∧ (w.dispatch1 ev).1.isrec = w.isrec ∧
    ((w.dispatch1 ev).1.flushed = true ↔ w.flushed = true ∨ ev.flags &&& historyDone ≠ 0) := by
  unfold Watch.dispatch1
  by_cases h1 : ev.flags &&& historyDone ≠ 0
  · rw [if_pos h1]
    refine ⟨⟨.inl, ?_⟩, rfl, rfl, rfl, fun _ => .inr h1, fun _ => rfl⟩
    rintro (h | ⟨_, ⟨h, _⟩, _⟩)
    · exact h
    · exact absurd h h1
  · rw [if_neg h1]
    by_cases h2 : w.flushed = false
    · rw [if_pos h2]
      exact ⟨by simp [h2], rfl, rfl, rfl, .inl, fun h => h.resolve_right h1⟩
    · rw [if_neg h2]
      have h2 : w.flushed = true := by simpa using h2
      by_cases h3 : ev.flags &&& failure ≠ 0 ∧ failure &&& w.events = 0
      · rw [if_pos h3]
        refine ⟨?_, rfl, rfl, rfl, .inl, fun h => h.resolve_right h1⟩
        constructor
        · exact .inl
        · rintro (h | ⟨_, ⟨_, h, _⟩, _⟩)
          · exact h
          · exact absurd h3 h
      · rw [if_neg h3]
        cases hb : w.base ev.path with
        | none =>
          refine ⟨?_, rfl, rfl, rfl, .inl, fun h => h.resolve_right h1⟩
          constructor
          · exact .inl
          · rintro (h | ⟨_, ⟨_, _, h⟩, _⟩)
            · exact h
            · rw [← base_eq, hb] at h; cases h
        | some b0 =>
          obtain ⟨k1, k2, k3, k4⟩ := strip_fixed w b0 ev.flags
          refine ⟨?_, k1, k2, k3, ?_⟩
          · show b ∈ (w.strip b0 ev.flags).1.prev.keys ↔ _
            rw [strip_keys]
            constructor
            · rintro (h | ⟨rfl, h⟩)
              · exact .inl h
              · exact .inr ⟨h2, ⟨by simpa using h1, h3, by rw [← base_eq, hb]⟩, h⟩
            · rintro (h | ⟨_, ⟨_, _, h⟩, h'⟩)
              · exact .inl h
              · rw [← base_eq, hb] at h; cases h; exact .inr ⟨rfl, h'⟩
          · show (w.strip b0 ev.flags).1.flushed = true ↔ _
            rw [k4]; exact ⟨.inl, fun h => h.resolve_right h1⟩

/-- C111, FSEvents.  The names that a watch has in memory after any reports are exactly those that it had before and those about which it was told a
creation alone or a removal alone, past the history.  None is ever dropped, whether or not there is such a file. -/
theorem C111_prev (w : Watch) (l : List FSEvent) (b : Str) :
    b ∈ (w.dispatch l).1.prev.keys ↔ b ∈ w.prev.keys ∨
      ∃ l₁ ev l₂, l = l₁ ++ ev :: l₂ ∧ (w.flushed = true ∨ ∃ d ∈ l₁, d.flags &&& historyDone ≠ 0) ∧ Heeds w.path w.events w.isrec ev b ∧ Tells ev := by
  induction l generalizing w with
  | nil => simp [Watch.dispatch]
  | cons x l ih =>
    obtain ⟨h1, h2, h3, h4, h5⟩ := dispatch1_keys w x b
    show b ∈ ((w.dispatch1 x).1.dispatch l).1.prev.keys ↔ _
    rw [ih, h1, h2, h3, h4, h5]
    constructor
    · rintro ((h | ⟨h, h', h''⟩) | ⟨l₁, ev, l₂, rfl, h, h', h''⟩)
      · exact .inl h
      · exact .inr ⟨[], x, l, rfl, .inl h, h', h''⟩
      · refine .inr ⟨x :: l₁, ev, l₂, rfl, ?_, h', h''⟩
        rcases h with (h | h) | ⟨d, hd, h⟩
        · exact .inl h
        · exact .inr ⟨x, by simp, h⟩
        · exact .inr ⟨d, by simp [hd], h⟩
    · rintro (h | ⟨l₁, ev, l₂, hl, h, h', h''⟩)
      · exact .inl (.inl h)
      · cases l₁ with
        | nil =>
          simp only [List.nil_append, List.cons.injEq] at hl
          obtain ⟨rfl, rfl⟩ := hl
          rcases h with h | ⟨d, hd, _⟩
          · exact .inl (.inr ⟨h, h', h''⟩)
          · cases hd
        | cons y l₁ =>
          simp only [List.cons_append, List.cons.injEq] at hl
          obtain ⟨rfl, rfl⟩ := hl
          refine .inr ⟨l₁, ev, l₂, rfl, ?_, h', h''⟩
          rcases h with h | ⟨d, hd, h⟩
          · exact .inl (.inl h)
          · rcases List.mem_cons.1 hd with rfl | hd
            · exact .inl (.inr h)
            · exact .inr ⟨d, hd, h⟩

namespace MemEx

/-- `/d`, watched for Create, past the history. -/
def w : Watch := { path := "/d".toList, events := 0x100, isrec := false, flushed := true }

/-- The file `/d/xx…x`. -/
def file (n : Nat) : Str := "/d/".toList ++ List.replicate (n + 1) 'x'

/-- It is created and removed. -/
def both (n : Nat) : List FSEvent := [⟨file n, created⟩, ⟨file n, created ||| removed⟩]

theorem base_file (n : Nat) : w.base (file n) = some (List.replicate (n + 1) 'x') := by
  unfold Watch.base
  have h1 : hasPrefix (file n) w.path = true := by
    show hasPrefix ('/' :: 'd' :: '/' :: List.replicate (n + 1) 'x') ['/', 'd'] = true
    simp [hasPrefix]
  have h2 : '/' ∉ List.replicate (n + 1) 'x' := by
    intro h
    have := (List.mem_replicate.1 h).2
    revert this; decide
  have h3 : (file n).length > w.path.length := by simp [file, w]
  have h4 : (file n)[w.path.length]? = some '/' := rfl
  have h5 : (file n).drop (w.path.length + 1) = List.replicate (n + 1) 'x' := rfl
  simp only [h1, h3, h4, h5, h2]
  simp

theorem heeds (n : Nat) : Heeds w.path w.events w.isrec ⟨file n, created⟩ (List.replicate (n + 1) 'x') :=
  ⟨show created &&& historyDone = 0 by decide, (show ¬ (created &&& failure ≠ 0 ∧ failure &&& (0x100 : Event) = 0) by decide), base_file n⟩

end MemEx

/-- **C111 is false of FSEvents.**  `/d` is watched for Create.  For every `n`, `n` files are created in it and removed again: though the directory is empty
then (the last that is reported of each file is its removal), the watch has `n` entries. -/
theorem C111_prev_refuted : ¬ ∃ N, ∀ l : List FSEvent, (∀ l₁ ev l₂, l = l₁ ++ ev :: l₂ → ∃ d ∈ ev :: l₂, d.path = ev.path ∧ d.flags &&& removed ≠ 0) →
    (MemEx.w.dispatch l).1.prev.length ≤ N := by
  rintro ⟨N, h⟩
  let A := (List.range (N + 1)).map fun n => (⟨MemEx.file n, created⟩ : FSEvent)
  let R := (List.range (N + 1)).map fun n => (⟨MemEx.file n, created ||| removed⟩ : FSEvent)
  have hr : (created ||| removed) &&& removed ≠ 0 := by decide
  have h1 := h (A ++ R) (by
    intro l₁ ev l₂ hl
    rcases List.append_eq_append_iff.1 hl with ⟨a, ha, hb⟩ | ⟨a, ha, hb⟩
    · have : ev ∈ R := by rw [hb]; simp
      obtain ⟨n, _, rfl⟩ := List.mem_map.1 this
      exact ⟨_, .head _, rfl, hr⟩
    · have h1 : ∃ n ∈ List.range (N + 1), ev.path = MemEx.file n := by
        have : ev ∈ A ++ R := by rw [hl]; simp
        rcases List.mem_append.1 this with h | h
        · obtain ⟨n, hn, rfl⟩ := List.mem_map.1 h; exact ⟨n, hn, rfl⟩
        · obtain ⟨n, hn, rfl⟩ := List.mem_map.1 h; exact ⟨n, hn, rfl⟩
      obtain ⟨n, hn, hp⟩ := h1
      refine ⟨⟨MemEx.file n, created ||| removed⟩, ?_, hp.symm, hr⟩
      rw [hb]
      exact List.mem_append_right _ (List.mem_map.2 ⟨n, hn, rfl⟩))
  have h2 : ((List.range (N + 1)).map fun n => List.replicate (n + 1) 'x').Subperm (MemEx.w.dispatch (A ++ R)).1.prev.keys := by
    refine List.subperm_of_subset ?_ ?_
    · refine List.Nodup.map ?_ List.nodup_range
      intro a b hab
      have := congrArg List.length hab
      simpa using this
    · intro b hb
      obtain ⟨n, hn, rfl⟩ := List.mem_map.1 hb
      rw [C111_prev]
      have : (⟨MemEx.file n, created⟩ : FSEvent) ∈ A ++ R := List.mem_append_left _ (List.mem_map.2 ⟨n, hn, rfl⟩)
      obtain ⟨l₁, l₂, hl⟩ := List.append_of_mem this
      exact .inr ⟨l₁, _, l₂, hl, .inl rfl, MemEx.heeds n, .inl (show created &&& (created ||| removed) = created by decide)⟩
  have h3 := h2.length_le
  simp only [List.length_map, List.length_range, GoMap.keys] at h3
  omega

/-- A case for `C111_prev`: what a name has in memory. -/
example : (MemEx.w.dispatch (MemEx.both 0 ++ MemEx.both 1)).1.prev = [("x".toList, removed), ("xx".toList, removed)] := by decide

end Fsevents

/-! ### inotify: entries for files that were replaced -/
namespace Inotify

/-- `Works l s`: starting with a fresh watcher, the calls of the log (newest first) with the recorded outcomes lead to the watcher state `s`, while the file
system changes in any way. -/
inductive Works : Log → St → Prop
  | init (f : Path → Option Nat) : Works [] { inode := f }
  | call {l s c ok s'} : Works l s → Serves s c ok s' → Works ((c, ok) :: l) s'
  | fs {l s s'} : Works l s → FsStep s s' → Works l s'
  | reorder {l s s'} : Works l s → Reorder s s' → Works l s'

theorem Works.reach {l : Log} {s : St} (h : Works l s) : Reach false s := by
  induction h with
  | init f => exact .init f
  | call _ hs ih =>
    cases hs with
    | watch fail h => exact (fst_eq h) ▸ .step ih (.watch fail _ _)
    | rewatch fail h => exact (fst_eq h) ▸ .step ih (.watch fail _ _)
    | unwatch h => exact (fst_eq h) ▸ .step ih (.unwatch _)
  | fs _ hf ih => exact .step ih (.fs hf fun h => nomatch h)
  | reorder _ hr ih => exact .step ih (.reorder hr)

/-- C111, inotify, as long as watched paths lead to the same inodes: the table has an entry for every watch of the kernel, no other, and one for a path
at most. -/
theorem C111_table_partial {s : St} (h : Reach true s) :
    (∀ wd, (s.m.get? wd).isSome = (s.watches.get? wd).isSome) ∧
    (∀ wd wd' w w', s.m.get? wd = some w → s.m.get? wd' = some w' → w.path = w'.path → wd = wd') ∧
    s.m.length = s.watches.length := by
  have hb := h.base
  have hk : ∀ wd, wd ∈ s.m.keys ↔ wd ∈ s.watches.keys := by
    intro wd
    rw [GoMap.mem_keys_iff, GoMap.mem_keys_iff]
    constructor
    · rintro ⟨w, hw⟩; obtain ⟨k, hk, _⟩ := h.exact _ _ hw; exact ⟨k, hk⟩
    · rintro ⟨k, hk⟩; obtain ⟨w, hw, _⟩ := hb.live _ _ hk; exact ⟨w, hw⟩
  refine ⟨fun wd => ?_, fun wd wd' w w' h1 h2 h3 => ?_, ?_⟩
  · have := hk wd
    rw [GoMap.mem_keys_iff, GoMap.mem_keys_iff, ← Option.isSome_iff_exists, ← Option.isSome_iff_exists] at this
    exact Bool.eq_iff_iff.2 this
  · obtain ⟨k, k1, k2⟩ := h.exact _ _ h1
    obtain ⟨k', k1', k2'⟩ := h.exact _ _ h2
    rw [h3, k2'] at k2
    exact hb.uniq _ _ _ _ k1 k1' (Option.some.inj k2).symm
  · have := ((List.perm_ext_iff_of_nodup hb.mnodup hb.wnodup).2 hk).length_eq
    simpa [GoMap.keys] using this

/-- A case for `C111_table_partial`. -/
example : Reach true Ex.t1 ∧ Ex.t1.m.length = 1 ∧ Ex.t1.watches.length = 1 := ⟨Ex.reach1, by decide, by decide⟩

namespace MemEx

/-- The file. -/
def f : Path := [['f']]

/-- Only this file exists. -/
def only (i : Nat) : Path → Option Nat := fun p => if p = f then some i else none

/-- Another file takes its place. -/
theorem replace {l : Log} {s : St} (h : Works l s) (j : Nat) (hj : ∀ x ∈ s.watches, x.2.inode ≠ j) : Works l { s with inode := only j, watches := [] } := by
  have h1 := h.fs (FsStep.mk s (only j) (fun i => i == j) (by
    intro i
    simp only [beq_iff_eq, only]
    constructor
    · rintro rfl; exact ⟨f, by simp⟩
    · rintro ⟨p, hp⟩; split at hp <;> simp_all))
  have h2 : s.watches.filter (fun p => p.2.inode == j) = [] := by
    rw [List.filter_eq_nil_iff]
    intro x hx
    simpa using hj x hx
  rwa [h2] at h1

theorem set_new {m : Table} {k : Nat} (hk : ∀ w, m.get? k ≠ some w) (v : Watched) : m.set k v = m ++ [(k, v)] := by
  induction m with
  | nil => rfl
  | cons x m ih =>
    obtain ⟨k', v'⟩ := x
    simp only [GoMap.get?] at hk
    have h1 : k' ≠ k := fun he => hk v' (by rw [if_pos he])
    simp only [if_neg h1] at hk
    show (if k' = k then (k, v) :: m else (k', v') :: GoMap.set m k v) = _
    rw [if_neg h1, ih hk, List.cons_append]

theorem mem_old {ν : Type} {m : GoMap Nat ν} {k : Nat} {x : Nat × ν} (h : x ∈ m.del k) : x ∈ m := by
  induction m with
  | nil => exact h
  | cons y m ih =>
    obtain ⟨k', v⟩ := y
    simp only [GoMap.del] at h
    split at h
    · exact .tail _ (ih h)
    · rcases List.mem_cons.1 h with rfl | h
      · exact .head _
      · exact .tail _ (ih h)

theorem del_none {m : Table} {k : Nat} (h : k ∉ m.keys) : m.del k = m := by
  induction m with
  | nil => rfl
  | cons y m ih =>
    obtain ⟨k', v⟩ := y
    simp only [GoMap.keys_cons, List.mem_cons, not_or] at h
    simp only [GoMap.del, if_neg (Ne.symm h.1), ih h.2]

theorem length_old {m : Table} (hn : m.Nodup) {k : Nat} {w : Watched} (h : m.get? k = some w) : (m.del k).length + 1 = m.length := by
  induction m with
  | nil => cases h
  | cons y m ih =>
    obtain ⟨k', v⟩ := y
    simp only [GoMap.get?] at h
    obtain ⟨h1, h2⟩ := List.nodup_cons.1 hn
    split at h
    · next he => subst he; simp only [GoMap.del, if_true, del_none h1, List.length_cons]
    · next he => simp only [GoMap.del, if_neg he, List.length_cons, ih h2 h]

theorem watch_new {s : St} {i : Nat} (hi : s.inode = only i) (hw : s.watches = []) (hm : ∀ w, s.m.get? s.next ≠ some w) {e : Event} (he : accepts e = true)
    (hn : encode e &&& inAllEvents ≠ 0) :
    watch false s f e = ({ s with watches := [(s.next, ⟨i, encode e, f⟩)], next := s.next + 1, m := s.m ++ [(s.next, ⟨f, e⟩)] }, true) := by
  unfold watch
  rw [if_neg (by simp [he]), if_neg (by simp)]
  unfold addWatch
  rw [if_neg hn]
  have h1 : s.inode f = some i := by rw [hi]; simp [only]
  simp only [h1, hw, wdOf, List.find?_nil, set_new hm]
  rfl

/-- One round: the file is watched for Write, replaced, watched for Remove, too, unwatched, and replaced. -/
theorem round {l : Log} {s : St} {i n : Nat} (h : Works l s) (hv : ValidLog Platform.inotify l) (ho : ∀ p, osOf l p = 0) (hi : s.inode = only i)
    (hw : s.watches = []) (hp : ∀ x ∈ s.m, x.2.path = f) (hl : s.m.length = n) :
    ∃ l' s' i', Works l' s' ∧ ValidLog Platform.inotify l' ∧ (∀ p, osOf l' p = 0) ∧ s'.inode = only i' ∧ s'.watches = [] ∧ (∀ x ∈ s'.m, x.2.path = f) ∧
      s'.m.length = n + 1 := by
  have hb := h.reach.base
  have hm : ∀ w, s.m.get? s.next ≠ some w := fun w hc => Nat.lt_irrefl _ (hb.mfresh _ _ hc)
  have h1 := h.call (.watch (p := f) (e := write) false (watch_new hi hw hm (by decide) (by decide)))
  have h2 := replace h1 (i + 1) (by intro x hx; rcases List.mem_singleton.1 hx with rfl; simp)
  have hb2 := h2.reach.base
  have h3 := h2.call (.rewatch (p := f) (old := write) (e := write ||| remove) false (watch_new (i := i + 1) rfl rfl
    (fun w hc => Nat.lt_irrefl _ (hb2.mfresh _ _ hc)) (by decide) (by decide)))
  have hb3 := h3.reach.base
  rcases hu : unwatch _ f with ⟨s4, ok⟩
  have h4 := h3.call (.unwatch hu)
  cases ok with
  | false =>
    have := (unwatch_err hb3 hu).2 (s.next + 1 : Nat) ⟨f, write ||| remove⟩ (GoMap.get?_of_mem hb3.mnodup (by simp))
    exact absurd rfl this
  | true =>
    obtain ⟨wd, w, g1, g2, rfl⟩ := unwatch_ok hb3 hu
    have h5 := replace h4 (i + 2) (by
      intro x hx
      have := mem_old hx
      rcases List.mem_singleton.1 this with rfl
      simp)
    refine ⟨_, _, i + 2, h5, ?_, ?_, rfl, rfl, ?_, ?_⟩
    · refine ⟨?_, ⟨?_, ?_, ?_, ?_, ?_⟩, ⟨?_, ?_, ?_⟩, hv⟩
      · show osOf _ f ≠ 0
        simp only [osOf, if_true]
        decide
      · simp [osOf]
      · decide
      · decide
      · decide
      · decide
      · exact ho _
      · decide
      · decide
    · intro p
      simp only [osOf]
      have := ho p
      split <;> simp_all
    · intro x hx
      have hx := mem_old hx
      simp only [List.append_assoc, List.mem_append] at hx
      rcases hx with hx | hx
      · exact hp _ hx
      · simp at hx; rcases hx with rfl | rfl <;> rfl
    · have := length_old hb3.mnodup g1
      have h6 : ∀ a b : Nat × Watched, (s.m ++ [a] ++ [b]).length = n + 2 := fun a b => by simp [hl]
      exact Nat.succ.inj (this.trans (h6 _ _))

end MemEx

/-- **C111 is false of inotify.**  Each round a file is watched for Write, replaced by another file, watched for Remove, too, and unwatched.  The calls are
as the tree makes them, they all succeed, and nothing is watched in the end; but for every `N` the table comes to have more than `N` entries. -/
theorem C111_table_refuted : ¬ ∃ N, ∀ l s, Works l s → ValidLog Platform.inotify l → (∀ p, osOf l p = 0) → s.watches = [] → s.m.length ≤ N := by
  rintro ⟨N, h⟩
  have key : ∀ n, ∃ l s i, Works l s ∧ ValidLog Platform.inotify l ∧ (∀ p, osOf l p = 0) ∧ s.inode = MemEx.only i ∧ s.watches = [] ∧
      (∀ x ∈ s.m, x.2.path = MemEx.f) ∧ s.m.length = n := by
    intro n
    induction n with
    | zero => exact ⟨[], _, 0, .init (MemEx.only 0), trivial, fun _ => rfl, rfl, rfl, by simp, rfl⟩
    | succ n ih =>
      obtain ⟨l, s, i, h1, h2, h3, h4, h5, h6, h7⟩ := ih
      exact MemEx.round h1 h2 h3 h4 h5 h6 h7
  obtain ⟨l, s, i, h1, h2, h3, h4, h5, h6, h7⟩ := key (N + 1)
  have := h l s h1 h2 h3 h5
  omega

end Inotify

/-! ### FSEvents: objects of Core Foundation -/
namespace Streams

/-- What `Start` allocates for stream `k` (watcher_fsevents_cgo.go:138-141). -/
inductive Obj
  | cstring (k : Nat)
  | string (k : Nat)
  | array (k : Nat)
  | stream (k : Nat)
  deriving DecidableEq

/-- `Start` (watcher_fsevents_cgo.go:134-153). -/
def allocs (k : Nat) : Start → List Obj
  | .noCreate => [.cstring k, .string k, .array k]
  | _ => [.cstring k, .string k, .array k, .stream k]

/-- `Stop` (watcher_fsevents_cgo.go:156-164), and `Start` after FSEventStreamStart returned false (147-149): FSEventStreamStop and FSEventStreamInvalidate.
What releases an object is CFRelease or FSEventStreamRelease, and there is no call of these. -/
def frees (_ : Nat) : List Obj := []

/-- What the program holds after a history. -/
inductive Holds : List Op → S → List Obj → Prop
  | nil : Holds [] {} []
  | watch {ops s o} (p r) : Holds ops s o →
      Holds (ops ++ [.watch p r (watch s p r).2]) (watch s p r).1 (if (s.table.get? p).isSome then o else o ++ allocs (s.i + 1) r)
  | unwatch {ops s o} (p) : Holds ops s o →
      Holds (ops ++ [.unwatch p (unwatch s p).2]) (unwatch s p).1 (match s.table.get? p with | none => o | some x => o.filter (· ∉ frees x.2))

/-- **C111 is false of FSEvents, objects.**  A path is watched and unwatched again and again, each time with success.  Though nothing is watched in the end,
for every `N` more than `N` objects are held. -/
theorem C111_objects_refuted : ¬ ∃ N, ∀ ops s o, Holds ops s o → s.table = [] → o.length ≤ N := by
  rintro ⟨N, h⟩
  have key : ∀ n, ∃ ops s o, Holds ops s o ∧ s.table = [] ∧ o.length = 4 * n := by
    intro n
    induction n with
    | zero => exact ⟨_, _, _, .nil, rfl, rfl⟩
    | succ n ih =>
      obtain ⟨ops, s, o, h1, h2, h3⟩ := ih
      have g1 := h1.watch [['d']] .ok
      have g2 := g1.unwatch [['d']]
      refine ⟨_, _, _, g2, ?_, ?_⟩
      · simp [watch, unwatch, h2, GoMap.set, GoMap.get?, GoMap.del, stopStream]
      · simp [watch, h2, GoMap.set, GoMap.get?, frees, allocs, h3]
        omega
  obtain ⟨ops, s, o, h1, h2, h3⟩ := key (N + 1)
  have := h ops s o h1 h2
  omega

end Streams
end Verif
