/-
FSEvents streams and the registry of callbacks (C76).

Models /repo/watcher_fsevents_cgo.go: `gostream` (55-83, what is found for the callback's `info`), `streamFuncRegistry` (90-114), `newStream` (125-130),
`Start` (134-153), `Stop` (156-164); and /repo/watcher_fsevents.go: `watch` (189-206), `unwatch` (208-216), `Close` (305-311) as far as they make
and stop streams.

FSEvents is represented by the set of streams that are running and by callbacks.  A callback starts for any stream that was ever started, also when it
was stopped in the meantime, since stopping does not wait for the dispatch queue; it takes the function from the registry, and runs it later.

Simplifications: a watch is a number, given when it is allocated.  `uintptr` does not overflow.  Batches are not empty.
-/
import Verif.Watchpoint

namespace Verif
namespace Streams
open GoMap

/-- What `Start` meets: success, FSEventStreamCreate returns NULL, FSEventStreamStart returns false. -/
inductive Start
  | ok
  | noCreate
  | noStart
  deriving DecidableEq

structure S where
  /-- `streamFuncs.i`, `streamFuncs.m`: the watch whose `Dispatch` it is. -/
  i : Nat := 0
  m : GoMap Nat Nat := []
  /-- `fse.watches`: the watch and the `info` of its stream. -/
  table : GoMap Path (Nat × Nat) := []
  /-- Watches allocated. -/
  n : Nat := 0
  /-- Streams running in FSEvents: `info` and path. -/
  kern : List (Nat × Path) := []
  /-- Streams made: `info`, the watch, the path. -/
  born : List (Nat × Nat × Path) := []
  /-- Callbacks that have taken their function: `info` of the stream, the watch found. -/
  busy : List (Nat × Nat) := []
  deriving DecidableEq

/-- `newStream` and `Start` for a new watch of `p`, and the new entry of `watches` (watcher_fsevents.go:189-206); `true` is nil. -/
def watch (s : S) (p : Path) (r : Start) : S × Bool :=
  match s.table.get? p with
  | some _ => (s, false)
  | none =>
    let k := s.i + 1
    let s := { s with i := k, m := s.m.set k s.n, n := s.n + 1, born := (k, s.n, p) :: s.born }
    match r with
    | .noCreate => (s, false)
    | .noStart => (s, false)
    | .ok => ({ s with table := s.table.set p (s.n - 1, k), kern := (k, p) :: s.kern }, true)

/-- `func (s *stream) Stop` of a stream that is running (watcher_fsevents_cgo.go:156-164). -/
def stopStream (s : S) (k : Nat) : S := { s with kern := s.kern.filter (fun x => x.1 != k), m := s.m.del k }

/-- `unwatch` (watcher_fsevents.go:208-216). -/
def unwatch (s : S) (p : Path) : S × Bool :=
  match s.table.get? p with
  | none => (s, false)
  | some x => ({ stopStream s x.2 with table := s.table.del p }, true)

/-- `Close` (watcher_fsevents.go:305-311). -/
def close (s : S) : S := { s.table.foldl (fun s x => stopStream s x.2.2) s with table := [] }

/-- `gostream` up to the call of `fn` (watcher_fsevents_cgo.go:61-67). -/
def take (s : S) (k : Nat) : S :=
  match s.m.get? k with
  | none => s
  | some w => { s with busy := (k, w) :: s.busy }

inductive Op
  | watch (p : Path) (r : Start) (ok : Bool)
  | unwatch (p : Path) (ok : Bool)
  | close
  | take (k : Nat)
  /-- A callback returns. -/
  | done (k w : Nat)
  deriving DecidableEq

/-- Histories (oldest operation first). -/
inductive Hist : List Op → S → Prop
  | nil : Hist [] {}
  | watch {ops s} (p r) : Hist ops s → Hist (ops ++ [.watch p r (watch s p r).2]) (watch s p r).1
  | unwatch {ops s} (p) : Hist ops s → Hist (ops ++ [.unwatch p (unwatch s p).2]) (unwatch s p).1
  | close {ops s} : Hist ops s → Hist (ops ++ [.close]) (close s)
  | take {ops s k w p} : Hist ops s → (k, w, p) ∈ s.born → Hist (ops ++ [.take k]) (take s k)
  | done {ops s k w} : Hist ops s → (k, w) ∈ s.busy → Hist (ops ++ [.done k w]) { s with busy := s.busy.erase (k, w) }

/-! ### The invariant -/

structure Inv (s : S) : Prop where
  nodup : s.table.Nodup
  mnodup : s.m.Nodup
  le : ∀ k w p, (k, w, p) ∈ s.born → k ≤ s.i
  fn : ∀ k w p w' p', (k, w, p) ∈ s.born → (k, w', p') ∈ s.born → w = w' ∧ p = p'
  reg : ∀ k w, s.m.get? k = some w → ∃ p, (k, w, p) ∈ s.born
  tab : ∀ p w k, s.table.get? p = some (w, k) → (k, w, p) ∈ s.born ∧ s.m.get? k = some w ∧ (k, p) ∈ s.kern
  kern : ∀ k p, (k, p) ∈ s.kern → ∃ w, s.table.get? p = some (w, k)
  busy : ∀ k w, (k, w) ∈ s.busy → ∃ p, (k, w, p) ∈ s.born

theorem Inv.watch {s : S} (h : Inv s) (p : Path) (r : Start) : Inv (watch s p r).1 := by
  unfold Streams.watch
  cases hg : s.table.get? p with
  | some _ => exact h
  | none =>
    have hnew : ∀ w p, (s.i + 1, w, p) ∉ s.born := fun w p hb => by have := h.le _ _ _ hb; omega
    have hm : s.m.get? (s.i + 1) = none := by
      cases hc : s.m.get? (s.i + 1) with
      | none => rfl
      | some w => obtain ⟨p, hp⟩ := h.reg _ _ hc; exact absurd hp (hnew _ _)
    have hle : ∀ k w p', (k, w, p') ∈ (s.i + 1, s.n, p) :: s.born → k ≤ s.i + 1 := by
      intro k w p' hb
      rcases List.mem_cons.mp hb with hb | hb
      · simp only [Prod.mk.injEq] at hb; omega
      · have := h.le _ _ _ hb; omega
    have hfn : ∀ k w p1 w' p', (k, w, p1) ∈ (s.i + 1, s.n, p) :: s.born → (k, w', p') ∈ (s.i + 1, s.n, p) :: s.born → w = w' ∧ p1 = p' := by
      intro k w p1 w' p' h1 h2
      rcases List.mem_cons.mp h1 with h1 | h1 <;> rcases List.mem_cons.mp h2 with h2 | h2
      · simp only [Prod.mk.injEq] at h1 h2; exact ⟨h1.2.1.trans h2.2.1.symm, h1.2.2.trans h2.2.2.symm⟩
      · simp only [Prod.mk.injEq] at h1; rw [h1.1] at h2; exact absurd h2 (hnew _ _)
      · simp only [Prod.mk.injEq] at h2; rw [h2.1] at h1; exact absurd h1 (hnew _ _)
      · exact h.fn _ _ _ _ _ h1 h2
    have hreg : ∀ k w, (s.m.set (s.i + 1) s.n).get? k = some w → ∃ p', (k, w, p') ∈ (s.i + 1, s.n, p) :: s.born := by
      intro k w hk
      rw [get?_set] at hk
      split at hk
      · next he => subst he; cases hk; exact ⟨p, by simp⟩
      · obtain ⟨p', hp'⟩ := h.reg _ _ hk; exact ⟨p', by simp [hp']⟩
    have hold : ∀ p' w k, s.table.get? p' = some (w, k) → (k, w, p') ∈ (s.i + 1, s.n, p) :: s.born ∧
        (s.m.set (s.i + 1) s.n).get? k = some w ∧ (k, p') ∈ s.kern := by
      intro p' w k ht
      obtain ⟨h1, h2, h3⟩ := h.tab _ _ _ ht
      refine ⟨by simp [h1], ?_, h3⟩
      rw [get?_set, if_neg (by rintro rfl; exact hnew _ _ h1), h2]
    have hbusy : ∀ k w, (k, w) ∈ s.busy → ∃ p', (k, w, p') ∈ (s.i + 1, s.n, p) :: s.born := by
      intro k w hb
      obtain ⟨p', hp'⟩ := h.busy _ _ hb
      exact ⟨p', by simp [hp']⟩
    cases r with
    | noCreate => exact ⟨h.nodup, h.mnodup.set _ _, hle, hfn, hreg, hold, h.kern, hbusy⟩
    | noStart => exact ⟨h.nodup, h.mnodup.set _ _, hle, hfn, hreg, hold, h.kern, hbusy⟩
    | ok =>
      refine ⟨h.nodup.set _ _, h.mnodup.set _ _, hle, hfn, hreg, ?_, ?_, hbusy⟩
      · intro p' w k ht
        simp only [get?_set, Nat.add_sub_cancel] at ht
        split at ht
        · next he => subst he; cases ht; exact ⟨by simp, by simp [get?_set], by simp⟩
        · obtain ⟨h1, h2, h3⟩ := hold _ _ _ ht; exact ⟨h1, h2, by simp [h3]⟩
      · intro k p' hk
        simp only [get?_set, Nat.add_sub_cancel]
        rcases List.mem_cons.mp hk with hk | hk
        · cases hk; exact ⟨s.n, by simp⟩
        · obtain ⟨w, hw⟩ := h.kern _ _ hk
          refine ⟨w, ?_⟩
          rw [if_neg (by rintro rfl; rw [hg] at hw; cases hw), hw]

theorem Inv.unwatch {s : S} (h : Inv s) (p : Path) : Inv (unwatch s p).1 := by
  unfold Streams.unwatch
  cases hg : s.table.get? p with
  | none => exact h
  | some x =>
    obtain ⟨w0, k0⟩ := x
    obtain ⟨b0, m0, r0⟩ := h.tab _ _ _ hg
    refine ⟨h.nodup.del _, h.mnodup.del _, h.le, h.fn, ?_, ?_, ?_, h.busy⟩
    · intro k w hk
      simp only [stopStream, get?_del] at hk
      split at hk
      · cases hk
      · exact h.reg _ _ hk
    · intro p' w k ht
      simp only [get?_del] at ht
      split at ht
      · cases ht
      · next hne =>
        obtain ⟨h1, h2, h3⟩ := h.tab _ _ _ ht
        have hk : k0 ≠ k := by rintro rfl; exact hne (h.fn _ _ _ _ _ b0 h1).2
        refine ⟨h1, ?_, ?_⟩
        · simp [stopStream, get?_del, hk, h2]
        · simp [stopStream, h3, Ne.symm hk]
    · intro k p' hk
      simp only [stopStream, List.mem_filter, bne_iff_ne, ne_eq] at hk
      obtain ⟨w, hw⟩ := h.kern _ _ hk.1
      refine ⟨w, ?_⟩
      simp only [get?_del]
      rw [if_neg (by rintro rfl; rw [hg] at hw; cases hw; exact hk.2 rfl), hw]

theorem foldl_stop (l : List (Path × (Nat × Nat))) (s : S) :
    (l.foldl (fun s x => stopStream s x.2.2) s) =
      { s with kern := s.kern.filter (fun y => !(l.map (·.2.2)).contains y.1), m := l.foldl (fun m x => m.del x.2.2) s.m } := by
  induction l generalizing s with
  | nil =>
    have : s.kern.filter (fun _ => true) = s.kern := List.filter_eq_self.mpr (by simp)
    simp [this]
  | cons x l ih =>
    rw [List.foldl_cons, ih]
    simp only [stopStream, List.filter_filter, List.foldl_cons, List.map_cons]
    congr 1
    apply List.filter_congr
    intro y _
    simp only [List.contains_cons, Bool.not_or]
    rw [Bool.and_comm]
    rfl

theorem get?_foldl_del (l : List (Path × (Nat × Nat))) (m : GoMap Nat Nat) (k : Nat) :
    (l.foldl (fun m x => m.del x.2.2) m).get? k = if k ∈ l.map (·.2.2) then none else m.get? k := by
  induction l generalizing m with
  | nil => simp
  | cons x l ih =>
    rw [List.foldl_cons, ih, get?_del]
    simp only [List.map_cons, List.mem_cons]
    by_cases h1 : k ∈ l.map (·.2.2) <;> by_cases h2 : x.2.2 = k
    · simp [h1]
    · simp [h1]
    · simp [h2]
    · simp [h1, h2, Ne.symm h2]

theorem Nodup.foldl_del (l : List (Path × (Nat × Nat))) {m : GoMap Nat Nat} (h : m.Nodup) : GoMap.Nodup (l.foldl (fun m x => m.del x.2.2) m) := by
  induction l generalizing m with
  | nil => exact h
  | cons x l ih => exact ih (h.del _)

theorem Inv.close {s : S} (h : Inv s) : Inv (close s) := by
  unfold Streams.close
  rw [foldl_stop]
  refine ⟨by simp, Nodup.foldl_del _ h.mnodup, h.le, h.fn, ?_, ?_, ?_, h.busy⟩
  · intro k w hk
    simp only [get?_foldl_del] at hk
    split at hk
    · cases hk
    · exact h.reg _ _ hk
  · intro p w k ht; simp at ht
  · intro k p hk
    exfalso
    simp only [List.mem_filter] at hk
    obtain ⟨w, hw⟩ := h.kern _ _ hk.1
    have : k ∈ s.table.map (·.2.2) := List.mem_map.mpr ⟨_, mem_of_get? hw, rfl⟩
    simp [this] at hk

theorem Hist.inv {ops : List Op} {s : S} (h : Hist ops s) : Inv s := by
  induction h with
  | nil => constructor <;> simp
  | watch p r _ ih => exact ih.watch p r
  | unwatch p _ ih => exact ih.unwatch p
  | close _ ih => exact ih.close
  | @take ops s k w p _ _ ih =>
    unfold Streams.take
    cases hg : s.m.get? k with
    | none => exact ih
    | some w' =>
      refine ⟨ih.nodup, ih.mnodup, ih.le, ih.fn, ih.reg, ih.tab, ih.kern, ?_⟩
      intro k' w'' hb
      rcases List.mem_cons.mp hb with hb | hb
      · cases hb; exact ih.reg _ _ hg
      · exact ih.busy _ _ hb
  | done _ _ ih => exact ⟨ih.nodup, ih.mnodup, ih.le, ih.fn, ih.reg, ih.tab, ih.kern, fun k w hb => ih.busy k w (List.erase_subset hb)⟩

/-! ### C76 -/

/-- **C76, callbacks.**  Any history of Watch and Unwatch calls and of callbacks, with any failures.  A callback is handled by the watch for which its stream was
made, and by no other, also if the stream was stopped and the path is watched again in the meantime.  FSEvents runs one stream for every watched path, none
else, and its callbacks find the watch of the path. -/
theorem C76_route {ops : List Op} {s : S} (h : Hist ops s) :
    (∀ k w p, (k, w, p) ∈ s.born → ∀ w', (s.m.get? k = some w' ∨ (k, w') ∈ s.busy) → w' = w) ∧
    (∀ p w k, s.table.get? p = some (w, k) → (k, p) ∈ s.kern ∧ s.m.get? k = some w ∧ (k, w, p) ∈ s.born) ∧
    (∀ k p, (k, p) ∈ s.kern → ∃ w, s.table.get? p = some (w, k)) := by
  have hi := h.inv
  refine ⟨fun k w p hb w' hw => ?_, fun p w k ht => ?_, hi.kern⟩
  · rcases hw with hw | hw
    · obtain ⟨p', hp⟩ := hi.reg _ _ hw; exact (hi.fn _ _ _ _ _ hp hb).1
    · obtain ⟨p', hp⟩ := hi.busy _ _ hw; exact (hi.fn _ _ _ _ _ hp hb).1
  · obtain ⟨h1, h2, h3⟩ := hi.tab _ _ _ ht; exact ⟨h3, h2, h1⟩

/-- A Watch failed because its stream did not start. -/
def Op.failedStart : Op → Prop
  | .watch _ r _ => r ≠ .ok
  | _ => False

theorem clean {ops : List Op} {s : S} (h : Hist ops s) (hs : ∀ op ∈ ops, ¬ op.failedStart) :
    ∀ k w, s.m.get? k = some w → ∃ p, s.table.get? p = some (w, k) := by
  induction h with
  | nil => simp
  | @watch ops s p r h ih =>
    have ih := ih fun o ho => hs o (by simp [ho])
    have hr : r = .ok := by
      have := hs _ (List.mem_append_right _ (List.mem_singleton_self _))
      simpa [Op.failedStart] using this
    subst hr
    intro k w hk
    unfold Streams.watch at hk ⊢
    cases hg : s.table.get? p with
    | some x => rw [hg] at hk; exact ih k w hk
    | none =>
      simp only [hg, Nat.add_sub_cancel] at hk ⊢
      rw [get?_set] at hk
      split at hk
      · next he => cases hk; subst he; exact ⟨p, by simp [get?_set]⟩
      · obtain ⟨p', hp'⟩ := ih k w hk
        refine ⟨p', ?_⟩
        rw [get?_set, if_neg (by rintro rfl; rw [hg] at hp'; cases hp'), hp']
  | @unwatch ops s p h ih =>
    have ih := ih fun o ho => hs o (by simp [ho])
    intro k w hk
    unfold Streams.unwatch at hk ⊢
    cases hg : s.table.get? p with
    | none => rw [hg] at hk; exact ih k w hk
    | some x =>
      obtain ⟨w0, k0⟩ := x
      simp only [hg, stopStream, get?_del] at hk ⊢
      split at hk
      · cases hk
      · next hne =>
        obtain ⟨p', hp'⟩ := ih k w hk
        refine ⟨p', ?_⟩
        rw [if_neg (by rintro rfl; rw [hg] at hp'; cases hp'; exact hne rfl), hp']
  | @close ops s h ih =>
    have ih := ih fun o ho => hs o (by simp [ho])
    intro k w hk
    exfalso
    unfold Streams.close at hk
    rw [foldl_stop] at hk
    simp only [get?_foldl_del] at hk
    split at hk
    · cases hk
    · next hne =>
      obtain ⟨p', hp'⟩ := ih k w hk
      exact hne (List.mem_map.mpr ⟨_, mem_of_get? hp', rfl⟩)
  | @take ops s k w p h hb ih =>
    have ih := ih fun o ho => hs o (by simp [ho])
    unfold Streams.take
    split <;> exact ih
  | done h hb ih => exact ih fun o ho => hs o (by simp [ho])

/-- **C76, what is left behind.**  If every stream starts, the registry has exactly the functions of the watches there are.  Missing: streams that do not start
(C76_leak_refuted). -/
theorem C76_clean_partial {ops : List Op} {s : S} (h : Hist ops s) (hs : ∀ op ∈ ops, ¬ op.failedStart) (k w : Nat) :
    s.m.get? k = some w ↔ ∃ p, s.table.get? p = some (w, k) :=
  ⟨clean h hs k w, fun ⟨p, hp⟩ => (h.inv.tab p w k hp).2.1⟩

namespace Ex

abbrev a : Path := [['a']]
abbrev b : Path := [['b']]

/-- `/a` and `/b` are watched; a callback for `/a` takes its function; `/a` is unwatched and watched again. -/
def s1 : S := (watch (watch {} a .ok).1 b .ok).1
def s2 : S := take s1 1
def s3 : S := (unwatch s2 a).1
def s4 : S := (watch s3 a .ok).1

def ops3 : List Op := [.watch a .ok true, .watch b .ok true, .take 1, .unwatch a true]
theorem hist3 : Hist ops3 s3 := .unwatch a (.take (w := 0) (p := a) (.watch b .ok (.watch a .ok .nil)) (by decide))

end Ex

example : Hist Ex.ops3 Ex.s3 ∧ (∀ op ∈ Ex.ops3, ¬ op.failedStart) ∧ Ex.s3.m = [(2, 1)] ∧ Ex.s3.table = [(Ex.b, (1, 2))] ∧ Ex.s3.kern = [(2, Ex.b)] :=
  ⟨Ex.hist3, by simp [Ex.ops3, Op.failedStart], by decide, by decide, by decide⟩

/-- **C76 is false of late callbacks.**  Unwatch returns nil while a callback of the stream has its function in hand: it forwards events after that, also when the path is
watched again (by watch 2), for which these events are too old. -/
theorem C76_late_refuted : ∃ ops s, Hist ops s ∧ ops = [.watch Ex.a .ok true, .watch Ex.b .ok true, .take 1, .unwatch Ex.a true, .watch Ex.a .ok true] ∧
    s.table.get? Ex.a = some (2, 3) ∧ (1, 0) ∈ s.busy ∧ (∀ p k, (p, (0, k)) ∉ s.table) := by
  refine ⟨_, Ex.s4, .watch Ex.a .ok Ex.hist3, by decide, by decide, by decide, ?_⟩
  have : Ex.s4.table = [(Ex.b, (1, 2)), (Ex.a, (2, 3))] := by decide
  rw [this]
  simp

/-- **C76 is false of streams that do not start.**  Every failed Watch leaves its function, and with it the watch, in the registry: after `n` of them nothing is watched and
the registry has `n` entries, which nothing removes, not even Close. -/
theorem C76_leak_refuted (n : Nat) : ∃ ops s, Hist ops s ∧ s.table = [] ∧ s.m.length = n ∧ (close s).m.length = n := by
  suffices ∃ ops s, Hist ops s ∧ s.table = [] ∧ s.m.length = n ∧ s.i = n by
    obtain ⟨ops, s, h, h1, h2, -⟩ := this
    exact ⟨ops, s, h, h1, h2, by simp [close, h1, h2]⟩
  induction n with
  | zero => exact ⟨[], {}, .nil, rfl, rfl, rfl⟩
  | succ n ih =>
    obtain ⟨ops, s, h, h1, h2, h3⟩ := ih
    refine ⟨_, _, .watch Ex.a .noStart h, ?_, ?_, ?_⟩
    · simp [watch, h1]
    · have hi := h.inv
      have hm : s.m.get? (s.i + 1) = none := by
        cases hc : s.m.get? (s.i + 1) with
        | none => rfl
        | some w => obtain ⟨p, hp⟩ := hi.reg _ _ hc; have := hi.le _ _ _ hp; omega
      have hset : ∀ (m : GoMap Nat Nat) k v, m.get? k = none → (m.set k v).length = m.length + 1 := by
        intro m k v
        induction m with
        | nil => intro _; rfl
        | cons x m ih =>
          intro hx
          obtain ⟨k', v'⟩ := x
          simp only [get?] at hx
          split at hx
          · cases hx
          · next hne => simp [GoMap.set, hne, ih hx]
      simp only [watch, h1, get?_nil]
      rw [hset _ _ _ hm, h2]
    · simp [watch, h1, h3]

end Streams
end Verif
