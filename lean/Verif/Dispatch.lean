/-
Counting the sends made by dispatch.
-/
import Verif.NodeLemmas

namespace Verif
open GoMap

namespace WP

/-- Whether `dispatch` sends to `k`. -/
def hit (P : Platform) (w : WP) (k : Key) (m : Event) : Bool :=
  match w.get? k with
  | none => false
  | some v => decide (k ≠ .nil) && matchesEv P v m && matchesEv P (w.val .nil) m

theorem count_filter_keys (w : WP) (hn : w.Nodup) (f : Key × Event → Bool) (k : Key) :
    ((w.filter f).map Prod.fst).count k =
      match w.get? k with
      | none => 0
      | some v => if f (k, v) then 1 else 0 := by
  induction w with
  | nil => simp
  | cons p w ih =>
    obtain ⟨k', v'⟩ := p
    have hn' : k' ∉ GoMap.keys w ∧ GoMap.Nodup w := by
      simpa [GoMap.Nodup, GoMap.keys_cons, List.nodup_cons] using hn
    specialize ih hn'.2
    by_cases hk : k' = k
    · subst hk
      have hnone : GoMap.get? w k' = none := (GoMap.get?_eq_none_iff w k').2 hn'.1
      rw [hnone] at ih
      simp only [GoMap.get?, if_true, List.filter_cons]
      cases f (k', v') <;> simp [ih]
    · have : GoMap.get? ((k', v') :: w) k = GoMap.get? w k := by simp [GoMap.get?, hk]
      rw [this, ← ih, List.filter_cons]
      cases f (k', v') <;> simp [hk]

theorem count_dispatch (P : Platform) {w : WP} (hn : w.Nodup) (ei : EventInfo) (extra : Event) (k : Key) :
    (w.dispatch P ei extra).count k = if w.hit P k (eventmask P ei extra) then 1 else 0 := by
  unfold dispatch hit
  simp only
  split
  · next h =>
    rw [count_filter_keys w hn]
    cases w.get? k with
    | none => simp
    | some v => simp [h]
  · next h =>
    cases w.get? k with
    | none => simp
    | some v => simp [h]

end WP

theorem count_flatMap_filterMap {α β κ : Type} [BEq κ] [LawfulBEq κ] (g : α → Option β) (f : β → List κ) (q : α → Bool) (k : κ)
    (l : List α) (h : ∀ i ∈ l, ((g i).map fun b => (f b).count k).getD 0 = if q i then 1 else 0) :
    ((l.filterMap g).flatMap f).count k = l.countP q := by
  induction l with
  | nil => simp
  | cons i l ih =>
    specialize ih (fun j hj => h j (List.mem_cons_of_mem _ hj))
    have hi := h i List.mem_cons_self
    rw [List.filterMap_cons, List.countP_cons]
    cases hg : g i with
    | none =>
      rw [hg] at hi
      simp only [ih]
      cases hq : q i
      · simp
      · simp [hq] at hi
    | some b =>
      rw [hg] at hi
      simp only [List.flatMap_cons, List.count_append, ih]
      simp only [Option.map_some, Option.getD_some] at hi
      rw [hi]; omega

end Verif
