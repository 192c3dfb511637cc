/-
Lemmas about the functions of the recursive tree: what they do to the watchpoint at each path.
The inactive watchpoint of the node at `q` is the watchpoint at `q ++ [[]]`.
-/
import Verif.Rec
import Verif.NonRecReg

namespace Verif
namespace Rec
open GoMap NonRec

/-- A node storing inactive watchpoints. -/
def inR (Q : WP → Prop) (x : Node) : Prop := x = .mk [] x.watch .nil ∧ Q x.watch

/-- Well-formed trees: names are paths, keys are unique, every watchpoint satisfies `Q`, and the
children with the empty key are leaves. -/
abbrev ROK (Q : WP → Prop) (root : Node) : Prop := root.OK Q (inR Q) []

variable {P : Platform} {Q : WP → Prop}

theorem OK.flat {n : Path} {nd : Node} (h : nd.OK Q (inR Q) n) {q r : Path} (hq : [] ∉ q) (hr : r ≠ []) :
    nd.find (q ++ [] :: r) = none := by
  rw [Node.find_append]
  cases hg : nd.get? q with
  | none => rfl
  | some c =>
    simp only [Option.bind_some, Node.find_cons]
    have hc := h.get hq hg
    cases hg2 : c.child.get? [] with
    | none => rfl
    | some x =>
      have hx := (Forest.OK.get hc.child hg2).1 rfl
      rw [hx.1]
      cases r with
      | nil => exact absurd rfl hr
      | cons b r => simp [Node.find_cons, Node.child, Forest.get?]

/-- The part of a path before its first empty component. -/
theorem split_empty (q : Path) : [] ∉ q ∨ ∃ q₁ q₂, q = q₁ ++ [] :: q₂ ∧ [] ∉ q₁ := by
  induction q with
  | nil => simp
  | cons b q ih =>
    by_cases hb : b = []
    · exact .inr ⟨[], q, by simp [hb], by simp⟩
    · rcases ih with h | ⟨q₁, q₂, rfl, h⟩
      · exact .inl (by simp [h, Ne.symm hb])
      · exact .inr ⟨b :: q₁, q₂, rfl, by simp [h, Ne.symm hb]⟩

theorem ROK.find_Q {nd : Node} {n : Path} (h : nd.OK Q (inR Q) n) {q : Path} {w : WP} (hf : nd.find q = some w) : Q w := by
  rcases split_empty q with hq | ⟨q₁, q₂, rfl, hq⟩
  · obtain ⟨c, hc, rfl⟩ := Node.get?_of_find hf
    exact (h.get hq hc).watch
  · cases q₂ with
    | cons b q₂ => rw [OK.flat h hq (by simp)] at hf; simp at hf
    | nil =>
      rw [Node.find_append] at hf
      cases hg : nd.get? q₁ with
      | none => rw [hg] at hf; simp at hf
      | some c =>
        rw [hg] at hf
        simp only [Option.bind_some, Node.find_cons] at hf
        cases hg2 : c.child.get? [] with
        | none => rw [hg2] at hf; simp at hf
        | some x =>
          rw [hg2] at hf
          have hx := (Forest.OK.get (h.get hq hg).child hg2).1 rfl
          simp only [Option.bind_some, Node.find_nil, Option.some.injEq] at hf
          rw [← hf]; exact hx.2

theorem ROK.watchAt {nd : Node} {n : Path} (h : nd.OK Q (inR Q) n) (h0 : Q []) (q : Path) : Q (watchAt nd q) := by
  unfold NonRec.watchAt
  cases hf : nd.find q with
  | none => exact h0
  | some w => exact ROK.find_Q h hf

theorem find_ne_of_watchAt {nd : Node} {q : Path} (h : watchAt nd q ≠ []) : nd.get? q ≠ none := by
  intro h0
  apply h
  unfold NonRec.watchAt
  rw [(Node.find_eq_none nd q).2 h0]; rfl

/-! ### Reading a node -/

theorem watch_nodeAt (root : Node) (q : Path) : (nodeAt root q).watch = watchAt root q := by
  unfold nodeAt watchAt Node.find
  cases root.get? q <;> rfl

theorem inact_nodeAt (root : Node) (q : Path) : inact (nodeAt root q) = watchAt root (q ++ [[]]) := by
  unfold nodeAt watchAt inact inact?
  rw [Node.find_append]
  cases root.get? q with
  | none => rfl
  | some c =>
    simp only [Option.getD_some, Option.bind_some, Node.find_cons]
    cases c.child.get? [] <;> simp

theorem nodeAt_of_get {root : Node} {q : Path} {c : Node} (h : root.get? q = some c) : nodeAt root q = c := by
  simp [nodeAt, h]

theorem nodeAt_name {root : Node} (h : ROK Q root) {q : Path} (hq : [] ∉ q) (hg : root.get? q ≠ none) :
    (nodeAt root q).name = q := by
  obtain ⟨c, hc⟩ := Option.ne_none_iff_exists'.1 hg
  rw [nodeAt_of_get hc]
  simpa using (h.get hq hc).name_eq

/-- The total of a node, in terms of its two watchpoints. -/
def tot (P : Platform) (root : Node) (q : Path) : Event :=
  (watchAt root q).total P ||| (watchAt root (q ++ [[]])).total P

theorem total_nil (P : Platform) : WP.total P [] = 0 := by simp [WP.total]

theorem watchTotal_eq (P : Platform) (nd : Node) : watchTotal P nd = nd.watch.total P ||| (inact nd).total P := by
  unfold watchTotal
  split
  · rfl
  · next h =>
    have : inact nd = [] := by simpa using h
    rw [this, total_nil]; simp

theorem watchTotal_nodeAt (P : Platform) (root : Node) (q : Path) : watchTotal P (nodeAt root q) = tot P root q := by
  rw [watchTotal_eq, watch_nodeAt, inact_nodeAt]; rfl

theorem tot_ne_find {root : Node} {q : Path} (h : tot P root q ≠ 0) : root.get? q ≠ none := by
  intro h0
  apply h
  have h1 : watchAt root q = [] := by
    unfold watchAt; rw [(Node.find_eq_none root q).2 h0]; rfl
  have h2 : watchAt root (q ++ [[]]) = [] := by
    unfold watchAt; rw [Node.find_append, h0]; rfl
  rw [tot, h1, h2, total_nil]; rfl

/-! ### Writing a node -/

theorem update_const {root : Node} {q : Path} (f : Node → Node) :
    root.update q (fun _ => f (nodeAt root q)) = root.update q f := by
  induction q generalizing root with
  | nil => simp [Node.update, nodeAt]
  | cons b q ih =>
    obtain ⟨n, w, ch⟩ := root
    simp only [Node.update]
    cases hg : ch.get? b with
    | none => rfl
    | some c =>
      have : nodeAt (.mk n w ch) (b :: q) = nodeAt c q := by
        simp [nodeAt, Node.get?_cons, Node.child, hg]
      rw [this]
      simp only [ih]

theorem find_setInact (nd : Node) (w : WP) (r : Path) :
    (setInact w nd).find r = if r = [[]] then some w else if [[]] <+: r then none else nd.find r := by
  obtain ⟨n, w0, ch⟩ := nd
  simp only [setInact]
  cases r with
  | nil => simp [Node.watch]
  | cons b r =>
    rw [Node.find_cons, Node.find_cons]
    simp only [Node.child, Forest.get?_put]
    by_cases hb : [] = b
    · subst hb
      cases r with
      | nil => simp [Node.watch]
      | cons x r => simp [Node.find_cons, Node.child, Forest.get?]
    · have h1 : b :: r ≠ [[]] := by simp [Ne.symm hb]
      have h2 : ¬ [[]] <+: b :: r := by simp [hb]
      rw [if_neg hb, if_neg h1, if_neg h2]

theorem watchAt_setInact {root : Node} (h : ROK Q root) {q : Path} (hq : [] ∉ q) (hg : root.get? q ≠ none) (w : WP)
    (r : Path) :
    watchAt (root.update q (setInact w)) r = if r = q ++ [[]] then w else watchAt root r := by
  obtain ⟨c, hc⟩ := Option.ne_none_iff_exists'.1 hg
  unfold watchAt
  by_cases hqr : q <+: r
  · obtain ⟨r, rfl⟩ := hqr
    rw [Node.update_find_append root q _ hc, find_setInact]
    simp only [List.append_cancel_left_eq]
    split
    · rfl
    · next h1 =>
      split
      · next h2 =>
        obtain ⟨t, rfl⟩ := h2
        rw [List.singleton_append, OK.flat h hq (by rintro rfl; exact h1 rfl)]
      · rw [Node.find_append, hc]; rfl
  · rw [Node.update_find_other root q _ hqr, if_neg]
    rintro rfl
    exact hqr (List.prefix_append _ _)

theorem setInact_OK {n : Path} {nd : Node} (h : nd.OK Q (inR Q) n) {w : WP} (hw : Q w) :
    (setInact w nd).OK Q (inR Q) n := by
  obtain ⟨n', w0, ch⟩ := nd
  have hn : n' = n := h.name_eq
  subst hn
  exact Node.OK.mk h.watch (Forest.OK.put h.child (fun _ => ⟨rfl, hw⟩) (fun e => absurd rfl e))

theorem clean_OK {n : Path} {nd : Node} (h : nd.OK Q (inR Q) n) {c : Nat} (hw : Q (GoMap.del nd.watch (.user c))) :
    (clean c nd).OK Q (inR Q) n := by
  obtain ⟨n', w0, ch⟩ := nd
  have hn : n' = n := h.name_eq
  subst hn
  exact Node.OK.mk hw (Forest.OK.del h.child [])

theorem find_clean (nd : Node) (c : Nat) (r : Path) :
    (clean c nd).find r = if r = [] then some (GoMap.del nd.watch (.user c)) else if [[]] <+: r then none else nd.find r := by
  obtain ⟨n, w0, ch⟩ := nd
  simp only [clean]
  cases r with
  | nil => simp [Node.watch]
  | cons b r =>
    rw [Node.find_cons, Node.find_cons]
    simp only [Node.child, Forest.get?_del]
    by_cases hb : [] = b
    · subst hb; simp
    · rw [if_neg hb, if_neg (by simp), if_neg (by simp [hb])]

theorem watchAt_clean {root : Node} (h : ROK Q root) {q : Path} (hq : [] ∉ q) (hg : root.get? q ≠ none) (c : Nat)
    (r : Path) :
    watchAt (root.update q (clean c)) r =
      if r = q then GoMap.del (watchAt root q) (.user c) else if r = q ++ [[]] then [] else watchAt root r := by
  obtain ⟨x, hc⟩ := Option.ne_none_iff_exists'.1 hg
  have hx : watchAt root q = x.watch := by simp [watchAt, Node.find, hc]
  unfold watchAt at hx ⊢
  by_cases hqr : q <+: r
  · obtain ⟨r, rfl⟩ := hqr
    rw [Node.update_find_append root q _ hc, find_clean]
    simp only [List.append_cancel_left_eq]
    cases r with
    | nil => simp only [if_true, List.append_nil, Option.getD_some, hx]
    | cons b r =>
      have h0 : ¬ (q ++ b :: r = q) := by
        intro e; have := congrArg List.length e; simp at this
      rw [if_neg (show ¬ (b :: r = []) by simp), if_neg h0]
      by_cases h2 : [[]] <+: b :: r
      · rw [if_pos h2]
        obtain ⟨t, ht⟩ := h2
        rw [← ht]
        split
        · rfl
        · next h1 =>
          rw [List.singleton_append, OK.flat h hq]
          rintro rfl; exact h1 rfl
      · rw [if_neg h2, if_neg (by rintro h3; rw [h3] at h2; exact h2 (List.prefix_refl _)), Node.find_append, hc]; rfl
  · rw [Node.update_find_other root q _ hqr, if_neg, if_neg]
    · rintro rfl; exact hqr (List.prefix_append _ _)
    · rintro rfl; exact hqr (List.prefix_refl _)

theorem get_update_ne {root : Node} {q : Path} (f : Node → Node) (r : Path) (hf : ∀ c, (f c).get? r = none → c.get? r = none)
    (hg : root.get? (q ++ r) ≠ none) : (root.update q f).get? (q ++ r) ≠ none := by
  cases hc : root.get? q with
  | none => rw [Node.get?_append, hc] at hg; exact absurd rfl hg
  | some c =>
    rw [Node.update_get_append root q f hc]
    intro h0
    apply hg
    rw [Node.get?_append, hc]
    exact hf c h0

end Rec
end Verif
