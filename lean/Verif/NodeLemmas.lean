/-
Lemmas about the path tree of `Verif.Node`.  No new model definitions apart from the
well-formedness predicate `Node.OK`.
-/
import Verif.Node

namespace Verif

mutual
/-- The node is named `n`, its watchpoint satisfies `Q`, its children are keyed without
repetition, a child with a non-empty key `b` is well formed at `n ++ [b]` and a child with the
empty key satisfies `R`. -/
def Node.OK (Q : WP → Prop) (R : Node → Prop) (n : Path) : Node → Prop
  | .mk n' w ch => n' = n ∧ Q w ∧ Forest.OK Q R n ch
/-- The children part of `Node.OK`. -/
def Forest.OK (Q : WP → Prop) (R : Node → Prop) (n : Path) : Forest → Prop
  | .nil => True
  | .cons b nd rest =>
    b ∉ rest.keys ∧ (b = [] → R nd) ∧ (b ≠ [] → Node.OK Q R (n ++ [b]) nd) ∧ Forest.OK Q R n rest
end

/-- No child with the empty key is allowed. -/
abbrev noR : Node → Prop := fun _ => False

namespace Forest

theorem get?_put (f : Forest) (k k' : Comp) (x : Node) :
    (f.put k x).get? k' = if k = k' then some x else f.get? k' := by
  match f with
  | .nil => simp [put, get?]
  | .cons b nd rest =>
    have ih := get?_put rest k k' x
    simp only [put]
    by_cases h : b = k
    · subst h; simp only [if_true, get?]; split <;> simp_all
    · simp only [h, if_false, get?, ih]; grind

theorem get?_del (f : Forest) (k k' : Comp) :
    (f.del k).get? k' = if k = k' then none else f.get? k' := by
  match f with
  | .nil => simp [del, get?]
  | .cons b nd rest =>
    have ih := get?_del rest k k'
    simp only [del, get?]; grind [get?]

theorem mem_keys_iff (f : Forest) (k : Comp) : k ∈ f.keys ↔ f.get? k ≠ none := by
  match f with
  | .nil => simp [keys, get?]
  | .cons b nd rest =>
    have ih := mem_keys_iff rest k
    simp only [keys, get?, List.mem_cons, ih]
    by_cases h : b = k
    · simp [h]
    · simp [h, Ne.symm h]

theorem get?_eq_none (f : Forest) (k : Comp) : f.get? k = none ↔ k ∉ f.keys := by
  rw [mem_keys_iff]; simp

theorem isEmpty_iff (f : Forest) : f.isEmpty = true ↔ ∀ k, f.get? k = none := by
  match f with
  | .nil => simp [isEmpty, get?]
  | .cons b nd rest =>
    simp only [isEmpty]
    constructor
    · intro h; cases h
    · intro h; have := h b; simp [get?] at this

theorem mem_keys_put (f : Forest) (k k' : Comp) (x : Node) :
    k' ∈ (f.put k x).keys ↔ k' = k ∨ k' ∈ f.keys := by
  rw [mem_keys_iff, mem_keys_iff, get?_put]
  by_cases h : k = k'
  · simp [h]
  · simp [h, Ne.symm h]

theorem mem_keys_del (f : Forest) (k k' : Comp) :
    k' ∈ (f.del k).keys ↔ k' ≠ k ∧ k' ∈ f.keys := by
  rw [mem_keys_iff, mem_keys_iff, get?_del]
  by_cases h : k = k'
  · simp [h]
  · simp [h, Ne.symm h]

variable {Q : WP → Prop} {R : Node → Prop}

theorem OK.get {n : Path} {f : Forest} (h : f.OK Q R n) {b : Comp} {nd : Node}
    (hg : f.get? b = some nd) : (b = [] → R nd) ∧ (b ≠ [] → nd.OK Q R (n ++ [b])) := by
  match f with
  | .nil => simp [get?] at hg
  | .cons b' nd' rest =>
    simp only [Forest.OK] at h
    simp only [get?] at hg
    split at hg
    · next e => subst e; cases hg; exact ⟨h.2.1, h.2.2.1⟩
    · exact h.2.2.2.get hg

theorem OK.put {n : Path} {f : Forest} (h : f.OK Q R n) {b : Comp} {nd : Node}
    (h0 : b = [] → R nd) (h1 : b ≠ [] → nd.OK Q R (n ++ [b])) : (f.put b nd).OK Q R n := by
  match f with
  | .nil => simp only [Forest.put, Forest.OK, keys]; exact ⟨by simp, h0, h1, trivial⟩
  | .cons b' nd' rest =>
    simp only [Forest.OK] at h
    simp only [Forest.put]
    by_cases e : b' = b
    · subst e; simp only [if_true, Forest.OK]; exact ⟨h.1, h0, h1, h.2.2.2⟩
    · simp only [e, if_false, Forest.OK]
      refine ⟨?_, h.2.1, h.2.2.1, h.2.2.2.put h0 h1⟩
      rw [mem_keys_put]; simp [e, h.1]

theorem OK.del {n : Path} {f : Forest} (h : f.OK Q R n) (b : Comp) : (f.del b).OK Q R n := by
  match f with
  | .nil => simp [Forest.del, Forest.OK]
  | .cons b' nd' rest =>
    simp only [Forest.OK] at h
    simp only [Forest.del]
    by_cases e : b' = b
    · simp only [e, if_true]; exact h.2.2.2.del b
    · simp only [e, if_false, Forest.OK]
      refine ⟨?_, h.2.1, h.2.2.1, h.2.2.2.del b⟩
      rw [mem_keys_del]; simp [h.1]

end Forest

namespace Node
variable {Q : WP → Prop} {R : Node → Prop}

@[simp] theorem get?_nil (nd : Node) : nd.get? [] = some nd := by cases nd; rfl
theorem get?_cons (nd : Node) (b : Comp) (q : Path) :
    nd.get? (b :: q) = (nd.child.get? b).bind (·.get? q) := by cases nd; rfl

@[simp] theorem find_nil (nd : Node) : nd.find [] = some nd.watch := by simp [find]
theorem find_cons (nd : Node) (b : Comp) (q : Path) :
    nd.find (b :: q) = (nd.child.get? b).bind (·.find q) := by
  simp only [find, get?_cons]; cases nd.child.get? b <;> simp

theorem get?_append (nd : Node) (p q : Path) :
    nd.get? (p ++ q) = (nd.get? p).bind (·.get? q) := by
  induction p generalizing nd with
  | nil => simp
  | cons b p ih =>
    simp only [List.cons_append, get?_cons]
    cases nd.child.get? b with
    | none => simp
    | some c => simp [ih]

theorem find_append (nd : Node) (p q : Path) :
    nd.find (p ++ q) = (nd.get? p).bind (·.find q) := by
  simp only [find, get?_append]; cases nd.get? p <;> simp

theorem find_eq_none (nd : Node) (q : Path) : nd.find q = none ↔ nd.get? q = none := by
  simp [find]

theorem OK.name_eq {n : Path} {nd : Node} (h : nd.OK Q R n) : nd.name = n := by
  cases nd; exact h.1
theorem OK.watch {n : Path} {nd : Node} (h : nd.OK Q R n) : Q nd.watch := by
  cases nd; exact h.2.1
theorem OK.child {n : Path} {nd : Node} (h : nd.OK Q R n) : nd.child.OK Q R n := by
  cases nd; exact h.2.2

theorem OK.mk {n : Path} {w : WP} {ch : Forest} (hw : Q w) (hc : ch.OK Q R n) :
    (Node.mk n w ch).OK Q R n := by
  simp only [Node.OK]; exact ⟨trivial, hw, hc⟩

theorem OK.get {n : Path} {nd : Node} (h : nd.OK Q R n) {q : Path} (hq : [] ∉ q) {c : Node}
    (hg : nd.get? q = some c) : c.OK Q R (n ++ q) := by
  induction q generalizing nd n with
  | nil => simp at hg; subst hg; simpa using h
  | cons b q ih =>
    rw [get?_cons] at hg
    cases hc : nd.child.get? b with
    | none => simp [hc] at hg
    | some c' =>
      rw [hc] at hg
      simp only [Option.bind_some] at hg
      simp only [List.mem_cons, not_or] at hq
      have := ih ((h.child.get hc).2 (Ne.symm hq.1)) hq.2 hg
      simpa using this

/-- With no empty keys allowed, existing positions have no empty component. -/
theorem OK.no_empty {n : Path} {nd : Node} (h : nd.OK Q noR n) {q : Path} {c : Node}
    (hg : nd.get? q = some c) : [] ∉ q := by
  induction q generalizing nd n with
  | nil => simp
  | cons b q ih =>
    rw [get?_cons] at hg
    cases hc : nd.child.get? b with
    | none => simp [hc] at hg
    | some c' =>
      rw [hc] at hg
      simp only [Option.bind_some] at hg
      have h' := h.child.get hc
      have hb : b ≠ [] := h'.1
      simp only [List.mem_cons, not_or]
      exact ⟨Ne.symm hb, ih (h'.2 hb) hg⟩

theorem OK.find_Q {n : Path} {nd : Node} (h : nd.OK Q noR n) {q : Path} {w : WP}
    (hg : nd.find q = some w) : Q w := by
  simp only [find, Option.map_eq_some_iff] at hg
  obtain ⟨c, hc, rfl⟩ := hg
  exact (h.get (h.no_empty hc) hc).watch

theorem new_OK {n : Path} (hQ : Q []) : (new n).OK Q R n := by
  simp only [new, Node.OK, Forest.OK]; exact ⟨trivial, hQ, trivial⟩

mutual
theorem OK.imp {Q' : WP → Prop} {R' : Node → Prop} (hQ : ∀ w, Q w → Q' w) (hR : ∀ x, R x → R' x) {n : Path} :
    {nd : Node} → nd.OK Q R n → nd.OK Q' R' n
  | .mk _ _ _, h => by
    simp only [Node.OK] at h ⊢
    exact ⟨h.1, hQ _ h.2.1, Forest_OK_imp hQ hR h.2.2⟩
theorem Forest_OK_imp {Q' : WP → Prop} {R' : Node → Prop} (hQ : ∀ w, Q w → Q' w) (hR : ∀ x, R x → R' x) {n : Path} :
    {f : Forest} → f.OK Q R n → f.OK Q' R' n
  | .nil, _ => by simp [Forest.OK]
  | .cons _ _ _, h => by
    simp only [Forest.OK] at h ⊢
    exact ⟨h.1, fun e => hR _ (h.2.1 e), fun e => OK.imp hQ hR (h.2.2.1 e), Forest_OK_imp hQ hR h.2.2.2⟩
end

/-! #### `add` -/

theorem add_OK {n : Path} {nd : Node} (h : nd.OK Q R n) (hQ : Q []) {p : Path} (hp : [] ∉ p) :
    (nd.add p).OK Q R n := by
  induction p generalizing nd n with
  | nil => simpa [add] using h
  | cons b p ih =>
    obtain ⟨n', w, ch⟩ := nd
    simp only [List.mem_cons, not_or] at hp
    have hn : n' = n := h.name_eq
    subst hn
    simp only [add]
    refine OK.mk h.watch (Forest.OK.put h.child (fun e => absurd e.symm hp.1) fun hb => ?_)
    refine ih ?_ hp.2
    have := h.child
    cases hg : ch.get? b with
    | none => simpa using new_OK hQ
    | some c => simpa using (Forest.OK.get this hg).2 hb

theorem add_find (nd : Node) (p q : Path) :
    (nd.add p).find q = if q <+: p then some ((nd.find q).getD []) else nd.find q := by
  induction p generalizing nd q with
  | nil =>
    simp only [add, List.prefix_nil]
    split
    · next h => subst h; simp
    · rfl
  | cons b p ih =>
    obtain ⟨n, w, ch⟩ := nd
    cases q with
    | nil => simp [add, watch]
    | cons b' q =>
      simp only [add, find_cons, child, Forest.get?_put, List.cons_prefix_cons]
      by_cases hb : b = b'
      · subst hb
        simp only [if_true, Option.bind_some, ih, true_and]
        cases hg : ch.get? b with
        | none =>
          simp only [Option.getD_none, Option.bind_none]
          have : ∀ q, (new (n ++ [b])).find q = if q = [] then some [] else none := by
            intro q; cases q <;> simp [find, new, get?, watch, Forest.get?]
          rw [this]
          split
          · split <;> simp
          · next hh =>
            split
            · next e => subst e; simp at hh
            · rfl
        | some c => simp
      · simp [hb, Ne.symm hb]

theorem add_watch (nd : Node) (p : Path) : (nd.add p).watch = nd.watch := by
  cases p <;> cases nd <;> rfl

theorem add_name (nd : Node) (p : Path) : (nd.add p).name = nd.name := by
  cases p <;> cases nd <;> rfl

theorem add_get_ne_none (nd : Node) (p : Path) : (nd.add p).get? p ≠ none := by
  rw [Ne, ← find_eq_none, add_find]; simp

/-! #### `update` -/

theorem update_get_append (nd : Node) (p : Path) (f : Node → Node) {c : Node}
    (hc : nd.get? p = some c) (r : Path) : (nd.update p f).get? (p ++ r) = (f c).get? r := by
  induction p generalizing nd with
  | nil => simp at hc; subst hc; simp [update]
  | cons b p ih =>
    obtain ⟨n, w, ch⟩ := nd
    rw [get?_cons] at hc
    simp only [child] at hc
    cases hg : ch.get? b with
    | none => simp [hg] at hc
    | some c' =>
      rw [hg] at hc
      simp only [update, hg, List.cons_append, get?_cons, child, Forest.get?_put, if_true,
        Option.bind_some]
      exact ih c' hc

theorem update_find_append (nd : Node) (p : Path) (f : Node → Node) {c : Node}
    (hc : nd.get? p = some c) (r : Path) : (nd.update p f).find (p ++ r) = (f c).find r := by
  simp [find, update_get_append nd p f hc]

theorem update_find_other (nd : Node) (p : Path) (f : Node → Node) {q : Path} (hq : ¬ p <+: q) :
    (nd.update p f).find q = nd.find q := by
  induction p generalizing nd q with
  | nil => simp at hq
  | cons b p ih =>
    obtain ⟨n, w, ch⟩ := nd
    simp only [update]
    cases hg : ch.get? b with
    | none => rfl
    | some c' =>
      cases q with
      | nil => simp [watch]
      | cons b' q =>
        simp only [find_cons, child, Forest.get?_put]
        by_cases hb : b = b'
        · subst hb
          simp only [List.cons_prefix_cons, true_and] at hq
          simp [hg, ih c' hq]
        · simp [hb]

theorem update_of_none (nd : Node) (p : Path) (f : Node → Node) (hc : nd.get? p = none) :
    nd.update p f = nd := by
  induction p generalizing nd with
  | nil => simp at hc
  | cons b p ih =>
    obtain ⟨n, w, ch⟩ := nd
    rw [get?_cons] at hc
    simp only [child] at hc
    simp only [update]
    cases hg : ch.get? b with
    | none => rfl
    | some c' =>
      rw [hg] at hc
      simp only [Option.bind_some] at hc
      simp only [ih c' hc]
      congr 1
      exact put_same hg
where
  put_same {f : Forest} {b : Comp} {c : Node} (h : f.get? b = some c) : f.put b c = f := by
    match f with
    | .nil => simp [Forest.get?] at h
    | .cons b' nd rest =>
      simp only [Forest.get?] at h
      simp only [Forest.put]
      split at h
      · next e => subst e; cases h; simp
      · next e => simp [e, put_same h]

theorem update_OK {n : Path} {nd : Node} (h : nd.OK Q R n) {p : Path} (hp : [] ∉ p)
    {f : Node → Node} (hf : ∀ c, nd.get? p = some c → c.OK Q R (n ++ p) → (f c).OK Q R (n ++ p)) :
    (nd.update p f).OK Q R n := by
  induction p generalizing nd n with
  | nil => simp only [update]; simpa using hf nd (by simp) (by simpa using h)
  | cons b p ih =>
    obtain ⟨n', w, ch⟩ := nd
    have hn : n' = n := h.name_eq
    subst hn
    simp only [List.mem_cons, not_or] at hp
    simp only [update]
    cases hg : ch.get? b with
    | none => exact h
    | some c =>
      refine OK.mk h.watch (Forest.OK.put h.child (fun e => absurd e.symm hp.1) fun hb => ?_)
      refine ih ((Forest.OK.get h.child hg).2 hb) hp.2 ?_
      intro c' hc' hok
      have := hf c' (by rw [get?_cons]; simp [child, hg, hc']) (by simpa using hok)
      simpa using this

theorem update_watch {nd : Node} {p : Path} (hp : p ≠ []) (f : Node → Node) :
    (nd.update p f).watch = nd.watch := by
  cases p with
  | nil => exact absurd rfl hp
  | cons b p =>
    obtain ⟨n, w, ch⟩ := nd
    simp only [update]
    cases ch.get? b <;> rfl

/-! #### `walkPath` -/

theorem walkPath_base (nd : Node) {p : Path} (hp : p ≠ []) : (nd.walkPath p).2 = nd.get? p := by
  induction p generalizing nd with
  | nil => exact absurd rfl hp
  | cons b p ih =>
    simp only [walkPath, get?_cons]
    cases hg : nd.child.get? b with
    | none => simp
    | some c =>
      cases p with
      | nil => simp
      | cons b' p => simpa using ih c (by simp)

/-- The visited nodes are the existing nodes at the proper prefixes of the path. -/
theorem walkPath_visited (nd : Node) (p : Path) :
    (nd.walkPath p).1 = (List.range p.length).filterMap (fun i => nd.get? (p.take i)) := by
  induction p generalizing nd with
  | nil => simp [walkPath]
  | cons b p ih =>
    have h0 : (List.range (b :: p).length).filterMap (fun i => nd.get? ((b :: p).take i)) =
        nd :: (List.range p.length).filterMap
          (fun i => (nd.child.get? b).bind (fun c => c.get? (p.take i))) := by
      rw [List.length_cons, List.range_succ_eq_map, List.filterMap_cons]
      simp only [List.take_zero, get?_nil, List.filterMap_map]
      congr 1
      congr 1
      funext i
      simp [get?_cons]
    rw [h0]
    simp only [walkPath]
    cases hg : nd.child.get? b with
    | none => simp
    | some c =>
      cases p with
      | nil => simp
      | cons b' p => simp only [ih c]; simp

/-! #### `del` -/

theorem del_find (nd : Node) {p : Path} {nd' : Node} (h : nd.del p = some nd') (q : Path) :
    (p <+: q → nd'.find q = none) ∧
    (¬ p <+: q → nd'.find q = nd.find q ∨
      (nd'.find q = none ∧ ∃ w, nd.find q = some w ∧ w.length ≤ 1 ∧ q <+: p ∧ q ≠ [])) := by
  induction p generalizing nd nd' q with
  | nil => simp [del] at h
  | cons b p ih =>
    obtain ⟨n, w, ch⟩ := nd
    cases p with
    | nil =>
      simp only [del] at h
      cases hg : ch.get? b with
      | none => simp [hg] at h
      | some c =>
        simp only [hg, Option.some.injEq] at h
        subst h
        cases q with
        | nil => simp [watch]
        | cons b' q =>
          simp only [find_cons, child, Forest.get?_del, List.cons_prefix_cons, List.nil_prefix,
            and_true]
          by_cases hb : b = b' <;> simp [hb]
    | cons b1 p =>
      simp only [del] at h
      cases hg : ch.get? b with
      | none => simp [hg] at h
      | some c =>
        simp only [hg] at h
        cases hd : c.del (b1 :: p) with
        | none => simp [hd] at h
        | some c' =>
          simp only [hd, Option.some.injEq] at h
          subst h
          cases q with
          | nil => simp [watch]
          | cons b' q =>
            by_cases hb : b = b'
            · subst hb
              have ih' := ih c hd q
              simp only [List.cons_prefix_cons, true_and, find_cons, child, hg, Option.bind_some]
              by_cases hpr : c'.prunable
              · simp only [hpr, if_true, Forest.get?_del]
                simp only [if_true, Option.bind_none, implies_true, true_and]
                intro hq
                simp only [prunable, Bool.and_eq_true, decide_eq_true_eq,
                  Forest.isEmpty_iff] at hpr
                have hnone : q ≠ [] → c'.find q = none := by
                  intro hne
                  cases q with
                  | nil => exact absurd rfl hne
                  | cons x q => simp [find_cons, hpr.2]
                by_cases hq0 : q = []
                · subst hq0
                  right
                  have hw : c'.find [] = c.find [] := by
                    rcases (ih c hd []).2 (by simp) with h | h
                    · exact h
                    · obtain ⟨_, _, _, _, _, h⟩ := h; exact absurd rfl h
                  simp only [find_nil, Option.some.injEq] at hw
                  refine ⟨c.watch, by simp, ?_, by simp, by simp⟩
                  rw [← hw]; exact hpr.1
                · rcases ih'.2 hq with h | ⟨_, w', hw', hl, hpre, _⟩
                  · left; rw [← h]; exact (hnone hq0).symm
                  · right; exact ⟨w', hw', hl, hpre, by simp⟩
              · simp only [hpr, Forest.get?_put, Bool.false_eq_true, if_false, if_true,
                  Option.bind_some]
                refine ⟨ih'.1, fun hq => ?_⟩
                rcases ih'.2 hq with h | ⟨h0, w', hw', hl, hpre, _⟩
                · left; exact h
                · right; exact ⟨h0, w', hw', hl, hpre, by simp⟩
            · simp only [find_cons, child, List.cons_prefix_cons]
              split
              · simp [Forest.get?_del, hb]
              · simp [Forest.get?_put, hb]

theorem del_isSome (nd : Node) {p : Path} (hp : p ≠ []) : (nd.del p).isSome = (nd.get? p).isSome := by
  induction p generalizing nd with
  | nil => exact absurd rfl hp
  | cons b p ih =>
    obtain ⟨n, w, ch⟩ := nd
    cases p with
    | nil =>
      simp only [del, get?_cons, child]
      cases ch.get? b <;> simp
    | cons b1 p =>
      simp only [del, get?_cons, child]
      cases hg : ch.get? b with
      | none => simp
      | some c =>
        have h1 := ih c (by simp)
        rw [get?_cons] at h1
        rw [Option.bind_some]
        change _ = ((c.child.get? b1).bind (·.get? p)).isSome
        rw [← h1]
        cases hd : c.del (b1 :: p) <;> simp [hd]

theorem del_OK {n : Path} {nd nd' : Node} (h : nd.OK Q noR n) {p : Path}
    (hd : nd.del p = some nd') : nd'.OK Q noR n := by
  induction p generalizing nd n nd' with
  | nil => simp [del] at hd
  | cons b p ih =>
    obtain ⟨n', w, ch⟩ := nd
    have hn : n' = n := h.name_eq
    subst hn
    cases p with
    | nil =>
      simp only [del] at hd
      cases hg : ch.get? b with
      | none => simp [hg] at hd
      | some c =>
        simp only [hg, Option.some.injEq] at hd
        subst hd
        exact OK.mk h.watch (Forest.OK.del h.child b)
    | cons b1 p =>
      simp only [del] at hd
      cases hg : ch.get? b with
      | none => simp [hg] at hd
      | some c =>
        simp only [hg] at hd
        cases hd' : c.del (b1 :: p) with
        | none => simp [hd'] at hd
        | some c' =>
          simp only [hd', Option.some.injEq] at hd
          subst hd
          have hb := Forest.OK.get h.child hg
          refine OK.mk h.watch ?_
          split
          · exact Forest.OK.del h.child b
          · exact Forest.OK.put h.child hb.1 fun hne => ih (hb.2 hne) hd'

end Node

/-! #### `trav` -/

section trav
variable {σ : Type} {skip : Bool} {fn : σ → WP → Path → WP → σ × WP}

mutual
theorem Node.trav_OK {Q Q' : WP → Prop}
    (hfn : ∀ s pw n w, Q' pw → Q w → Q' (fn s pw n w).2) {s : σ} {pw : WP} (hpw : Q' pw) {n : Path} :
    {nd : Node} → nd.OK Q noR n → (Node.trav skip fn s pw nd).2.OK Q' noR n
  | .mk n' w ch, h => by
    simp only [Node.OK] at h
    obtain ⟨rfl, hw, hc⟩ := h
    simp only [Node.trav]
    exact Node.OK.mk (hfn _ _ _ _ hpw hw) (Forest.trav_OK hfn (hfn _ _ _ _ hpw hw) hc).1
theorem Forest.trav_OK {Q Q' : WP → Prop}
    (hfn : ∀ s pw n w, Q' pw → Q w → Q' (fn s pw n w).2) {s : σ} {pw : WP} (hpw : Q' pw) {n : Path} :
    {f : Forest} → f.OK Q noR n → (Forest.trav skip fn s pw f).2.OK Q' noR n ∧
      (Forest.trav skip fn s pw f).2.keys = f.keys
  | .nil, _ => by simp [Forest.trav, Forest.OK]
  | .cons b nd rest, h => by
    simp only [Forest.OK] at h
    have hb : b ≠ [] := h.2.1
    have hsk : (skip && b == []) = false := by simp [hb]
    simp only [Forest.trav, hsk, Bool.false_eq_true, if_false]
    have ih1 := Node.trav_OK hfn (s := s) hpw (h.2.2.1 hb)
    have ih2 := Forest.trav_OK hfn (s := (Node.trav skip fn s pw nd).1) hpw h.2.2.2
    refine ⟨?_, ?_⟩
    · simp only [Forest.OK]
      exact ⟨by rw [ih2.2]; exact h.1, hb, fun _ => ih1, ih2.1⟩
    · simp only [Forest.keys, ih2.2]
end

/-- What a traversal with `g` (new watchpoint from the parent's new one and the old one) leaves
at a position. -/
def Node.travW (g : WP → WP → WP) : WP → Node → Path → Option WP
  | pw, nd, [] => some (g pw nd.watch)
  | pw, nd, b :: q => (nd.child.get? b).bind fun c => Node.travW g (g pw nd.watch) c q

mutual
/-- If the watchpoint computed by `fn` does not depend on the state and the name, the traversal
computes each watchpoint from the new watchpoint of its parent. -/
theorem Node.trav_find {g : WP → WP → WP} (hg : ∀ s pw n w, (fn s pw n w).2 = g pw w)
    {Q : WP → Prop} {s : σ} {pw : WP} {n : Path} :
    {nd : Node} → nd.OK Q noR n → ∀ q, (Node.trav skip fn s pw nd).2.find q = Node.travW g pw nd q
  | .mk n' w ch, h, q => by
    simp only [Node.OK] at h
    cases q with
    | nil => simp [Node.trav, Node.watch, hg, Node.travW]
    | cons b q =>
      simp only [Node.trav, Node.find_cons, Node.child, hg, Node.watch, Node.travW]
      exact Forest.trav_find hg h.2.2 b q
theorem Forest.trav_find {g : WP → WP → WP} (hg : ∀ s pw n w, (fn s pw n w).2 = g pw w)
    {Q : WP → Prop} {s : σ} {pw : WP} {n : Path} :
    {f : Forest} → f.OK Q noR n → ∀ b q, ((Forest.trav skip fn s pw f).2.get? b).bind (·.find q) =
      (f.get? b).bind fun c => Node.travW g pw c q
  | .nil, _, b, q => by simp [Forest.trav, Forest.get?]
  | .cons b' nd rest, h, b, q => by
    simp only [Forest.OK] at h
    have hb : b' ≠ [] := h.2.1
    have hsk : (skip && b' == []) = false := by simp [hb]
    simp only [Forest.trav, hsk, Bool.false_eq_true, if_false, Forest.get?]
    by_cases e : b' = b
    · simp only [e, if_true, Option.bind_some]
      exact Node.trav_find hg (h.2.2.1 hb) q
    · simp only [e, if_false]
      exact Forest.trav_find hg h.2.2.2 b q
end

/-- The positions do not change. -/
theorem Node.travW_isSome (g : WP → WP → WP) (pw : WP) (nd : Node) (q : Path) :
    (Node.travW g pw nd q).isSome = (nd.find q).isSome := by
  induction q generalizing pw nd with
  | nil => simp [Node.travW]
  | cons b q ih =>
    simp only [Node.travW, Node.find_cons]
    cases nd.child.get? b <;> simp [ih]

theorem Node.travW_append (g : WP → WP → WP) (pw : WP) (nd : Node) (q : Path) (b : Comp) :
    Node.travW g pw nd (q ++ [b]) =
      (Node.travW g pw nd q).bind fun v => (nd.find (q ++ [b])).map (g v) := by
  induction q generalizing pw nd with
  | nil =>
    simp only [List.nil_append, Node.travW, Node.find_cons, Option.bind_some]
    cases nd.child.get? b <;> simp
  | cons b' q ih =>
    simp only [List.cons_append, Node.travW, Node.find_cons]
    cases nd.child.get? b' <;> simp [ih]

mutual
/-- Effect of a traversal on a table `os` indexed by names, when `fn` keeps the entry of the
node it visits equal to `tot` of the watchpoint and touches no other entry. -/
theorem Node.trav_os {α : Type} {os : σ → Path → α} {tot : WP → α} {V : σ → Prop}
    {Q Q' : WP → Prop}
    (hQ : ∀ s pw n w, Q' pw → Q w → Q' (fn s pw n w).2)
    (hfn : ∀ s pw n w, Q' pw → Q w → V s → os s n = tot w →
      V (fn s pw n w).1 ∧ os (fn s pw n w).1 n = tot (fn s pw n w).2 ∧
      ∀ p, p ≠ n → os (fn s pw n w).1 p = os s p)
    {s : σ} {pw : WP} (hpw : Q' pw) {n : Path} :
    {nd : Node} → nd.OK Q noR n → V s → (∀ r w, nd.find r = some w → os s (n ++ r) = tot w) →
      V (Node.trav skip fn s pw nd).1 ∧
      (∀ r w, (Node.trav skip fn s pw nd).2.find r = some w →
        os (Node.trav skip fn s pw nd).1 (n ++ r) = tot w) ∧
      (∀ p, (∀ r, nd.find r ≠ none → p ≠ n ++ r) → os (Node.trav skip fn s pw nd).1 p = os s p)
  | .mk n' w ch, h, hV, hos => by
    simp only [Node.OK] at h
    obtain ⟨rfl, hw, hc⟩ := h
    have h0 := hfn s pw n' w hpw hw hV (by simpa [Node.watch] using hos [] w (by simp [Node.watch]))
    have hne : ∀ (b : Comp) (r : Path), n' ++ b :: r ≠ n' := by
      intro b r e
      have := congrArg List.length e
      simp at this
    have h1 := Forest.trav_os hQ hfn (s := (fn s pw n' w).1) (hQ s pw n' w hpw hw) hc h0.1
      (by
        intro b r w' hf
        rw [h0.2.2 _ (hne b r)]
        apply hos (b :: r) w'
        rw [Node.find_cons]; exact hf)
    simp only [Node.trav]
    refine ⟨h1.1, ?_, ?_⟩
    · intro r w' hr
      cases r with
      | nil =>
        simp only [Node.find_nil, Option.some.injEq] at hr
        rw [← hr, List.append_nil, h1.2.2 n' (fun b r _ e => hne b r e.symm)]
        exact h0.2.1
      | cons b r =>
        rw [Node.find_cons] at hr
        exact h1.2.1 b r w' hr
    · intro p hp
      rw [h1.2.2 p, h0.2.2 p]
      · have := hp [] (by simp)
        simpa using this
      · intro b r hf
        exact hp (b :: r) (by rw [Node.find_cons]; exact hf)
theorem Forest.trav_os {α : Type} {os : σ → Path → α} {tot : WP → α} {V : σ → Prop}
    {Q Q' : WP → Prop}
    (hQ : ∀ s pw n w, Q' pw → Q w → Q' (fn s pw n w).2)
    (hfn : ∀ s pw n w, Q' pw → Q w → V s → os s n = tot w →
      V (fn s pw n w).1 ∧ os (fn s pw n w).1 n = tot (fn s pw n w).2 ∧
      ∀ p, p ≠ n → os (fn s pw n w).1 p = os s p)
    {s : σ} {pw : WP} (hpw : Q' pw) {n : Path} :
    {f : Forest} → f.OK Q noR n → V s →
      (∀ b r w, (f.get? b).bind (·.find r) = some w → os s (n ++ b :: r) = tot w) →
      V (Forest.trav skip fn s pw f).1 ∧
      (∀ b r w, ((Forest.trav skip fn s pw f).2.get? b).bind (·.find r) = some w →
        os (Forest.trav skip fn s pw f).1 (n ++ b :: r) = tot w) ∧
      (∀ p, (∀ b r, (f.get? b).bind (·.find r) ≠ none → p ≠ n ++ b :: r) →
        os (Forest.trav skip fn s pw f).1 p = os s p)
  | .nil, _, hV, hos => by simp [Forest.trav, Forest.get?, hV]
  | .cons b' nd rest, h, hV, hos => by
    simp only [Forest.OK] at h
    have hb : b' ≠ [] := h.2.1
    have hsk : (skip && b' == []) = false := by simp [hb]
    have hok := h.2.2.1 hb
    have h1 := Node.trav_os hQ hfn (s := s) (pw := pw) hpw hok hV
      (by
        intro r w hr
        have := hos b' r w (by simp [Forest.get?, hr])
        simpa using this)
    have hfresh : rest.get? b' = none := by rw [Forest.get?_eq_none]; exact h.1
    have hdisj : ∀ b r, (rest.get? b).bind (·.find r) ≠ none → ∀ r', n ++ b :: r ≠ (n ++ [b']) ++ r' := by
      intro b r hf r' e
      simp only [List.append_assoc, List.cons_append, List.nil_append, List.append_cancel_left_eq,
        List.cons.injEq] at e
      rw [e.1, hfresh] at hf
      simp at hf
    have h2 := Forest.trav_os hQ hfn (s := (Node.trav skip fn s pw nd).1) (pw := pw) hpw h.2.2.2 h1.1
      (by
        intro b r w hr
        rw [h1.2.2 _ (fun r' _ => hdisj b r (by rw [hr]; simp) r')]
        refine hos b r w ?_
        have : b' ≠ b := by
          intro e; rw [e] at hfresh; simp [hfresh] at hr
        simpa [Forest.get?, this] using hr)
    simp only [Forest.trav, hsk, Bool.false_eq_true, if_false]
    refine ⟨h2.1, ?_, ?_⟩
    · intro b r w hr
      simp only [Forest.get?] at hr
      by_cases e : b' = b
      · subst e
        simp only [if_true, Option.bind_some] at hr
        rw [h2.2.2]
        · have := h1.2.1 r w hr
          simpa using this
        · intro b r' hf e
          have := hdisj b r' hf r
          apply this; simpa using e.symm
      · simp only [e, if_false] at hr
        exact h2.2.1 b r w hr
    · intro p hp
      rw [h2.2.2, h1.2.2]
      · intro r hr
        have := hp b' r (by simpa [Forest.get?] using hr)
        simpa using this
      · intro b r hf
        refine hp b r ?_
        have : b' ≠ b := by
          intro e; rw [e] at hfresh; simp [hfresh] at hf
        simpa [Forest.get?, this] using hf
end

end trav

/-! #### `addDir` -/

mutual
/-- The directories of a listing, relative to its top. -/
def DirTree.dirs : DirTree → List Path
  | .err => [[]]
  | .dir es => [] :: es.dirs
def Entries.dirs : Entries → List Path
  | .nil => []
  | .cons b isDir sub rest => (if isDir then sub.dirs.map (b :: ·) else []) ++ rest.dirs
end

mutual
/-- Directory entries have non-empty names. -/
def DirTree.Named : DirTree → Prop
  | .err => True
  | .dir es => es.Named
def Entries.Named : Entries → Prop
  | .nil => True
  | .cons b isDir sub rest => (isDir = true → b ≠ [] ∧ sub.Named) ∧ rest.Named
end

mutual
/-- No listing of the traversal fails. -/
def DirTree.NoErr : DirTree → Prop
  | .err => False
  | .dir es => es.NoErr
def Entries.NoErr : Entries → Prop
  | .nil => True
  | .cons _ isDir sub rest => (isDir = true → sub.NoErr) ∧ rest.NoErr
end

/-- Names of the directory entries. -/
def Entries.dirNames : Entries → List Comp
  | .nil => []
  | .cons b isDir _ rest => if isDir then b :: rest.dirNames else rest.dirNames

theorem joinName_eq {n : Path} (h : [] ∉ n) (b : Comp) : joinName n b = n ++ [b] := by
  have : n ≠ [[]] := by rintro rfl; simp at h
  simp [joinName, this]

theorem joinBase_eq {n : Path} (h : [] ∉ n) (b : Comp) : joinBase n b = b := by
  have : n ≠ [[]] := by rintro rfl; simp at h
  simp [joinBase, this]

theorem Node.addchild_name (nd : Node) (m : Path) (b : Comp) : (nd.addchild m b).name = nd.name := by
  simp only [addchild]; split <;> rfl

theorem Node.addchild_watch (nd : Node) (m : Path) (b : Comp) : (nd.addchild m b).watch = nd.watch := by
  simp only [addchild]; split <;> rfl

theorem Node.addchild_find (nd : Node) (m : Path) (b : Comp) (r : Path) :
    ((nd.addchild m b).find r).getD [] = (nd.find r).getD [] ∧
    (nd.find r ≠ none → (nd.addchild m b).find r ≠ none) := by
  simp only [addchild]
  split
  · simp
  · next h =>
    cases r with
    | nil => simp [watch]
    | cons b' r =>
      simp only [find_cons, child, Forest.get?_put]
      by_cases e : b = b'
      · subst e
        simp only [child] at h
        simp only [if_true, h, Option.bind_some, Option.bind_none]
        cases r <;> simp [find, new, get?, watch, Forest.get?]
      · simp [e]

theorem Node.addchild_get (nd : Node) (m : Path) (b b' : Comp) :
    ((nd.addchild m b).child.get? b' = none ↔ b ≠ b' ∧ nd.child.get? b' = none) := by
  simp only [addchild]
  cases h : nd.child.get? b with
  | some c =>
    simp only
    constructor
    · intro h'; exact ⟨by rintro rfl; simp [h] at h', h'⟩
    · exact fun h' => h'.2
  | none =>
    simp only [child, Forest.get?_put]
    by_cases e : b = b' <;> simp [e]

theorem Node.addchild_OK {Q : WP → Prop} {R : Node → Prop} {n : Path} {nd : Node} (h : nd.OK Q R n)
    (hQ : Q []) {b : Comp} (hb : b ≠ []) : (nd.addchild (n ++ [b]) b).OK Q R n := by
  simp only [addchild]
  split
  · exact h
  · rw [h.name_eq]
    exact OK.mk h.watch (h.child.put (fun e => absurd e hb) fun _ => new_OK hQ)

theorem Entries.addChildren_spec {Q : WP → Prop} {R : Node → Prop} (hQ : Q []) {n : Path} (hn : [] ∉ n) :
    (es : Entries) → es.Named → ∀ {nd : Node}, nd.OK Q R n →
      (es.addChildren nd).OK Q R n ∧ (es.addChildren nd).watch = nd.watch ∧
      (∀ r, ((es.addChildren nd).find r).getD [] = (nd.find r).getD [] ∧
        (nd.find r ≠ none → (es.addChildren nd).find r ≠ none)) ∧
      (∀ b, (es.addChildren nd).child.get? b = none ↔ b ∉ es.dirNames ∧ nd.child.get? b = none)
  | .nil, _, nd, h => by simp [addChildren, h, dirNames]
  | .cons b isDir sub rest, hN, nd, h => by
    simp only [Entries.Named] at hN
    simp only [addChildren]
    rw [h.name_eq, joinName_eq hn, joinBase_eq hn]
    by_cases hd : isDir = true
    · simp only [hd, if_true, dirNames]
      have hb := (hN.1 hd).1
      have ih := addChildren_spec hQ hn rest hN.2 (Node.addchild_OK h hQ hb)
      refine ⟨ih.1, by rw [ih.2.1, Node.addchild_watch], fun r => ?_, fun b' => ?_⟩
      · have h1 := ih.2.2.1 r
        have h2 := Node.addchild_find nd (n ++ [b]) b r
        exact ⟨h1.1.trans h2.1, fun h => h1.2 (h2.2 h)⟩
      · rw [ih.2.2.2 b', Node.addchild_get]
        simp only [List.mem_cons, not_or]
        constructor
        · rintro ⟨h1, h2, h3⟩; exact ⟨⟨Ne.symm h2, h1⟩, h3⟩
        · rintro ⟨⟨h2, h1⟩, h3⟩; exact ⟨h1, Ne.symm h2, h3⟩
    · have ih := addChildren_spec hQ hn rest hN.2 h
      simp only [hd, dirNames]
      exact ih

theorem Entries.dirNames_of_dirs : (es : Entries) → ∀ {b : Comp} {r : Path}, b :: r ∈ es.dirs → b ∈ es.dirNames
  | .nil, b, r, h => by simp [dirs] at h
  | .cons b' isDir sub rest, b, r, h => by
    simp only [dirs, List.mem_append] at h
    rcases h with h | h
    · by_cases hd : isDir = true
      · simp only [hd, if_true, List.mem_map] at h
        obtain ⟨_, _, h⟩ := h
        simp only [List.cons.injEq] at h
        simp [dirNames, hd, h.1]
      · simp [hd] at h
    · have := dirNames_of_dirs rest h
      simp only [dirNames]; split <;> simp [this]

section addDir
variable {σ : Type} {fn : σ → Path → WP → σ × WP}

mutual
theorem DirTree.addDir_OK {Q : WP → Prop} (hQ0 : Q []) (hfn : ∀ s n w, Q w → Q (fn s n w).2)
    {n : Path} (hn : [] ∉ n) : (d : DirTree) → d.Named → ∀ {s : σ} {nd : Node}, nd.OK Q noR n →
      (d.addDir fn s nd).2.1.OK Q noR n
  | .err, _, s, .mk n' w ch, h => by
    simp only [Node.OK] at h
    obtain ⟨rfl, hw, hc⟩ := h
    simp only [DirTree.addDir]
    exact Node.OK.mk (hfn _ _ _ hw) hc
  | .dir es, hN, s, .mk n' w ch, h => by
    simp only [Node.OK] at h
    obtain ⟨rfl, hw, hc⟩ := h
    simp only [DirTree.addDir]
    have h1 := Entries.addChildren_spec (R := noR) hQ0 hn es hN
      (Node.OK.mk (n := n') (hfn s n' w hw) hc)
    exact Node.OK.mk (hfn _ _ _ hw) (Entries.addDir_OK hQ0 hfn hn es hN h1.1.child)
theorem Entries.addDir_OK {Q : WP → Prop} (hQ0 : Q []) (hfn : ∀ s n w, Q w → Q (fn s n w).2)
    {n : Path} (hn : [] ∉ n) : (es : Entries) → es.Named → ∀ {s : σ} {f : Forest}, f.OK Q noR n →
      (es.addDir fn n s f).2.1.OK Q noR n
  | .nil, _, s, f, h => by simpa [Entries.addDir] using h
  | .cons b isDir sub rest, hN, s, f, h => by
    simp only [Entries.Named] at hN
    have ih := Entries.addDir_OK hQ0 hfn hn rest hN.2 (s := s) h
    simp only [Entries.addDir]
    split
    · exact ih
    split
    · next hd =>
      have hb := hN.1 hd
      rw [joinBase_eq hn]
      split
      · exact ih
      · next c hc =>
        refine ih.put (fun e => absurd e hb.1) fun _ => ?_
        exact DirTree.addDir_OK hQ0 hfn (by simp [hn, Ne.symm hb.1]) sub hb.2 ((ih.get hc).2 hb.1)
    · exact ih
end

mutual
/-- Watchpoints only change along `Rel`, and no position disappears. -/
theorem DirTree.addDir_rel {Q : WP → Prop} (hQ0 : Q []) (hfn : ∀ s n w, Q w → Q (fn s n w).2)
    {Rel : WP → WP → Prop} (hr : ∀ w, Rel w w) (ht : ∀ a b c, Rel a b → Rel b c → Rel a c)
    (hf : ∀ s n w, Rel w (fn s n w).2)
    {n : Path} (hn : [] ∉ n) : (d : DirTree) → d.Named → ∀ {s : σ} {nd : Node}, nd.OK Q noR n →
      ∀ r, Rel ((nd.find r).getD []) (((d.addDir fn s nd).2.1.find r).getD []) ∧
        (nd.find r ≠ none → (d.addDir fn s nd).2.1.find r ≠ none)
  | .err, _, s, .mk n' w ch, h, r => by
    simp only [DirTree.addDir]
    cases r with
    | nil => simpa [Node.watch] using hf s n' w
    | cons b r => simp [Node.find_cons, Node.child, hr]
  | .dir es, hN, s, .mk n' w ch, h, r => by
    simp only [Node.OK] at h
    obtain ⟨rfl, hw, hc⟩ := h
    have h1 := Entries.addChildren_spec (R := noR) hQ0 hn es hN
      (Node.OK.mk (n := n') (hfn s n' w hw) hc)
    simp only [DirTree.addDir]
    cases r with
    | nil => simpa [Node.watch] using hf s n' w
    | cons b r =>
      have h2 := Entries.addDir_rel hQ0 hfn hr ht hf hn es hN (s := (fn s n' w).1) h1.1.child b r
      have h3 := h1.2.2.1 (b :: r)
      simp only [Node.find_cons] at h3 ⊢
      simp only [Node.child] at h2 h3 ⊢
      exact ⟨by rw [← h3.1]; exact h2.1, fun h => h2.2 (h3.2 h)⟩
theorem Entries.addDir_rel {Q : WP → Prop} (hQ0 : Q []) (hfn : ∀ s n w, Q w → Q (fn s n w).2)
    {Rel : WP → WP → Prop} (hr : ∀ w, Rel w w) (ht : ∀ a b c, Rel a b → Rel b c → Rel a c)
    (hf : ∀ s n w, Rel w (fn s n w).2)
    {n : Path} (hn : [] ∉ n) : (es : Entries) → es.Named → ∀ {s : σ} {f : Forest}, f.OK Q noR n →
      ∀ b r, Rel (((f.get? b).bind (·.find r)).getD [])
          ((((es.addDir fn n s f).2.1.get? b).bind (·.find r)).getD []) ∧
        ((f.get? b).bind (·.find r) ≠ none →
          ((es.addDir fn n s f).2.1.get? b).bind (·.find r) ≠ none)
  | .nil, _, s, f, h, b, r => by simp [Entries.addDir, hr]
  | .cons b' isDir sub rest, hN, s, f, h, b, r => by
    simp only [Entries.Named] at hN
    have ih := Entries.addDir_rel hQ0 hfn hr ht hf hn rest hN.2 (s := s) h b r
    have ihok := Entries.addDir_OK hQ0 hfn hn rest hN.2 (s := s) h
    simp only [Entries.addDir]
    split
    · exact ih
    split
    · next hd =>
      have hb := hN.1 hd
      rw [joinBase_eq hn]
      split
      · exact ih
      · next c hc =>
        simp only [Forest.get?_put]
        by_cases e : b' = b
        · subst e
          have h2 := DirTree.addDir_rel hQ0 hfn hr ht hf (by simp [hn, Ne.symm hb.1]) sub hb.2
            (s := (Entries.addDir fn rest n s f).1) ((ihok.get hc).2 hb.1) r
          rw [hc] at ih
          simp only [Option.bind_some] at ih
          simp only [if_true, Option.bind_some]
          exact ⟨ht _ _ _ ih.1 h2.1, fun h => h2.2 (ih.2 h)⟩
        · simp only [e, if_false]; exact ih
    · exact ih
end

mutual
/-- Without listing errors the traversal succeeds. -/
theorem DirTree.addDir_ok : (d : DirTree) → d.NoErr → ∀ (s : σ) (nd : Node), (d.addDir fn s nd).2.2 = true
  | .err, h, _, _ => by simp [DirTree.NoErr] at h
  | .dir es, h, s, .mk n w ch => by
    simp only [DirTree.addDir]
    exact Entries.addDir_ok es h n _ _
theorem Entries.addDir_ok : (es : Entries) → es.NoErr → ∀ (n : Path) (s : σ) (f : Forest),
    (es.addDir fn n s f).2.2 = true
  | .nil, _, _, _, _ => by simp [Entries.addDir]
  | .cons b isDir sub rest, h, n, s, f => by
    simp only [Entries.NoErr] at h
    have ih := Entries.addDir_ok rest h.2 n s f
    simp only [Entries.addDir]
    split
    · exact ih
    split
    · next hd =>
      split
      · exact ih
      · exact DirTree.addDir_ok sub (h.1 hd) _ _
    · exact ih
end

mutual
/-- If the traversal succeeds every listed directory has been visited. -/
theorem DirTree.addDir_covers {Q : WP → Prop} (hQ0 : Q []) (hfn : ∀ s n w, Q w → Q (fn s n w).2)
    {C : WP → Prop} (hC : ∀ s n w, C (fn s n w).2)
    {n : Path} (hn : [] ∉ n) : (d : DirTree) → d.Named → ∀ {s : σ} {nd : Node}, nd.OK Q noR n →
      (d.addDir fn s nd).2.2 = true → ∀ r ∈ d.dirs,
        ∃ w, (d.addDir fn s nd).2.1.find r = some w ∧ C w
  | .err, _, s, .mk n' w ch, h, hok, r, _ => by simp [DirTree.addDir] at hok
  | .dir es, hN, s, .mk n' w ch, h, hok, r, hr => by
    simp only [Node.OK] at h
    obtain ⟨rfl, hw, hc⟩ := h
    have h1 := Entries.addChildren_spec (R := noR) hQ0 hn es hN
      (Node.OK.mk (n := n') (hfn s n' w hw) hc)
    simp only [DirTree.addDir] at hok ⊢
    simp only [DirTree.dirs, List.mem_cons] at hr
    cases r with
    | nil => exact ⟨_, by simp [Node.watch], hC s n' w⟩
    | cons b r =>
      simp only [reduceCtorEq, false_or] at hr
      simp only [Node.find_cons, Node.child]
      refine Entries.addDir_covers hQ0 hfn hC hn es hN h1.1.child ?_ hok b r hr
      intro b hb
      rw [Ne, h1.2.2.2 b]
      exact fun h => h.1 hb
theorem Entries.addDir_covers {Q : WP → Prop} (hQ0 : Q []) (hfn : ∀ s n w, Q w → Q (fn s n w).2)
    {C : WP → Prop} (hC : ∀ s n w, C (fn s n w).2)
    {n : Path} (hn : [] ∉ n) : (es : Entries) → es.Named → ∀ {s : σ} {f : Forest}, f.OK Q noR n →
      (∀ b ∈ es.dirNames, f.get? b ≠ none) →
      (es.addDir fn n s f).2.2 = true → ∀ b r, b :: r ∈ es.dirs →
        ∃ w, ((es.addDir fn n s f).2.1.get? b).bind (·.find r) = some w ∧ C w
  | .nil, _, s, f, h, _, _, b, r, hr => by simp [Entries.dirs] at hr
  | .cons b' isDir sub rest, hN, s, f, h, hk, hok, b, r, hr => by
    simp only [Entries.Named] at hN
    have ihok := Entries.addDir_OK hQ0 hfn hn rest hN.2 (s := s) h
    have hk' : ∀ b ∈ rest.dirNames, f.get? b ≠ none := by
      intro b hb; apply hk; simp only [Entries.dirNames]; split <;> simp [hb]
    simp only [Entries.addDir] at hok ⊢
    by_cases hrest : (Entries.addDir fn rest n s f).2.2 = true
    · have ih := Entries.addDir_covers hQ0 hfn hC hn rest hN.2 h hk' hrest b r
      simp only [hrest, Bool.not_true, Bool.false_eq_true, if_false] at hok ⊢
      by_cases hd : isDir = true
      · simp only [hd, if_true, joinBase_eq hn] at hok ⊢
        have hb := hN.1 hd
        -- the child exists
        have hpos : (Entries.addDir fn rest n s f).2.1.get? b' ≠ none := by
          have := (Entries.addDir_rel hQ0 hfn (Rel := fun _ _ => True) (fun _ => trivial)
            (fun _ _ _ _ _ => trivial) (fun _ _ _ => trivial) hn rest hN.2 (s := s) h b' []).2
          have h1 := hk b' (by simp [Entries.dirNames, hd])
          intro e
          rw [e] at this
          cases hg : f.get? b' with
          | none => exact h1 hg
          | some c => simp [hg] at this
        cases hc : (Entries.addDir fn rest n s f).2.1.get? b' with
        | none => exact absurd hc hpos
        | some c =>
          simp only [hc] at hok ⊢
          have hcok := (ihok.get hc).2 hb.1
          simp only [Forest.get?_put]
          simp only [Entries.dirs, hd, if_true, List.mem_append, List.mem_map, List.cons.injEq] at hr
          by_cases e : b' = b
          · subst e
            simp only [if_true, Option.bind_some]
            rcases hr with ⟨r', hr', _, rfl⟩ | hr
            · exact DirTree.addDir_covers hQ0 hfn hC (by simp [hn, Ne.symm hb.1]) sub hb.2 hcok hok r' hr'
            · obtain ⟨w, hw, hCw⟩ := ih hr
              rw [hc] at hw
              simp only [Option.bind_some] at hw
              have h2 := DirTree.addDir_rel hQ0 hfn (Rel := fun a b => C a → C b) (fun _ h => h)
                (fun _ _ _ h1 h2 h => h2 (h1 h)) (fun s n w _ => hC s n w)
                (by simp [hn, Ne.symm hb.1]) sub hb.2
                (s := (Entries.addDir fn rest n s f).1) hcok r
              rw [hw] at h2
              have h3 := h2.2 (by simp)
              obtain ⟨w', hw'⟩ := Option.ne_none_iff_exists'.1 h3
              rw [hw'] at h2 ⊢
              exact ⟨w', rfl, h2.1 hCw⟩
          · simp only [e, if_false]
            rcases hr with ⟨r', hr', e', _⟩ | hr
            · exact absurd e' e
            · exact ih hr
      · simp only [hd, Bool.false_eq_true, if_false]
        simp only [Entries.dirs, hd, Bool.false_eq_true, if_false, List.nil_append] at hr
        exact ih hr
    · simp only [hrest, Bool.not_false, if_true] at hok
      exact absurd hok (by simp)
end

mutual
/-- Effect of a traversal on a table indexed by names (cf. `Node.trav_os`). -/
theorem DirTree.addDir_os {α : Type} {os : σ → Path → α} {tot : WP → α} {V : σ → Prop}
    {Q : WP → Prop} (hQ0 : Q []) (hQ : ∀ s n w, Q w → Q (fn s n w).2)
    (hfn : ∀ s n w, Q w → V s → os s n = tot w →
      V (fn s n w).1 ∧ os (fn s n w).1 n = tot (fn s n w).2 ∧
      ∀ p, p ≠ n → os (fn s n w).1 p = os s p)
    {n : Path} (hn : [] ∉ n) : (d : DirTree) → d.Named → ∀ {s : σ} {nd : Node}, nd.OK Q noR n →
      V s → (∀ r, os s (n ++ r) = tot ((nd.find r).getD [])) →
      V (d.addDir fn s nd).1 ∧
      (∀ r, os (d.addDir fn s nd).1 (n ++ r) = tot (((d.addDir fn s nd).2.1.find r).getD [])) ∧
      (∀ p, ¬ n <+: p → os (d.addDir fn s nd).1 p = os s p)
  | .err, _, s, .mk n' w ch, h, hV, hos => by
    simp only [Node.OK] at h
    obtain ⟨rfl, hw, hc⟩ := h
    have h0 := hfn s n' w hw hV (by simpa [Node.watch] using hos [])
    simp only [DirTree.addDir]
    refine ⟨h0.1, ?_, ?_⟩
    · intro r
      cases r with
      | nil => simpa [Node.watch] using h0.2.1
      | cons b r =>
        rw [h0.2.2 _ (by intro e; have := congrArg List.length e; simp at this), hos (b :: r)]
        simp only [Node.find_cons, Node.child]
    · intro p hp
      exact h0.2.2 p (by rintro rfl; simp at hp)
  | .dir es, hN, s, .mk n' w ch, h, hV, hos => by
    simp only [Node.OK] at h
    obtain ⟨rfl, hw, hc⟩ := h
    have h0 := hfn s n' w hw hV (by simpa [Node.watch] using hos [])
    have hne : ∀ (b : Comp) (r : Path), n' ++ b :: r ≠ n' := by
      intro b r e
      have := congrArg List.length e
      simp at this
    have h1 := Entries.addChildren_spec (R := noR) hQ0 hn es hN
      (Node.OK.mk (n := n') (hQ s n' w hw) hc)
    have h2 := Entries.addDir_os hQ0 hQ hfn hn es hN (s := (fn s n' w).1) h1.1.child h0.1 (by
      intro b r
      rw [h0.2.2 _ (hne b r), hos (b :: r)]
      have := (h1.2.2.1 (b :: r)).1
      simp only [Node.find_cons] at this ⊢
      rw [this]; rfl)
    simp only [DirTree.addDir]
    refine ⟨h2.1, ?_, ?_⟩
    · intro r
      cases r with
      | nil =>
        simp only [List.append_nil, Node.find_nil, Option.getD_some, Node.watch]
        rw [h2.2.2 n' (fun b r e => hne b r e.symm)]
        exact h0.2.1
      | cons b r =>
        simp only [Node.find_cons]
        exact h2.2.1 b r
    · intro p hp
      rw [h2.2.2 p (by rintro b r rfl; simp at hp)]
      exact h0.2.2 p (by rintro rfl; simp at hp)
theorem Entries.addDir_os {α : Type} {os : σ → Path → α} {tot : WP → α} {V : σ → Prop}
    {Q : WP → Prop} (hQ0 : Q []) (hQ : ∀ s n w, Q w → Q (fn s n w).2)
    (hfn : ∀ s n w, Q w → V s → os s n = tot w →
      V (fn s n w).1 ∧ os (fn s n w).1 n = tot (fn s n w).2 ∧
      ∀ p, p ≠ n → os (fn s n w).1 p = os s p)
    {n : Path} (hn : [] ∉ n) : (es : Entries) → es.Named → ∀ {s : σ} {f : Forest}, f.OK Q noR n →
      V s → (∀ b r, os s (n ++ b :: r) = tot (((f.get? b).bind (·.find r)).getD [])) →
      V (es.addDir fn n s f).1 ∧
      (∀ b r, os (es.addDir fn n s f).1 (n ++ b :: r) =
        tot ((((es.addDir fn n s f).2.1.get? b).bind (·.find r)).getD [])) ∧
      (∀ p, (∀ b r, p ≠ n ++ b :: r) → os (es.addDir fn n s f).1 p = os s p)
  | .nil, _, s, f, h, hV, hos => by simpa [Entries.addDir, hV] using hos
  | .cons b' isDir sub rest, hN, s, f, h, hV, hos => by
    simp only [Entries.Named] at hN
    have ih := Entries.addDir_os hQ0 hQ hfn hn rest hN.2 (s := s) h hV hos
    have ihok := Entries.addDir_OK hQ0 hQ hn rest hN.2 (s := s) h
    simp only [Entries.addDir]
    split
    · exact ih
    split
    · next hd =>
      have hb := hN.1 hd
      rw [joinBase_eq hn]
      split
      · exact ih
      · next c hc =>
        have h2 := DirTree.addDir_os hQ0 hQ hfn (n := n ++ [b']) (by simp [hn, Ne.symm hb.1]) sub hb.2
          (s := (Entries.addDir fn rest n s f).1) ((ihok.get hc).2 hb.1) ih.1 (by
            intro r
            have := ih.2.1 b' r
            rw [hc] at this
            simpa using this)
        refine ⟨h2.1, ?_, ?_⟩
        · intro b r
          simp only [Forest.get?_put]
          by_cases e : b' = b
          · subst e
            have := h2.2.1 r
            simpa using this
          · simp only [e, if_false]
            rw [h2.2.2, ih.2.1 b r]
            rintro ⟨t, ht⟩
            simp only [List.append_assoc, List.cons_append, List.nil_append,
              List.append_cancel_left_eq, List.cons.injEq] at ht
            exact e ht.1
        · intro p hp
          rw [h2.2.2, ih.2.2 p hp]
          rintro ⟨t, rfl⟩
          exact hp b' t (by simp)
    · exact ih
end

end addDir

end Verif
