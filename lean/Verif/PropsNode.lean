/-
Properties of the watchpoint (C21) and of the path tree (C22).
-/
import Verif.NonRecCover

namespace Verif
open GoMap

/-! ### C21: event-set accounting -/

namespace WP

/-- Operations on one watchpoint. -/
inductive WOp
  | add (k : Key) (e : Event)
  | del (k : Key) (e : Event)
  /-- The iteration order of the map changes. -/
  | reorder

/-- What each channel's set should be: a plain table of sets. -/
def setsStep (S : Key → Event) : WOp → Key → Event
  | .add k e => fun k' => if k' = k then S k ||| e else S k'
  | .del k e => fun k' => if k' = k then S k &^ e else S k'
  | .reorder => S

def sets (ops : List WOp) : Key → Event := ops.foldl setsStep (fun _ => 0)

/-- Executions of `Add` and `Del` that start with an empty watchpoint. -/
inductive Run (P : Platform) : List WOp → WP → Prop
  | nil : Run P [] []
  | add {ops w k e} : Run P ops w → k ≠ .nil → Run P (ops ++ [.add k e]) (w.add P k e).1
  | del {ops w k e} : Run P ops w → k ≠ .nil → Run P (ops ++ [.del k e]) (w.del P k e).1
  | reorder {ops w w'} : Run P ops w → w'.Perm w → Run P (ops ++ [.reorder]) w'

theorem nodup_perm {w w' : WP} (h : w'.Perm w) (hn : w.Nodup) : w'.Nodup := by
  unfold GoMap.Nodup GoMap.keys at hn ⊢
  exact (h.map Prod.fst).nodup_iff.2 hn

theorem get?_perm {w w' : WP} (h : w'.Perm w) (hn : w.Nodup) (k : Key) :
    GoMap.get? w' k = GoMap.get? w k := by
  have hn' := nodup_perm h hn
  cases hg : GoMap.get? w k with
  | none =>
    rw [get?_eq_none_iff] at hg ⊢
    intro hm
    exact hg ((h.map Prod.fst).mem_iff.1 hm)
  | some v =>
    have := GoMap.mem_of_get? hg
    exact GoMap.get?_of_mem hn' (h.mem_iff.2 this)

theorem Run.inv {P : Platform} {ops : List WOp} {w : WP} (h : Run P ops w) : Inv P w := by
  induction h with
  | nil => exact inv_nil P
  | add _ hk ih => exact ih.add hk _
  | del _ hk ih => exact inv_del ih.nodup hk _
  | reorder _ hp ih =>
    have hg := get?_perm hp ih.nodup
    refine ⟨nodup_perm hp ih.nodup, ?_, ?_⟩
    · simp only [hg]; exact ih.nil_none
    · intro i
      simp only [val, hg]
      exact ih.total_bit i

theorem Run.val {P : Platform} {ops : List WOp} {w : WP} (h : Run P ops w) {k : Key} (hk : k ≠ .nil) :
    w.val k = sets ops k := by
  induction h with
  | nil => rfl
  | @add ops w c e h hc ih =>
    simp only [sets, List.foldl_append, List.foldl_cons, List.foldl_nil, setsStep] at ih ⊢
    simp only [WP.val, get?_add P w hc]
    rw [if_neg hk]
    by_cases hkc : k = c
    · subst hkc; rw [if_pos rfl, if_pos rfl, ← ih]; rfl
    · simp only [hkc, if_false, ← ih, WP.val]
  | @del ops w c e h hc ih =>
    simp only [sets, List.foldl_append, List.foldl_cons, List.foldl_nil, setsStep] at ih ⊢
    simp only [WP.val, get?_del_ne_nil P w hc e hk]
    by_cases hkc : k = c
    · subst hkc
      rw [← ih, if_pos rfl, if_pos rfl]
      change (if w.val k &^ e = 0 then none else some (w.val k &^ e)).getD 0 = _
      split
      · next h0 => exact h0.symm
      · rfl
    · simp only [hkc, if_false, ← ih, WP.val]
  | @reorder ops w w' h hp ih =>
    simp only [sets, List.foldl_append, List.foldl_cons, List.foldl_nil, setsStep] at ih ⊢
    rw [← ih, WP.val, WP.val, get?_perm hp h.inv.nodup]

/-- The union of the sets of all channels, without the internal bits. -/
def IsUnion (P : Platform) (ops : List WOp) (t : Event) : Prop :=
  ∀ i, bit t i = true ↔ bit P.internal i = false ∧ ∃ k, k ≠ Key.nil ∧ bit (sets ops k) i = true

theorem IsUnion.unique {P : Platform} {ops : List WOp} {t t' : Event} (h : IsUnion P ops t)
    (h' : IsUnion P ops t') : t = t' := by
  rw [Event.bext]
  intro i
  have := (h i).trans (h' i).symm
  unfold bit at this
  exact Bool.eq_iff_iff.2 this

/-- **C21**, first part: the sets are those of the table, and the total is their union. -/
theorem C21_total {P : Platform} {ops : List WOp} {w : WP} (h : Run P ops w) :
    (∀ k, k ≠ Key.nil → w.val k = sets ops k) ∧ IsUnion P ops (w.total P) := by
  refine ⟨fun k hk => h.val hk, fun i => ?_⟩
  have ht := h.inv.total_bit i
  unfold total
  unfold bit at *
  rw [Event.bit_andNot, Bool.and_eq_true, ht]
  have hint : BitVec.getLsbD P.internal i = (BitVec.getLsbD P.recursive i || BitVec.getLsbD P.omitted i) := by
    simp [Platform.internal]
  constructor
  · rintro ⟨⟨_, k, v, hk, hv, hb⟩, h2⟩
    exact ⟨by simpa using h2, k, hk, by rw [← h.val hk, val_eq_of_get? hv]; exact hb⟩
  · rintro ⟨h1, k, hk, hb⟩
    rw [hint, Bool.or_eq_false_iff] at h1
    refine ⟨⟨h1.2, k, ?_⟩, by rw [hint, h1.1, h1.2]; rfl⟩
    rw [← h.val hk] at hb
    cases hg : GoMap.get? w k with
    | none => rw [val_eq_zero_of_none hg] at hb; simp at hb
    | some v => rw [val_eq_of_get? hg] at hb; exact ⟨v, hk, rfl, hb⟩

/-- What a reported difference has to be, given the totals before and after. -/
def IsDiff (d : Diff) (t t' : Event) : Prop := (d = (0, 0) ↔ t = t') ∧ (t ≠ t' → d = (t, t'))

theorem mkDiff_isDiff (P : Platform) (a b : Event) : IsDiff (mkDiff P a b) (a &^ P.internal) (b &^ P.internal) := by
  rw [mkDiff_fst_snd]
  unfold IsDiff
  split
  · next h => exact ⟨⟨fun _ => h, fun _ => rfl⟩, fun h' => absurd h h'⟩
  · next h =>
    refine ⟨⟨fun h' => ?_, fun h' => absurd h' h⟩, fun _ => rfl⟩
    rw [Prod.mk.injEq] at h'
    rw [h'.1, h'.2]

/-- **C21**, second part: the difference reported by an addition or a removal is the pair of the
union of all sets before and the union after, and is empty exactly if the two are equal. -/
theorem C21_diff {P : Platform} {ops : List WOp} {w : WP} (h : Run P ops w) {k : Key} (hk : k ≠ .nil) (e : Event)
    {t t' t'' : Event} (ht : IsUnion P ops t) (ha : IsUnion P (ops ++ [.add k e]) t')
    (hd : IsUnion P (ops ++ [.del k e]) t'') :
    IsDiff (w.add P k e).2 t t' ∧ IsDiff (w.del P k e).2 t t'' := by
  rw [ht.unique (C21_total h).2, ha.unique (C21_total (h.add hk)).2, hd.unique (C21_total (h.del hk)).2,
    add_diff' P w hk, del_diff P w hk]
  exact ⟨mkDiff_isDiff .., mkDiff_isDiff ..⟩

/-- **C21**, third part: removing everything a channel has leaves the other channels' entries as
they were and no entry of the channel. -/
theorem C21_remove {P : Platform} {w : WP} {k : Key} (hk : k ≠ .nil) {e : Event} (he : w.val k ⊑ e) {k' : Key}
    (hk' : k' ≠ .nil) :
    GoMap.get? (w.del P k e).1 k' = if k' = k then none else GoMap.get? w k' := by
  have h0 : w.val k &^ e = 0 := by clear hk hk'; ebits
  rw [get?_del_ne_nil P w hk e hk', if_pos h0]

/-- The watchpoint is empty (also without the total) exactly if no channel has an entry. -/
theorem C21_empty {P : Platform} {ops : List WOp} {w : WP} (h : Run P ops w) :
    w = [] ↔ ∀ k, k ≠ Key.nil → GoMap.get? w k = none := by
  rw [h.inv.eq_nil_iff, h.inv.nil_none]

/-- `dryAdd` on the total predicts the difference that `Add` reports. -/
theorem C21_dryAdd (P : Platform) (w : WP) {k : Key} (hk : k ≠ .nil) (e : Event) :
    w.dryAdd P .nil e = (w.add P k e).2 := by
  rw [add_diff P w hk, mkDiff_fst_snd]
  unfold dryAdd
  simp only
  generalize w.val .nil = t
  split
  · next h =>
    rw [if_pos (by ebits)]
  · next h =>
    rw [if_neg (by ebits)]
    congr 1
    ebits

namespace Ex
open NonRec.Ex (I W CW)

/-- Channel 1 adds Write, the internal channel adds Create and Write, channel 1 leaves. -/
def w1 : WP := (WP.add I (WP.add I [] (.user 1) W).1 .recCh CW).1

theorem run1 : Run I [.add (.user 1) W, .add .recCh CW] w1 :=
  (Run.nil.add (k := .user 1) nofun).add (k := .recCh) nofun

example : w1.total I = CW ∧ (w1.del I (.user 1) W).2 = (0, 0) ∧ (w1.del I .recCh CW).2 = (CW, W) := by decide
example : Run I ([.add (.user 1) W, .add .recCh CW] ++ [.reorder] ++ [.del .recCh I.create])
    (WP.del I w1.reverse .recCh I.create).1 := (run1.reorder (List.reverse_perm _)).del (k := .recCh) nofun
example : IsUnion I [.add (.user 1) W, .add .recCh CW] CW := (C21_total run1).2
example : IsDiff (w1.del I .recCh CW).2 CW W := by
  have := (C21_diff run1 (k := .recCh) nofun CW (C21_total run1).2 (C21_total (run1.add (k := .recCh) (e := CW) nofun)).2
    (C21_total (run1.del (k := .recCh) (e := CW) nofun)).2).2
  exact this
example : w1.val (.user 1) ⊑ W := by decide

end Ex
end WP

/-! ### C22: the path tree is a map from paths to watchpoints -/

namespace Node

theorem find_none_of_prefix {nd : Node} {q r : Path} (h : q <+: r) (hq : nd.find q = none) : nd.find r = none := by
  obtain ⟨t, rfl⟩ := h
  rw [find_append, (find_eq_none nd q).1 hq]
  rfl

/-- **C22**, `Add`: the path and its ancestors become present, nothing else does, existing
watchpoints stay as they are and new ones are empty. -/
theorem C22_add (nd : Node) (p q : Path) :
    ((nd.add p).find q ≠ none ↔ q <+: p ∨ nd.find q ≠ none) ∧
    (∀ w, nd.find q = some w → (nd.add p).find q = some w) ∧
    (nd.find q = none → q <+: p → (nd.add p).find q = some []) := by
  rw [add_find]
  refine ⟨?_, ?_, ?_⟩
  · split
    · next h => simp [h]
    · next h => simp [h]
  · intro w hw
    split
    · rw [hw]; rfl
    · exact hw
  · intro h1 h2
    rw [if_pos h2, h1]; rfl

/-- An ancestor that has nothing left below it is pruned. -/
theorem del_prunes {nd nd' : Node} {p : Path} (h : nd.del p = some nd') {q : Path} (hq : q <+: p) (hne : q ≠ [])
    (hall : ∀ r w, q <+: r → nd.find r = some w → p <+: r ∨ (r <+: p ∧ w.length ≤ 1)) : nd'.find q = none := by
  induction p generalizing nd nd' q with
  | nil => simp [del] at h
  | cons b p ih =>
    obtain ⟨n, w, ch⟩ := nd
    by_cases hqp : b :: p <+: q
    · exact (del_find _ h q).1 hqp
    cases q with
    | nil => exact absurd rfl hne
    | cons b' q =>
      rw [List.cons_prefix_cons] at hq
      obtain ⟨rfl, hq⟩ := hq
      cases p with
      | nil => exact absurd (by simpa using hq) (by rintro rfl; exact hqp (List.prefix_refl _))
      | cons b1 p =>
        simp only [del] at h
        cases hg : ch.get? b' with
        | none => simp [hg] at h
        | some c =>
          simp only [hg] at h
          cases hd : c.del (b1 :: p) with
          | none => simp [hd] at h
          | some c' =>
            simp only [hd, Option.some.injEq] at h
            subst h
            have hall' : ∀ r w, q <+: r → c.find r = some w → b1 :: p <+: r ∨ (r <+: b1 :: p ∧ w.length ≤ 1) := by
              intro r w1 hr hf
              have := hall (b' :: r) w1 (by rw [List.cons_prefix_cons]; exact ⟨rfl, hr⟩)
                (by rw [find_cons]; simp only [child, hg]; exact hf)
              simpa only [List.cons_prefix_cons, true_and] using this
            rw [find_cons]
            simp only [child]
            by_cases hpr : c'.prunable = true
            · rw [if_pos hpr, Forest.get?_del, if_pos rfl]; rfl
            · rw [if_neg hpr, Forest.get?_put, if_pos rfl]
              simp only [Option.bind_some]
              cases q with
              | cons x q => exact ih hd hq (by simp) hall'
              | nil =>
                exfalso
                apply hpr
                have hfc' := del_find c hd
                unfold prunable
                rw [Bool.and_eq_true, decide_eq_true_eq, Forest.isEmpty_iff]
                constructor
                · have h1 := hfc' []
                  have h2 := hall' [] c.watch (List.prefix_refl _) (by simp)
                  have h3 : ¬ b1 :: p <+: [] := by simp
                  rcases h1.2 h3 with h4 | ⟨h4, _⟩
                  · simp only [find_nil, Option.some.injEq] at h4
                    rcases h2 with h2 | h2
                    · exact absurd h2 h3
                    · rw [h4]; exact h2.2
                  · simp at h4
                · intro x
                  have h0 : c'.find [x] = none := by
                    by_cases hx : b1 :: p <+: [x]
                    · exact (hfc' [x]).1 hx
                    · by_cases hx2 : [x] <+: b1 :: p
                      · refine ih hd hx2 (by simp) ?_
                        intro r w1 _ hf
                        exact hall' r w1 (List.nil_prefix) hf
                      · rcases (hfc' [x]).2 hx with h4 | ⟨h4, _⟩
                        · rw [h4]
                          cases hf : c.find [x] with
                          | none => rfl
                          | some w1 =>
                            rcases hall' [x] w1 List.nil_prefix hf with h5 | h5
                            · exact absurd h5 hx
                            · exact absurd h5.1 hx2
                        · exact h4
                  rw [find_cons] at h0
                  cases hgx : c'.child.get? x with
                  | none => rfl
                  | some y => rw [hgx] at h0; simp at h0

/-- **C22**, `Del`: it fails exactly on absent paths; the path and everything below it disappears;
of the other paths only ancestors of the path can disappear, and an ancestor does so exactly if it
and everything else below it lies on the way to the path and has no channel registered (a watchpoint
with one entry has only the total). -/
theorem C22_del (nd : Node) {p : Path} (hp : p ≠ []) :
    (nd.del p = none ↔ nd.find p = none) ∧
    ∀ nd', nd.del p = some nd' → ∀ q,
      (p <+: q → nd'.find q = none) ∧
      (¬ p <+: q → nd'.find q = none ∨ nd'.find q = nd.find q) ∧
      (¬ p <+: q → nd.find q ≠ none → (nd'.find q = none ↔ q ≠ [] ∧ q <+: p ∧
        ∀ r w, q <+: r → nd.find r = some w → p <+: r ∨ (r <+: p ∧ w.length ≤ 1))) := by
  constructor
  · have := del_isSome nd hp
    rw [find_eq_none]
    cases h1 : nd.del p <;> cases h2 : nd.get? p <;> simp [h1, h2] at this ⊢
  · intro nd' h q
    have hf := del_find nd h
    refine ⟨(hf q).1, fun hq => ?_, fun hq hne => ⟨fun h0 => ?_, fun h0 => del_prunes h h0.2.1 h0.1 h0.2.2⟩⟩
    · rcases (hf q).2 hq with h1 | ⟨h1, _⟩
      · exact .inr h1
      · exact .inl h1
    · rcases (hf q).2 hq with h1 | ⟨_, w, h2, h3, h4, h5⟩
      · exact absurd (h1.symm.trans h0) hne
      · refine ⟨h5, h4, fun r w1 hr hw => ?_⟩
        by_cases hpr : p <+: r
        · exact .inl hpr
        · have hn := find_none_of_prefix hr h0
          rcases (hf r).2 hpr with h6 | ⟨_, w2, h7, h8, h9, _⟩
          · rw [hn, hw] at h6; simp at h6
          · rw [hw, Option.some.injEq] at h7
            exact .inr ⟨h9, h7 ▸ h8⟩

/-- **C22**, `WalkPath`: the nodes on the way are those present at the proper prefixes of the path,
each once, in order; the last call is for the node at the path if it is present. -/
theorem C22_walkPath (nd : Node) {p : Path} (hp : p ≠ []) :
    (nd.walkPath p).1 = (List.range p.length).filterMap (fun i => nd.get? (p.take i)) ∧
    (nd.walkPath p).2 = nd.get? p := ⟨walkPath_visited nd p, walkPath_base nd hp⟩

end Node

/-- A callback for `Walk` that records the names it is called with and changes nothing. -/
def record (s : List Path) (_ : WP) (n : Path) (w : WP) : List Path × WP := (s ++ [n], w)

mutual
/-- The names of all nodes. -/
def Node.names : Node → List Path
  | .mk n _ ch => n :: ch.names
def Forest.names : Forest → List Path
  | .nil => []
  | .cons _ nd rest => nd.names ++ rest.names
end

mutual
theorem Node.trav_record {skip : Bool} {Q : WP → Prop} {s : List Path} {pw : WP} {n : Path} :
    {nd : Node} → nd.OK Q noR n → Node.trav skip record s pw nd = (s ++ nd.names, nd)
  | .mk n' w ch, h => by
    simp only [Node.OK] at h
    obtain ⟨rfl, hw, hc⟩ := h
    simp only [Node.trav, record]
    rw [Forest.trav_record hc]
    simp [Node.names]
theorem Forest.trav_record {skip : Bool} {Q : WP → Prop} {s : List Path} {pw : WP} {n : Path} :
    {f : Forest} → f.OK Q noR n → Forest.trav skip record s pw f = (s ++ f.names, f)
  | .nil, _ => by simp [Forest.trav, Forest.names]
  | .cons b nd rest, h => by
    simp only [Forest.OK] at h
    obtain ⟨_, h1, h2, h3⟩ := h
    have hb : b ≠ [] := fun e => h1 e
    have hb' : (skip && b == []) = false := by simp [hb]
    simp only [Forest.trav, hb', Forest.names]
    rw [if_neg (by simp), Node.trav_record (h2 hb)]
    simp only [Forest.trav_record h3, List.append_assoc]
end

mutual
theorem Node.mem_names {Q : WP → Prop} {n : Path} : {nd : Node} → nd.OK Q noR n → ∀ m,
    m ∈ nd.names ↔ ∃ q, m = n ++ q ∧ nd.find q ≠ none
  | .mk n' w ch, h, m => by
    simp only [Node.OK] at h
    obtain ⟨rfl, hw, hc⟩ := h
    simp only [Node.names, List.mem_cons, Forest.mem_names hc m]
    constructor
    · rintro (rfl | ⟨b, q, rfl, h1⟩)
      · exact ⟨[], by simp, by simp⟩
      · exact ⟨b :: q, rfl, by rw [Node.find_cons]; exact h1⟩
    · rintro ⟨q, rfl, h1⟩
      cases q with
      | nil => simp
      | cons b q => exact .inr ⟨b, q, rfl, by rw [Node.find_cons] at h1; exact h1⟩
theorem Forest.mem_names {Q : WP → Prop} {n : Path} : {f : Forest} → f.OK Q noR n → ∀ m,
    m ∈ f.names ↔ ∃ b q, m = n ++ b :: q ∧ (f.get? b).bind (·.find q) ≠ none
  | .nil, _, m => by simp [Forest.names, Forest.get?]
  | .cons b nd rest, h, m => by
    simp only [Forest.OK] at h
    obtain ⟨h0, h1, h2, h3⟩ := h
    have hb : b ≠ [] := fun e => h1 e
    simp only [Forest.names, List.mem_append, Node.mem_names (h2 hb) m, Forest.mem_names h3 m, Forest.get?]
    constructor
    · rintro (⟨q, rfl, h4⟩ | ⟨b', q, rfl, h4⟩)
      · exact ⟨b, q, by simp, by rw [if_pos rfl]; exact h4⟩
      · refine ⟨b', q, rfl, ?_⟩
        by_cases hbb : b = b'
        · subst hbb
          rw [(Forest.get?_eq_none rest b).2 h0] at h4
          exact absurd rfl h4
        · rw [if_neg hbb]; exact h4
    · rintro ⟨b', q, rfl, h4⟩
      by_cases hbb : b = b'
      · subst hbb
        rw [if_pos rfl] at h4
        exact .inl ⟨q, by simp, h4⟩
      · rw [if_neg hbb] at h4
        exact .inr ⟨b', q, rfl, h4⟩
end

mutual
theorem Node.names_nodup {Q : WP → Prop} {n : Path} : {nd : Node} → nd.OK Q noR n → nd.names.Nodup
  | .mk n' w ch, h => by
    simp only [Node.OK] at h
    obtain ⟨rfl, hw, hc⟩ := h
    simp only [Node.names, List.nodup_cons, Forest.mem_names hc]
    refine ⟨?_, Forest.names_nodup hc⟩
    rintro ⟨b, q, h1, _⟩
    have := congrArg List.length h1
    simp at this
theorem Forest.names_nodup {Q : WP → Prop} {n : Path} : {f : Forest} → f.OK Q noR n → f.names.Nodup
  | .nil, _ => by simp [Forest.names]
  | .cons b nd rest, h => by
    simp only [Forest.OK] at h
    obtain ⟨h0, h1, h2, h3⟩ := h
    have hb : b ≠ [] := fun e => h1 e
    simp only [Forest.names, List.nodup_append]
    refine ⟨Node.names_nodup (h2 hb), Forest.names_nodup h3, ?_⟩
    intro m hm m' hm' hmm
    subst hmm
    obtain ⟨q, rfl, _⟩ := (Node.mem_names (h2 hb) m).1 hm
    obtain ⟨b', q', h4, h5⟩ := (Forest.mem_names h3 _).1 hm'
    simp only [List.append_assoc, List.cons_append, List.nil_append, List.append_cancel_left_eq,
      List.cons.injEq] at h4
    rw [← h4.1, (Forest.get?_eq_none rest b).2 h0] at h5
    exact absurd rfl h5
end

namespace Node

/-- **C22**, `Walk`: in a tree whose nodes carry their paths as names, the callback is called
exactly once for every path present, whatever the order of the maps, and changes nothing else. -/
theorem C22_walk {skip : Bool} {Q : WP → Prop} {nd : Node} (h : nd.OK Q noR []) :
    (Node.trav skip record [] [] nd).2 = nd ∧
    (Node.trav skip record [] [] nd).1.Nodup ∧
    ∀ q, q ∈ (Node.trav skip record [] [] nd).1 ↔ nd.find q ≠ none := by
  rw [trav_record h]
  refine ⟨rfl, by simpa using names_nodup h, fun q => ?_⟩
  simp [mem_names h]

namespace Ex
open NonRec.Ex (I W CW a b f)

/-- `/a/b/f` and `/a/f`, the latter with a channel. -/
def t : Node := (((new []).add [a, b, f]).add [a, f]).update [a, f] (setWatch (WP.add I [] (.user 1) W).1)

theorem t_ok : t.OK (fun _ => True) noR [] := by
  apply update_OK
  · exact add_OK (add_OK (new_OK trivial) trivial (by simp)) trivial (by simp)
  · simp
  · intro c _ hc
    obtain ⟨n, w, ch⟩ := c
    simp only [Node.OK] at hc
    simp only [setWatch]
    exact OK.mk trivial hc.2.2 |> fun h => by rw [hc.1]; exact h

/-- Deleting `/a/b/f` prunes `/a/b` but not `/a`, which still has the child `f`. -/
example : (t.del [a, b, f]).map (fun x => ((x.find [a, b]).isSome, (x.find [a]).isSome, (x.find [a, f]).isSome)) =
    some (false, true, true) := by decide
example : t.del [a, b, f] ≠ none := by
  rw [Ne, (C22_del t (by simp)).1]; decide
example : (Node.trav true record [] [] t).1 = [[], [a], [a, b], [a, b, f], [a, f]] := by decide
example : t.find [a, b] = some [] ∧ (t.add [a, b, a]).find [a, b, a] = some [] := by decide

end Ex
end Node
end Verif
