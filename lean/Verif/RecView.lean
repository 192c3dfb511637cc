/-
The recursive tree seen through its users' sets: the strong invariant of the watchpoints that holds while
no Watch fails, the topmost watchpoints, and what a successful Watch does.
-/
import Verif.RecHist

namespace Verif
namespace Rec
open GoMap NonRec

variable {P : Platform} {Q : WP → Prop}

/-! ### Strong invariant of a watchpoint -/

/-- The total is the union of the users' sets and there is no internal channel. -/
structure RN (P : Platform) (w : WP) : Prop where
  nr : NR P w
  norec : w.get? .recCh = none

theorem RN.nil (P : Platform) : RN P [] := ⟨nr_nil P, by simp⟩

theorem RN.rw {w : WP} (h : RN P w) : RW P w where
  nodup := h.nr.inv.nodup
  norec := h.norec
  user := h.nr.sound.user
  ne := by
    intro c v hv h0
    have := (h.nr.user c v hv).1
    subst h0
    exact this (by simp)
  tot := h.nr.sound.tot

theorem RN.add {w : WP} (h : RN P w) (c : Nat) {e : Event} (he : Storable P e) : RN P (w.add P (.user c) e).1 where
  nr := h.nr.add_user he.ne he.omitted
  norec := by
    rw [WP.get?_add P w (by simp)]
    simpa using h.norec

theorem RN.gone {w : WP} (h : RN P w) (c : Nat) : RN P (gone P w c) where
  nr := h.nr.del_all c
  norec := by
    rw [WP.get?_del_ne_nil P w (by simp) _ (by simp)]
    simpa using h.norec

theorem RN.congr {w w' : WP} (h : RN P w) (hn : w'.Nodup) (he : ∀ k, w.get? k = w'.get? k) : RN P w' :=
  ⟨NR.congr h.nr hn he, by rw [← he]; exact h.norec⟩

theorem RN.users_ok {w : WP} (h : RN P w) : ∀ x ∈ users w, (∃ d, x.1 = .user d) ∧ Storable P x.2 := by
  rintro ⟨k, e⟩ hx
  obtain ⟨h1, h2⟩ := users_mem hx
  have hg := GoMap.get?_of_mem h.nr.inv.nodup h1
  cases k with
  | nil => exact absurd rfl h2
  | recCh => rw [h.norec] at hg; simp at hg
  | user d => exact ⟨⟨d, rfl⟩, (h.nr.user d e hg).2, (h.nr.user d e hg).1⟩

theorem RN.addAll {w : WP} (h : RN P w) (l : List (Key × Event))
    (hl : ∀ x ∈ l, (∃ d, x.1 = .user d) ∧ Storable P x.2) :
    RN P (l.foldl (fun w x => (WP.add P w x.1 x.2).1) w) := by
  induction l generalizing w with
  | nil => exact h
  | cons x l ih =>
    obtain ⟨k, e⟩ := x
    obtain ⟨⟨d, h1⟩, h2⟩ := hl (k, e) (by simp)
    simp only at h1 h2
    subst h1
    exact ih (h.add d h2) fun y hy => hl y (by simp [hy])

theorem RN.copied {src inac dst : WP} (h1 : RN P src) (h2 : RN P inac) (h3 : RN P dst) : RN P (copied P src inac dst) :=
  (h3.addAll _ h1.users_ok).addAll _ h2.users_ok

theorem RN.eq_nil_iff (hP : P.Facts) {w : WP} (h : RN P w) : w = [] ↔ w.total P = 0 := (h.nr.total_eq_zero hP).symm

/-- Bits of the total. -/
theorem RN.total_bit {w : WP} (h : RN P w) (i : Nat) :
    BitVec.getLsbD (w.total P) i = true ↔
      BitVec.getLsbD P.internal i = false ∧ ∃ d, BitVec.getLsbD (w.val (.user d)) i = true := by
  rw [NonRec.total_bit h.nr.inv i]
  constructor
  · rintro ⟨h1, k, v, hk, hv, hb⟩
    refine ⟨h1, ?_⟩
    cases k with
    | nil => exact absurd rfl hk
    | recCh => rw [h.norec] at hv; simp at hv
    | user d => exact ⟨d, by rw [val_of_some hv]; exact hb⟩
  · rintro ⟨h1, d, hb⟩
    refine ⟨h1, .user d, w.val (.user d), by simp, ?_, hb⟩
    cases hv : w.get? (.user d) with
    | none => rw [WP.val_eq_zero_of_none hv] at hb; simp at hb
    | some v => rw [val_of_some hv]

/-- A set with any bit has a bit that is not internal. -/
theorem RN.real {w : WP} (h : RN P w) {d : Nat} (hv : w.val (.user d) ≠ 0) : w.total P ≠ 0 := by
  cases hg : w.get? (.user d) with
  | none => exact absurd (WP.val_eq_zero_of_none hg) hv
  | some v =>
    have h1 := (h.nr.user d v hg).1
    rw [Event.ne_zero_iff] at h1 ⊢
    obtain ⟨i, hi⟩ := h1
    rw [Event.bit_andNot, Bool.and_eq_true, Bool.not_eq_true'] at hi
    exact ⟨i, (h.total_bit i).2 ⟨hi.2, d, by rw [val_of_some hg]; exact hi.1⟩⟩

/-! ### Users' sets -/

/-- The set of a channel at a path (at `q ++ [[]]`: in the inactive watchpoint of `q`). -/
def uset (root : Node) (r : Path) (d : Nat) : Event := (watchAt root r).val (.user d)

theorem tot_bit {root : Node} (h : ROK (RN P) root) (q : Path) (i : Nat) :
    BitVec.getLsbD (tot P root q) i = true ↔ BitVec.getLsbD P.internal i = false ∧
      ∃ d, BitVec.getLsbD (uset root q d) i = true ∨ BitVec.getLsbD (uset root (q ++ [[]]) d) i = true := by
  unfold tot uset
  rw [BitVec.getLsbD_or, Bool.or_eq_true, (ROK.watchAt h (RN.nil P) _).total_bit, (ROK.watchAt h (RN.nil P) _).total_bit]
  constructor
  · rintro (⟨h1, d, h2⟩ | ⟨h1, d, h2⟩)
    · exact ⟨h1, d, .inl h2⟩
    · exact ⟨h1, d, .inr h2⟩
  · rintro ⟨h1, d, h2 | h2⟩
    · exact .inl ⟨h1, d, h2⟩
    · exact .inr ⟨h1, d, h2⟩

theorem tot_eq_zero {root : Node} (h : ROK (RN P) root) (q : Path) :
    tot P root q = 0 ↔ ∀ d, uset root q d = 0 ∧ uset root (q ++ [[]]) d = 0 := by
  constructor
  · intro h0 d
    have h1 := h0
    unfold tot at h1
    have ha : (watchAt root q).total P = 0 := by
      generalize (watchAt root q).total P = x at *
      generalize (watchAt root (q ++ [[]])).total P = y at *
      clear h0
      ebits
    have hb : (watchAt root (q ++ [[]])).total P = 0 := by
      generalize (watchAt root q).total P = x at *
      generalize (watchAt root (q ++ [[]])).total P = y at *
      clear h0
      ebits
    refine ⟨?_, ?_⟩
    · by_contra hc; exact (ROK.watchAt h (RN.nil P) q).real hc ha
    · by_contra hc; exact (ROK.watchAt h (RN.nil P) (q ++ [[]])).real hc hb
  · intro h0
    by_contra hc
    obtain ⟨i, hi⟩ := Event.ne_zero_iff.1 hc
    obtain ⟨_, d, h1⟩ := (tot_bit h q i).1 hi
    rw [(h0 d).1, (h0 d).2] at h1
    simp at h1

theorem watchAt_nil_iff (hP : P.Facts) {root : Node} (h : ROK (RN P) root) (q : Path) :
    watchAt root q = [] ↔ ∀ d, uset root q d = 0 := by
  constructor
  · intro h0 d; simp [uset, h0]
  · intro h0
    rw [(ROK.watchAt h (RN.nil P) q).eq_nil_iff hP]
    by_contra hc
    obtain ⟨i, hi⟩ := Event.ne_zero_iff.1 hc
    obtain ⟨_, d, h1⟩ := ((ROK.watchAt h (RN.nil P) q).total_bit i).1 hi
    have := h0 d
    unfold uset at this
    rw [this] at h1
    simp at h1

/-! ### The topmost watchpoints below a node -/

mutual
theorem mem_tops {n : Path} : (nd : Node) → nd.OK Q (inR Q) n → ∀ r, r ∈ nd.tops ↔
    [] ∉ r ∧ watchAt nd r ≠ [] ∧ ∀ t, t <+: r → t ≠ r → watchAt nd t = []
  | .mk n' w ch, h, r => by
    have e0 : watchAt (.mk n' w ch) [] = w := by simp [watchAt, Node.watch]
    simp only [Node.tops]
    split
    · next hw =>
      have hw' : w ≠ [] := by simpa using hw
      simp only [List.mem_singleton]
      constructor
      · rintro rfl
        exact ⟨by simp, by rw [e0]; exact hw', fun t ht hn => absurd (List.prefix_nil.1 ht) hn⟩
      · rintro ⟨_, _, h3⟩
        by_contra hr
        have := h3 [] List.nil_prefix (Ne.symm hr)
        rw [e0] at this
        exact hw' this
    · next hw =>
      have hw' : w = [] := by simpa using hw
      rw [mem_topsF ch h.child r]
      constructor
      · rintro ⟨b, x, r', rfl, hb, hx, h1, h2, h3⟩
        refine ⟨by simp [Ne.symm hb, h1], by rw [watchAt_cons_some (nd := .mk n' w ch) hx]; exact h2, ?_⟩
        intro t ht hn
        cases t with
        | nil => rw [e0]; exact hw'
        | cons b' t =>
          obtain ⟨rfl, ht'⟩ := List.cons_prefix_cons.1 ht
          rw [watchAt_cons_some (nd := .mk n' w ch) hx]
          exact h3 t ht' (by simpa using hn)
      · rintro ⟨h1, h2, h3⟩
        cases r with
        | nil => rw [e0] at h2; exact absurd hw' h2
        | cons b r =>
          simp only [List.mem_cons, not_or] at h1
          cases hx : ch.get? b with
          | none => rw [watchAt_cons_none (nd := .mk n' w ch) hx] at h2; exact absurd rfl h2
          | some x =>
            refine ⟨b, x, r, rfl, Ne.symm h1.1, hx, h1.2, ?_, ?_⟩
            · rwa [watchAt_cons_some (nd := .mk n' w ch) hx] at h2
            · intro t ht hn
              have := h3 (b :: t) (List.cons_prefix_cons.2 ⟨rfl, ht⟩) (by simpa using hn)
              rwa [watchAt_cons_some (nd := .mk n' w ch) hx] at this
theorem mem_topsF {n : Path} : (f : Forest) → f.OK Q (inR Q) n → ∀ r, r ∈ f.tops ↔
    ∃ b x r', r = b :: r' ∧ b ≠ [] ∧ f.get? b = some x ∧ [] ∉ r' ∧ watchAt x r' ≠ [] ∧
      ∀ t, t <+: r' → t ≠ r' → watchAt x t = []
  | .nil, _, r => by simp [Forest.tops, Forest.get?]
  | .cons b nd rest, h, r => by
    simp only [Forest.OK] at h
    have hrest := mem_topsF rest h.2.2.2 r
    have hne : ∀ b' x, rest.get? b' = some x → b' ≠ b := by
      rintro b' x hx rfl
      rw [(Forest.get?_eq_none rest b').2 h.1] at hx; simp at hx
    simp only [Forest.tops]
    split
    · next hb =>
      rw [hrest]
      constructor
      · rintro ⟨b', x, r', rfl, h1, h2, h3⟩
        exact ⟨b', x, r', rfl, h1, by simp [Forest.get?, Ne.symm (hne _ _ h2), h2], h3⟩
      · rintro ⟨b', x, r', rfl, h1, h2, h3⟩
        refine ⟨b', x, r', rfl, h1, ?_, h3⟩
        simp only [Forest.get?] at h2
        rw [if_neg] at h2
        · exact h2
        · rintro rfl; exact h1 hb
    · next hb =>
      simp only [List.mem_append, List.mem_map, hrest]
      constructor
      · rintro (⟨r', h1, rfl⟩ | ⟨b', x, r', rfl, h1, h2, h3⟩)
        · exact ⟨b, nd, r', rfl, hb, by simp [Forest.get?], (mem_tops nd (h.2.2.1 hb) r').1 h1⟩
        · exact ⟨b', x, r', rfl, h1, by simp [Forest.get?, Ne.symm (hne _ _ h2), h2], h3⟩
      · rintro ⟨b', x, r', rfl, h1, h2, h3⟩
        by_cases hbb : b = b'
        · subst hbb
          left
          simp only [Forest.get?, if_true, Option.some.injEq] at h2
          subst h2
          exact ⟨r', (mem_tops nd (h.2.2.1 hb) r').2 h3, rfl⟩
        · right
          simp only [Forest.get?, if_neg hbb] at h2
          exact ⟨b', x, r', rfl, h1, h2, h3⟩
end

mutual
theorem nodup_tops {n : Path} : (nd : Node) → nd.OK Q (inR Q) n → nd.tops.Nodup
  | .mk n' w ch, h => by
    simp only [Node.tops]
    split
    · simp
    · exact nodup_topsF ch h.child
theorem nodup_topsF {n : Path} : (f : Forest) → f.OK Q (inR Q) n → f.tops.Nodup
  | .nil, _ => by simp [Forest.tops]
  | .cons b nd rest, h => by
    simp only [Forest.OK] at h
    simp only [Forest.tops]
    split
    · exact nodup_topsF rest h.2.2.2
    · next hb =>
      rw [List.nodup_append]
      refine ⟨List.Pairwise.map _ (fun a b hab => by simpa using hab) (nodup_tops nd (h.2.2.1 hb)), nodup_topsF rest h.2.2.2, ?_⟩
      intro a ha b' hb' heq
      subst heq
      obtain ⟨r', _, rfl⟩ := List.mem_map.1 ha
      obtain ⟨b', x, r'', h1, _, h2, _⟩ := (mem_topsF rest h.2.2.2 _).1 hb'
      simp only [List.cons.injEq] at h1
      obtain ⟨rfl, rfl⟩ := h1
      rw [(Forest.get?_eq_none rest b).2 h.1] at h2; simp at h2
end

/-- The topmost watchpoints at and below `p`, as whole paths. -/
theorem mem_tops_at {root : Node} (h : ROK Q root) {p : Path} (hp : [] ∉ p) (r : Path) : r ∈ (nodeAt root p).tops ↔
    [] ∉ r ∧ watchAt root (p ++ r) ≠ [] ∧ ∀ t, t <+: r → t ≠ r → watchAt root (p ++ t) = [] := by
  have hw : ∀ t, watchAt (nodeAt root p) t = watchAt root (p ++ t) := by
    intro t
    unfold watchAt nodeAt
    rw [Node.find_append]
    cases root.get? p with
    | some x => rfl
    | none => cases t <;> simp [Node.find, Node.new, Node.get?, Node.watch, Forest.get?]
  cases hg : root.get? p with
  | some x =>
    have hx := h.get hp hg
    rw [nodeAt_of_get hg, mem_tops x hx r]
    rw [nodeAt_of_get hg] at hw
    simp only [hw]
  | none =>
    have h1 : nodeAt root p = Node.new [] := by simp [nodeAt, hg]
    have h2 : (nodeAt root p).tops = [] := by rw [h1]; rfl
    rw [h2]
    have h3 : ∀ t, watchAt root (p ++ t) = [] := by
      intro t
      unfold watchAt; rw [Node.find_append, hg]; rfl
    simp [h3]

theorem nodup_tops_at {root : Node} (h : ROK Q root) {p : Path} (hp : [] ∉ p) : (nodeAt root p).tops.Nodup := by
  cases hg : root.get? p with
  | some x => rw [nodeAt_of_get hg]; exact nodup_tops x (h.get hp hg)
  | none =>
    have h1 : nodeAt root p = Node.new [] := by simp [nodeAt, hg]
    rw [h1]; simp [Node.new, Node.tops, Forest.tops]

/-! ### Copying the registrations of the children -/

theorem foldl_add_bit (l : List (Key × Event)) (hl : ∀ x ∈ l, ∃ d, x.1 = Key.user d) (w : WP) (d : Nat) (i : Nat) :
    BitVec.getLsbD (WP.val (l.foldl (fun w x => (WP.add P w x.1 x.2).1) w) (.user d)) i = true ↔
      BitVec.getLsbD (w.val (.user d)) i = true ∨ ∃ v, (Key.user d, v) ∈ l ∧ BitVec.getLsbD v i = true := by
  induction l generalizing w with
  | nil => simp
  | cons x l ih =>
    obtain ⟨k, e⟩ := x
    obtain ⟨c, hc⟩ := hl (k, e) (by simp)
    simp only at hc
    subst hc
    rw [List.foldl_cons, ih (fun y hy => hl y (by simp [hy]))]
    have hv : WP.val (WP.add P w (.user c) e).1 (.user d) = if d = c then w.val (.user c) ||| e else w.val (.user d) := by
      rw [WP.val, get_add_user]
      split
      · rfl
      · rfl
    simp only [hv]
    by_cases hd : d = c
    · subst hd
      simp only [if_true, BitVec.getLsbD_or, Bool.or_eq_true, List.mem_cons, Prod.mk.injEq, true_and]
      constructor
      · rintro ((h1 | h1) | ⟨v, h1, h2⟩)
        · exact .inl h1
        · exact .inr ⟨e, .inl rfl, h1⟩
        · exact .inr ⟨v, .inr h1, h2⟩
      · rintro (h1 | ⟨v, rfl | h1, h2⟩)
        · exact .inl (.inl h1)
        · exact .inl (.inr h2)
        · exact .inr ⟨v, h1, h2⟩
    · simp only [hd, if_false, List.mem_cons, Prod.mk.injEq, Key.user.injEq, false_and, false_or]

theorem users_bit {w : WP} (hn : w.Nodup) (d : Nat) (i : Nat) :
    (∃ v, (Key.user d, v) ∈ users w ∧ BitVec.getLsbD v i = true) ↔ BitVec.getLsbD (w.val (.user d)) i = true := by
  constructor
  · rintro ⟨v, h1, h2⟩
    rw [val_of_some (GoMap.get?_of_mem hn (users_mem h1).1)]; exact h2
  · intro h1
    cases hg : w.get? (.user d) with
    | none => rw [WP.val_eq_zero_of_none hg] at h1; simp at h1
    | some v =>
      rw [val_of_some hg] at h1
      exact ⟨v, by simpa [users] using GoMap.mem_of_get? hg, h1⟩

theorem copied_bit {a b w : WP} (ha : RN P a) (hb : RN P b) (d i : Nat) :
    BitVec.getLsbD ((copied P a b w).val (.user d)) i = true ↔
      BitVec.getLsbD (w.val (.user d)) i = true ∨ BitVec.getLsbD (a.val (.user d)) i = true ∨
        BitVec.getLsbD (b.val (.user d)) i = true := by
  unfold copied
  rw [foldl_add_bit _ (fun x hx => (hb.users_ok x hx).1), foldl_add_bit _ (fun x hx => (ha.users_ok x hx).1),
    users_bit ha.nr.inv.nodup, users_bit hb.nr.inv.nodup, or_assoc]

theorem users_ne_nil {w : WP} (h : RN P w) (hw : w ≠ []) : users w ≠ [] := by
  intro h0
  apply hw
  rw [h.nr.inv.eq_nil_iff, h.nr.inv.nil_none]
  intro k hk
  cases hg : w.get? k with
  | none => rfl
  | some v =>
    have : (k, v) ∈ users w := by
      simp only [users, List.mem_filter, decide_eq_true_eq]
      exact ⟨GoMap.mem_of_get? hg, hk⟩
    rw [h0] at this; simp at this

/-- `copyAll` over watchpoints that are not empty: no panic, and the inactive watchpoint of `p` gets the
union. -/
theorem copyAll_spec {p : Path} (hp : [] ∉ p) (rs : List Path) {s : St} (h : ROK (RN P) s.root)
    (hg : s.root.get? p ≠ none) (hrs : ∀ r ∈ rs, r ≠ [] ∧ [] ∉ r ∧ watchAt s.root (p ++ r) ≠ []) :
    ROK (RN P) (copyAll P p rs s).root ∧ (copyAll P p rs s).root.get? p ≠ none ∧
    (∀ r, r ≠ p ++ [[]] → watchAt (copyAll P p rs s).root r = watchAt s.root r) ∧
    (copyAll P p rs s).world = s.world ∧
    ∀ d i, BitVec.getLsbD (uset (copyAll P p rs s).root (p ++ [[]]) d) i = true ↔
      BitVec.getLsbD (uset s.root (p ++ [[]]) d) i = true ∨ ∃ r ∈ rs,
        BitVec.getLsbD (uset s.root (p ++ r) d) i = true ∨ BitVec.getLsbD (uset s.root (p ++ r ++ [[]]) d) i = true := by
  induction rs generalizing s with
  | nil => exact ⟨h, hg, fun _ _ => rfl, rfl, by simp [copyAll]⟩
  | cons r rs ih =>
    obtain ⟨hr0, hr1, hr2⟩ := hrs r (by simp)
    have hq := fun q => ROK.watchAt h (RN.nil P) q
    have hu : users (nodeAt s.root (p ++ r)).watch ≠ [] := by
      rw [watch_nodeAt]; exact users_ne_nil (hq _) hr2
    have hcopy := watchCopy_fst P (nodeAt s.root (p ++ r)) (nodeAt s.root p) hu
    rw [watch_nodeAt, inact_nodeAt, inact_nodeAt] at hcopy
    simp only [copyAll, hcopy, Bool.false_eq_true, if_false]
    rw [update_const (f := setInact _)]
    have hw : RN P (copied P (watchAt s.root (p ++ r)) (watchAt s.root (p ++ r ++ [[]])) (watchAt s.root (p ++ [[]]))) :=
      RN.copied (hq _) (hq _) (hq _)
    have hok' := Node.update_OK h hp fun x _ hx => setInact_OK hx hw
    have hg' := setInact_get h hp hg
      (w := copied P (watchAt s.root (p ++ r)) (watchAt s.root (p ++ r ++ [[]])) (watchAt s.root (p ++ [[]])))
    have hat := fun t => watchAt_setInact h hp hg
      (copied P (watchAt s.root (p ++ r)) (watchAt s.root (p ++ r ++ [[]])) (watchAt s.root (p ++ [[]]))) t
    have hne : ∀ t : Path, t ≠ [] → [] ∉ t → p ++ t ≠ p ++ [[]] := by
      intro t h1 h2 h3
      rw [List.append_cancel_left_eq] at h3
      subst h3; simp at h2
    have hne2 : ∀ t : Path, t ≠ [] → p ++ t ++ [[]] ≠ p ++ [[]] := by
      intro t h1 h3
      rw [List.append_assoc, List.append_cancel_left_eq] at h3
      cases t with
      | nil => exact h1 rfl
      | cons b t => simp at h3
    have := @ih { s with root := s.root.update p (setInact (copied P (watchAt s.root (p ++ r))
        (watchAt s.root (p ++ r ++ [[]])) (watchAt s.root (p ++ [[]])))) } hok' hg' (by
      intro r' hr'
      obtain ⟨h1, h2, h3⟩ := hrs r' (by simp [hr'])
      exact ⟨h1, h2, by rw [hat, if_neg (hne r' h1 h2)]; exact h3⟩)
    refine ⟨this.1, this.2.1, fun t ht => ?_, this.2.2.2.1, fun d i => ?_⟩
    · rw [this.2.2.1 t ht, hat, if_neg ht]
    · rw [this.2.2.2.2 d i]
      have e0 : ∀ i, BitVec.getLsbD (uset (s.root.update p (setInact (copied P (watchAt s.root (p ++ r))
          (watchAt s.root (p ++ r ++ [[]])) (watchAt s.root (p ++ [[]]))))) (p ++ [[]]) d) i = true ↔
          BitVec.getLsbD (uset s.root (p ++ [[]]) d) i = true ∨ BitVec.getLsbD (uset s.root (p ++ r) d) i = true ∨
            BitVec.getLsbD (uset s.root (p ++ r ++ [[]]) d) i = true := by
        intro i
        unfold uset
        rw [hat, if_pos rfl, copied_bit (hq _) (hq _)]
      have e1 : ∀ a ∈ rs, uset (s.root.update p (setInact (copied P (watchAt s.root (p ++ r))
          (watchAt s.root (p ++ r ++ [[]])) (watchAt s.root (p ++ [[]]))))) (p ++ a) d = uset s.root (p ++ a) d := by
        intro a ha
        obtain ⟨h1, h2, _⟩ := hrs a (by simp [ha])
        unfold uset; rw [hat, if_neg (hne a h1 h2)]
      have e2 : ∀ a ∈ rs, uset (s.root.update p (setInact (copied P (watchAt s.root (p ++ r))
          (watchAt s.root (p ++ r ++ [[]])) (watchAt s.root (p ++ [[]]))))) (p ++ a ++ [[]]) d =
            uset s.root (p ++ a ++ [[]]) d := by
        intro a ha
        obtain ⟨h1, h2, _⟩ := hrs a (by simp [ha])
        unfold uset; rw [hat, if_neg (hne2 a h1)]
      rw [e0]
      constructor
      · rintro ((h1 | h1 | h1) | ⟨a, ha, h1⟩)
        · exact .inl h1
        · exact .inr ⟨r, by simp, .inl h1⟩
        · exact .inr ⟨r, by simp, .inr h1⟩
        · rw [e1 a ha, e2 a ha] at h1
          exact .inr ⟨a, by simp [ha], h1⟩
      · rintro (h1 | ⟨a, ha, h1⟩)
        · exact .inl (.inl h1)
        · rcases List.mem_cons.1 ha with rfl | ha
          · exact .inl (.inr h1)
          · exact .inr ⟨a, ha, by rw [e1 a ha, e2 a ha]; exact h1⟩

end Rec
end Verif
