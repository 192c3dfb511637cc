/-
Failed Watch calls on the recursive tree (C28) and registrations below a non-recursive OS watch (C45).
-/
import Verif.PropsRecSync

namespace Verif
namespace Rec
open GoMap NonRec Spec

variable {P : Platform}

/-! ### Totals after a rolled back registration -/

theorem del_total_bit {w : WP} (h : w.Inv P) (c : Nat) (D : Event) (i : Nat) :
    BitVec.getLsbD ((w.del P (.user c) D).1.total P) i = true ↔ BitVec.getLsbD P.internal i = false ∧
      ((∃ k v, k ≠ Key.nil ∧ k ≠ .user c ∧ w.get? k = some v ∧ BitVec.getLsbD v i = true) ∨
       (BitVec.getLsbD (w.val (.user c)) i = true ∧ BitVec.getLsbD D i = false)) := by
  rw [total_bit (WP.inv_del h.nodup (by simp) D)]
  constructor
  · rintro ⟨h1, k, v, hk, hv, hb⟩
    refine ⟨h1, ?_⟩
    rw [WP.get?_del_ne_nil P w (by simp) D hk] at hv
    split at hv
    · next hkc =>
      split at hv
      · simp at hv
      · simp only [Option.some.injEq] at hv
        rw [← hv, BitVec.getLsbD_and, Bool.and_eq_true] at hb
        refine .inr ⟨hb.1, ?_⟩
        have := hb.2
        rw [BitVec.getLsbD_not, Bool.and_eq_true] at this
        simpa using this.2
    · next hkc => exact .inl ⟨k, v, hk, hkc, hv, hb⟩
  · rintro ⟨h1, ⟨k, v, hk, hkc, hv, hb⟩ | ⟨h2, h3⟩⟩
    · exact ⟨h1, k, v, hk, by rw [WP.get?_del_ne_nil P w (by simp) D hk, if_neg hkc]; exact hv, hb⟩
    · have hb : BitVec.getLsbD (w.val (.user c) &^ D) i = true := by
        have hlt : i < 32 := by
          by_contra hc
          rw [BitVec.getLsbD_of_ge _ _ (by omega)] at h2; simp at h2
        rw [BitVec.getLsbD_and, h2, BitVec.getLsbD_not, h3]; simp [hlt]
      refine ⟨h1, .user c, w.val (.user c) &^ D, by simp, ?_, hb⟩
      rw [WP.get?_del_ne_nil P w (by simp) D (by simp), if_pos rfl, if_neg]
      intro h0; rw [h0] at hb; simp at hb

/-- Removing events that are not in the total does nothing to the total. -/
theorem del_total_same {w : WP} (h : w.Inv P) (c : Nat) {D t : Event} (hw : w.total P ⊑ t) (hD : D &&& t = 0) :
    (w.del P (.user c) D).1.total P = w.total P := by
  have hDt : ∀ i, BitVec.getLsbD t i = true → BitVec.getLsbD D i = false := by
    intro i hi
    have : BitVec.getLsbD (D &&& t) i = false := by rw [hD]; simp
    rw [BitVec.getLsbD_and, hi, Bool.and_true] at this
    exact this
  refine Event.Sub.antisymm (fun i hi => ?_) (fun i hi => ?_)
  · obtain ⟨h1, ⟨k, v, h2, _, h3, h4⟩ | ⟨h2, _⟩⟩ := (del_total_bit h c D i).1 hi
    · exact (total_bit h i).2 ⟨h1, k, v, h2, h3, h4⟩
    · cases hg : w.get? (.user c) with
      | none => rw [WP.val_eq_zero_of_none hg] at h2; simp at h2
      | some v =>
        rw [val_of_some hg] at h2
        exact (total_bit h i).2 ⟨h1, .user c, v, by simp, hg, h2⟩
  · obtain ⟨h1, k, v, h2, h3, h4⟩ := (total_bit h i).1 hi
    refine (del_total_bit h c D i).2 ⟨h1, ?_⟩
    by_cases hk : k = .user c
    · subst hk
      exact .inr ⟨by rw [val_of_some h3]; exact h4, hDt i (hw i hi)⟩
    · exact .inl ⟨k, v, h2, hk, h3, h4⟩

/-- Adding events and removing those of them that were not in `t`. -/
theorem add_del_total {w : WP} (h : w.Inv P) (c : Nat) {E t : Event} (hw : w.total P ⊑ t) :
    w.total P ⊑ ((w.add P (.user c) E).1.del P (.user c) ((t ||| (E &^ P.internal)) &^ t)).1.total P ∧
    ((w.add P (.user c) E).1.del P (.user c) ((t ||| (E &^ P.internal)) &^ t)).1.total P ⊑ t := by
  have hi := h.add (c := .user c) (by simp) E
  have hg := fun k => WP.get?_add P w (c := .user c) (by simp) E k
  generalize (w.add P (.user c) E).1 = w' at *
  have hv : w'.val (.user c) = w.val (.user c) ||| E := by
    rw [WP.val, hg]; simp
  have hne : ∀ k, k ≠ .nil → k ≠ .user c → w'.get? k = w.get? k := by
    intro k h1 h2; rw [hg]; simp [h1, h2]
  constructor
  · intro i hb
    obtain ⟨h1, k, v, h2, h3, h4⟩ := (total_bit h i).1 hb
    refine (del_total_bit hi c _ i).2 ⟨h1, ?_⟩
    by_cases hk : k = .user c
    · subst hk
      refine .inr ⟨?_, ?_⟩
      · rw [hv, val_of_some h3, BitVec.getLsbD_or, h4]; simp
      · rw [BitVec.getLsbD_and, BitVec.getLsbD_not, hw i hb]; simp
    · exact .inl ⟨k, v, h2, hk, by rw [hne k h2 hk]; exact h3, h4⟩
  · intro i hb
    obtain ⟨h1, ⟨k, v, h2, h3, h4, h5⟩ | ⟨h2, h3⟩⟩ := (del_total_bit hi c _ i).1 hb
    · rw [hne k h2 h3] at h4
      exact hw i ((total_bit h i).2 ⟨h1, k, v, h2, h4, h5⟩)
    · rw [hv, BitVec.getLsbD_or, Bool.or_eq_true] at h2
      rcases h2 with h2 | h2
      · cases hg' : w.get? (.user c) with
        | none => rw [WP.val_eq_zero_of_none hg'] at h2; simp at h2
        | some v =>
          rw [val_of_some hg'] at h2
          exact hw i ((total_bit h i).2 ⟨h1, .user c, v, by simp, hg', h2⟩)
      · by_contra h4
        have hlt : i < 32 := by
          by_contra hc
          rw [BitVec.getLsbD_of_ge _ _ (by omega)] at h2; simp at h2
        have h4 : BitVec.getLsbD t i = false := by simpa using h4
        rw [BitVec.getLsbD_and, BitVec.getLsbD_or, BitVec.getLsbD_and, BitVec.getLsbD_not, BitVec.getLsbD_not, h1, h2, h4] at h3
        simp [hlt] at h3

theorem slot_cases (q p : Path) : slot q p = q ∨ slot q p = q ++ [[]] := by
  unfold slot; split
  · next h => exact .inl h.symm
  · exact .inr rfl

/-- The totals after a Watch below an existing watch failed are those before it. -/
theorem under_fail_tot {root : Node} (hok : ROK (RN P) root) {q p : Path} (hq : [] ∉ q) (hg : root.get? q ≠ none)
    (c : Nat) (E : Event) {r : Path} (hr : [] ∉ r) :
    tot P ((regAt P root q p c E).update q (fun nd => (watchDel P nd (.user c)
      ((tot P root q ||| (E &^ P.internal)) &^ tot P root q)).1)) r = tot P root r := by
  have hok' : ROK (fun _ => True) root := forall_ROK hok (fun _ _ _ => trivial)
  have hok1 : ROK (fun _ => True) (regAt P root q p c E) := regAt_ok hok' hq trivial
  have hg1 : (regAt P root q p c E).get? q ≠ none := regAt_get hok' hq hg
  have hinv : ∀ x, (watchAt root x).Inv P := fun x => (ROK.watchAt hok (RN.nil P) x).nr.inv
  have hw := fun x => delAt_watchAt (P := P) hok1 hq hg1 c ((tot P root q ||| (E &^ P.internal)) &^ tot P root q) x
  have hra := fun x => regAt_watchAt (P := P) hok' (p := p) hq hg c E x
  have hsub1 : (watchAt root q).total P ⊑ tot P root q := Event.sub_or_left _ _
  have hsub2 : (watchAt root (q ++ [[]])).total P ⊑ tot P root q := Event.sub_or_right _ _
  have hdis : ((tot P root q ||| (E &^ P.internal)) &^ tot P root q) &&& tot P root q = 0 := by
    generalize tot P root q = t
    ebits
  by_cases hrq : r = q
  · subst hrq
    have hne : r ++ [[]] ≠ r := append_ne_inactive hr
    have h1 := hw r
    rw [if_pos rfl] at h1
    have h2 := hw (r ++ [[]])
    rw [if_neg hne, if_pos rfl] at h2
    have key : ∀ t', t' = tot P ((regAt P root r p c E).update r (fun nd => (watchDel P nd (.user c)
      ((tot P root r ||| (E &^ P.internal)) &^ tot P root r)).1)) r → t' = tot P root r := by
      rintro _ rfl
      unfold tot at h1 h2 ⊢
      rw [h1, h2]
      change _ = tot P root r
      change WP.total P (WP.del P _ _ ((tot P root r ||| _) &^ tot P root r)).1 ||| WP.total P (WP.del P _ _ ((tot P root r ||| _) &^ tot P root r)).1 = _
      rcases slot_cases r p with hs | hs
      · have e1 : watchAt (regAt P root r p c E) r = ((watchAt root r).add P (.user c) E).1 := by
          rw [hra, hs, if_pos rfl]
        have e2 : watchAt (regAt P root r p c E) (r ++ [[]]) = watchAt root (r ++ [[]]) := by
          rw [hra, hs, if_neg hne]
        rw [e1, e2, del_total_same (hinv _) c hsub2 hdis]
        obtain ⟨a1, a2⟩ := add_del_total (hinv r) c (E := E) hsub1
        generalize WP.total P (WP.del P (WP.add P (watchAt root r) (Key.user c) E).1 (Key.user c) ((tot P root r ||| (E &^ P.internal)) &^ tot P root r)).1 = y at *
        refine Event.Sub.antisymm (Event.or_sub a2 hsub2) ?_
        unfold tot
        exact Event.or_sub (a1.trans (Event.sub_or_left _ _)) (Event.sub_or_right _ _)
      · have e1 : watchAt (regAt P root r p c E) r = watchAt root r := by
          rw [hra, hs, if_neg (Ne.symm hne)]
        have e2 : watchAt (regAt P root r p c E) (r ++ [[]]) = ((watchAt root (r ++ [[]])).add P (.user c) E).1 := by
          rw [hra, hs, if_pos rfl]
        rw [e1, e2, del_total_same (hinv _) c hsub1 hdis]
        obtain ⟨a1, a2⟩ := add_del_total (hinv (r ++ [[]])) c (E := E) hsub2
        generalize WP.total P (WP.del P (WP.add P (watchAt root (r ++ [[]])) (Key.user c) E).1 (Key.user c) ((tot P root r ||| (E &^ P.internal)) &^ tot P root r)).1 = y at *
        refine Event.Sub.antisymm (Event.or_sub hsub1 a2) ?_
        unfold tot
        exact Event.or_sub (Event.sub_or_left _ _) (a1.trans (Event.sub_or_right _ _))
    exact key _ rfl
  · have n1 : r ≠ q ++ [[]] := (append_ne_inactive hr).symm
    have n2 : r ++ [[]] ≠ q := append_ne_inactive hq
    have n3 : r ++ [[]] ≠ q ++ [[]] := fun hc => hrq (List.append_cancel_right hc)
    have m1 : r ≠ slot q p := by rcases slot_cases q p with hs | hs <;> rw [hs] <;> assumption
    have m2 : r ++ [[]] ≠ slot q p := by rcases slot_cases q p with hs | hs <;> rw [hs] <;> assumption
    have h1 := hw r
    rw [if_neg hrq, if_neg n1, hra, if_neg m1] at h1
    have h2 := hw (r ++ [[]])
    rw [if_neg n2, if_neg n3, hra, if_neg m2] at h2
    generalize (regAt P root q p c E).update q _ = root' at *
    unfold tot
    rw [h1, h2]

theorem parentOf_congr {root root' : Node} {p : Path} (hp : [] ∉ p) (h : ∀ r, [] ∉ r → tot P root' r = tot P root r) :
    parentOf P root' p = parentOf P root p := by
  have hpre : ∀ t, t <+: p → [] ∉ t := fun t ht hc => hp (ht.subset hc)
  have key : ∀ {a b : Node}, (∀ r, [] ∉ r → tot P a r = tot P b r) → ∀ q, parentOf P a p = some q → parentOf P b p = some q := by
    intro a b hab q hq
    obtain ⟨h1, h2, h3⟩ := parentOf_some hq
    have hT : Top P b q := ⟨hpre q h1, by rw [← hab q (hpre q h1)]; exact h2, fun t h4 h5 => by
      rw [← hab t (hpre t (h4.trans h1))]; exact h3 t h4 h5⟩
    cases hb : parentOf P b p with
    | none => exact absurd (parentOf_none hb q h1) hT.2.1
    | some q' =>
      obtain ⟨h1', h2', h3'⟩ := parentOf_some hb
      have hT' : Top P b q' := ⟨hpre q' h1', h2', h3'⟩
      rw [hT'.unique hT h1' h1]
  cases h1 : parentOf P root p with
  | some q => exact key (fun r hr => (h r hr).symm) q h1
  | none =>
    cases h2 : parentOf P root' p with
    | none => rfl
    | some q => rw [key h q h2] at h1; simp at h1

theorem sub_setOf {e : Event} (he : UserEvents P e) (isrec : Bool) : e ⊑ setOf P isrec e &^ P.internal := by
  intro i hi
  have h1 := clean_bit he.2 hi
  have hlt : i < 32 := by
    by_contra hc
    rw [BitVec.getLsbD_of_ge _ _ (by omega)] at hi; simp at hi
  rw [setOf_eq, BitVec.getLsbD_and, BitVec.getLsbD_or, BitVec.getLsbD_not, hi, h1]; simp [hlt]

/-- Empty watchpoints stay empty when a registration is rolled back completely. -/
theorem add_del_nil (c : Nat) (e : Event) : (WP.del P (WP.add P [] (.user c) e).1 (.user c) e).1 = [] := by
  have hi : (WP.add P [] (.user c) e).1.Inv P := (WP.inv_nil P).add (by simp) e
  have hd := WP.inv_del (P := P) hi.nodup (c := .user c) (by simp) e
  have hz : e &^ e = (0 : Event) := by ebits
  rw [hd.eq_nil_iff, hd.nil_none]
  intro k hk
  rw [WP.get?_del_ne_nil P _ (by simp) e hk]
  have hg := fun k => WP.get?_add P [] (c := .user c) (by simp) e k
  split
  · have : WP.val (WP.add P [] (.user c) e).1 (.user c) = e := by
      rw [WP.val, hg]; simp
    rw [this, if_pos hz]
  · next hkc => rw [hg]; simp [hk, hkc]

theorem setOf_false (e : Event) : setOf P false e = e := by
  unfold setOf; simp

/-- A failed non-recursive Watch on a path with no watch above or below it leaves the mirror as it was. -/
theorem Sync.alone_fail (hP : P.Facts) (O : Oracle) {s : St} (h : Sync P s) {p : Path} (hp : [] ∉ p)
    (hno : ∀ x, (x <+: p ∨ p <+: x) → ¬ Top P s.root x) (c : Nat) {e : Event} (he : UserEvents P e)
    (hres : (watchOp P O s p false c e).2 = false) :
    Sync P (watchOp P O s p false c e).1 ∧ (∀ x, tot P (watchOp P O s p false c e).1.root x = tot P s.root x) ∧
    ∀ x, watchAt (watchOp P O s p false c e).1.root x = watchAt s.root x := by
  have hnone : ∀ t, t <+: p → tot P s.root t = 0 := by
    intro t ht
    by_contra hc
    obtain ⟨y, h1, h2⟩ := exists_top (fun hx => hp (ht.subset hx)) hc
    exact hno y (.inl (h1.trans ht)) h2
  have hadd : ∀ r, watchAt (s.root.add p) r = watchAt s.root r := watchAt_add s.root p
  have htot : ∀ r, tot P (s.root.add p) r = tot P s.root r := fun r => by simp [tot, hadd]
  have hTop : ∀ r, Top P (s.root.add p) r ↔ Top P s.root r := fun r => by simp [Top, htot]
  have hok : ROK (RN P) (s.root.add p) := Node.add_OK h.book.ok (RN.nil P) hp
  have hg := Node.add_get_ne_none s.root p
  have hrw : ROK (RW P) s.root := forall_ROK h.book.ok fun q w hf => by
    have := ROK.watchAt h.book.ok (RN.nil P) q
    unfold watchAt at this; rw [hf] at this; exact this.rw
  have heff := (watchOp_eff hP O hrw hp false c he).ok
  have htops : (nodeAt (s.root.add p) p).tops = [] := by
    rw [List.eq_nil_iff_forall_not_mem]
    intro r hr
    rw [(h.book.congr hok (fun r d => by simp [uset, hadd])).1.tops_iff hP hp (fun t ht => by rw [htot]; exact hnone t ht)
      (fun x hx hT => absurd ((hTop x).1 hT) (hno x (.inr hx))), hTop] at hr
    exact hno _ (.inr (List.prefix_append _ _)) hr
  have hpar : parentOf P s.root p = none := by
    cases hq : parentOf P s.root p with
    | none => rfl
    | some q => exact absurd (hnone q (parentOf_some hq).1) (parentOf_some hq).2.1
  have hnm : (watchAdd P (nodeAt (s.root.add p) p) (.user c) e).1.name = p := by
    rw [watchAdd_name]; exact nodeAt_name hok hp hg
  have hni : e &^ P.internal = e := by
    have := he.2
    generalize P.internal = z at *
    clear hP he hres hnm heff hrw
    ebits
  have hdiff : (watchAdd P (nodeAt (s.root.add p) p) (.user c) e).2 = (0, e) := by
    rw [watchAdd_diff, watchTotal_nodeAt, htot, hnone p (List.prefix_refl _), hni]
    have h0 : (0 : Event) ||| e = e := BitVec.zero_or
    rw [h0]
    exact diffOf_ne (Ne.symm he.1)
  have hdn : ¬ ((0, e) = Diff.none) := by
    intro hc
    have := congrArg Prod.snd hc
    exact he.1 this
  have hev : Diff.event (0, e) = e := by
    simp only [Diff.event]
    show e &&& ~~~0#32 = e
    rw [BitVec.not_zero, BitVec.and_allOnes]
  -- the operation
  have hop : watchOp P O s p false c e = (let x := s.world.exec O (.watch p e)
      if x.2 then ({ root := addAt P (s.root.add p) p c e, world := x.1 }, true)
      else ({ root := (addAt P (s.root.add p) p c e).update p (fun nd => (watchDel P nd (.user c) e).1), world := x.1 }, false)) := by
    rw [watchOp_eq, hpar]
    simp only [setOf_false]
    unfold watchTop
    simp only [htops, selfAt_eq, hdiff, hnm, hev]
    rw [if_neg hdn]
    simp
  have hO : O s.world.log (.watch p e) = false := by
    rcases Bool.eq_false_or_eq_true (O s.world.log (.watch p e)) with hx | hx
    · rw [hop] at hres; simp [World.exec, hx] at hres
    · exact hx
  have hop' : (watchOp P O s p false c e).1 =
      { root := (addAt P (s.root.add p) p c e).update p (fun nd => (watchDel P nd (.user c) e).1),
        world := { s.world with log := (.watch p e, false) :: s.world.log } } := by
    rw [hop]; simp [World.exec, hO]
  have hempty : ∀ x, tot P s.root x = 0 → watchAt s.root x = [] ∧ watchAt s.root (x ++ [[]]) = [] := by
    intro x hx
    have h1 := (tot_eq_zero h.book.ok x).1 hx
    exact ⟨(watchAt_nil_iff hP h.book.ok x).2 fun d => (h1 d).1, (watchAt_nil_iff hP h.book.ok _).2 fun d => (h1 d).2⟩
  have hwp := hempty p (hnone p (List.prefix_refl _))
  have hw : ∀ x, watchAt (watchOp P O s p false c e).1.root x = watchAt s.root x := by
    intro x
    rw [hop']
    simp only
    have hok1 : ROK (fun _ => True) (addAt P (s.root.add p) p c e) :=
      addAt_ok (forall_ROK hok fun _ _ _ => trivial) hp trivial
    rw [delAt_watchAt hok1 hp (addAt_get hg)]
    simp only [addAt_watchAt hg, hadd]
    by_cases hx : x = p
    · subst hx; rw [if_pos rfl, if_pos trivial, hwp.1]; exact add_del_nil c e
    · rw [if_neg hx]
      by_cases hx' : x = p ++ [[]]
      · subst hx'; rw [if_pos rfl, if_neg (append_ne_inactive hp), hwp.2]; exact del_nil P c e
      · rw [if_neg hx', if_neg hx]
  have htot' : ∀ x, tot P (watchOp P O s p false c e).1.root x = tot P s.root x := fun x => by simp [tot, hw]
  have hT' : ∀ r, Top P (watchOp P O s p false c e).1.root r ↔ Top P s.root r := fun r => by simp [Top, htot']
  have hrn : ROK (RN P) (watchOp P O s p false c e).1.root := forall_ROK heff fun q w hf => by
    have := hw q
    conv at this => lhs; unfold watchAt; rw [hf]
    simp only [Option.getD_some] at this
    rw [this]; exact ROK.watchAt h.book.ok (RN.nil P) q
  have hos : osRec (watchOp P O s p false c e).1.world.log = osRec s.world.log := by
    rw [hop']; exact osRec_fail _ _
  refine ⟨⟨(h.book.congr hrn fun r d => by simp [uset, hw]).1, ?_, ?_, ?_, ?_⟩, htot', hw⟩
  · intro q hq; rw [hos, htot']; exact h.osTop q ((hT' q).1 hq)
  · intro q hq; rw [hos]; exact h.osNone q fun hc => hq ((hT' q).2 hc)
  · rw [hop']
    exact ⟨⟨h.osNone p (hno p (.inl (List.prefix_refl _))), he.1, he.2⟩, h.valid⟩
  · rw [hop']; exact h.fine

/-- **C28, partial.**  After a harmless history, if a Watch failed because of the OS and the same Watch is made
again and returns nil, then the OS holds a watch at or above the path with all the requested events, provided
that there was an OS watch at or above the path before (which the Watch was to extend), or the Watch is not
recursive and there was none above or below.  Missing: Watch calls that adopt OS watches below the path and
recursive Watch calls on a path without any, for both of which the claim is false (`C28_refuted_adopt`,
`C28_refuted_recursive`). -/
theorem C28_retry_partial (hP : P.Facts) {ops : List ROp} {s s1 s2 : St} (h : SafeHist P ops s) {p : Path}
    {isrec : Bool} {c : Nat} {e : Event} (hf : RStep P true s (.watch p isrec c e false) s1)
    (hr : RStep P true s1 (.watch p isrec c e true) s2)
    (hcase : (∃ t, t <+: p ∧ osRec s.world.log t ≠ none) ∨
      (isrec = false ∧ ∀ x, p <+: x → osRec s.world.log x = none)) :
    ∃ t E f, t <+: p ∧ osRec s2.world.log t = some (E, f) ∧ e ⊑ E := by
  obtain ⟨O, hp, he, hres, rfl⟩ := hf.watch_inv
  obtain ⟨O', _, _, hres', rfl⟩ := hr.watch_inv
  have hs := h.sync hP
  have hrf := RHist.refines hP h.hist.1 h.hist.2
  by_cases hab : ∃ t, t <+: p ∧ osRec s.world.log t ≠ none
  · -- a watch above
    obtain ⟨t, ht, hto⟩ := hab
    have hT := (hs.top_iff t).1 hto
    obtain ⟨q, hpar⟩ : ∃ q, parentOf P s.root p = some q := by
      cases hq : parentOf P s.root p with
      | none => exact absurd (parentOf_none hq t ht) hT.2.1
      | some q => exact ⟨q, rfl⟩
    obtain ⟨hqp, hqt, hqn⟩ := parentOf_some hpar
    have hq : [] ∉ q := fun hc => hp.2 (hqp.subset hc)
    have hrw : ROK (RW P) s.root := forall_ROK hs.book.ok fun q w hf => by
      have := ROK.watchAt hs.book.ok (RN.nil P) q
      unfold watchAt at this; rw [hf] at this; exact this.rw
    have heff := (watchOp_eff hP O hrw hp.2 isrec c he).ok
    have hadd : ∀ (root : Node) r, tot P (root.add p) r = tot P root r := by
      intro root r
      have := watchAt_add root p
      simp [tot, this]
    have hg : (s.root.add p).get? q ≠ none := tot_ne_find (P := P) (by rw [hadd]; exact hqt)
    have hok : ROK (RN P) (s.root.add p) := Node.add_OK hs.book.ok (RN.nil P) hp.2
    have h1 : watchOp P O s p isrec c e = watchUnder P O { s with root := s.root.add p } q p isrec c (setOf P isrec e) := by
      rw [watchOp_eq, hpar]
    have hstep := h1
    rw [watchUnder_eq P O _ q p isrec c _ (by rw [hadd]; exact hqt)] at hstep
    by_cases hsub : setOf P isrec e &^ P.internal ⊑ tot P (s.root.add p) q
    · rw [if_pos hsub] at hstep; rw [hstep] at hres; simp at hres
    rw [if_neg hsub] at hstep
    by_cases hO : O s.world.log (underCall P (s.root.add p) q p isrec c (setOf P isrec e)) = true
    · rw [if_pos hO] at hstep; rw [hstep] at hres; simp at hres
    rw [if_neg hO] at hstep
    have htot : ∀ r, [] ∉ r → tot P (watchOp P O s p isrec c e).1.root r = tot P s.root r := by
      intro r hr
      rw [hstep]
      simp only
      rw [under_fail_tot hok hq hg c (setOf P isrec e) hr, hadd]
    generalize (watchOp P O s p isrec c e).1 = s1 at *
    have hpar1 : parentOf P s1.root p = some q := by rw [parentOf_congr hp.2 htot, hpar]
    have hqt1 : tot P (s1.root.add p) q ≠ 0 := by rw [hadd, htot q hq]; exact hqt
    have hok1 : ROK (RW P) (s1.root.add p) := Node.add_OK heff (RW.nil P) hp.2
    have hstep1 : watchOp P O' s1 p isrec c e =
        watchUnder P O' { s1 with root := s1.root.add p } q p isrec c (setOf P isrec e) := by
      rw [watchOp_eq, hpar1]
    rw [watchUnder_eq P O' _ q p isrec c _ (by exact hqt1)] at hstep1
    have hsub1 : ¬ setOf P isrec e &^ P.internal ⊑ tot P (s1.root.add p) q := by
      rw [hadd, htot q hq, ← hadd]; exact hsub
    rw [if_neg hsub1] at hstep1
    by_cases hO1 : O' s1.world.log (underCall P (s1.root.add p) q p isrec c (setOf P isrec e)) = true
    · rw [if_pos hO1] at hstep1
      rw [hstep1]
      simp only [World.exec, hO1]
      have hname := regNode_name (P := P) hok1 hq (tot_ne_find hqt1) p c (setOf P isrec e)
      refine ⟨q, tot P (s1.root.add p) q ||| (setOf P isrec e &^ P.internal), ?_⟩
      unfold underCall
      simp only [hname]
      split
      · exact ⟨true, hqp, by simp [osRec], (sub_setOf he isrec).trans (Event.sub_or_right _ _)⟩
      · exact ⟨false, hqp, by simp [osRec], (sub_setOf he isrec).trans (Event.sub_or_right _ _)⟩
    · rw [if_neg hO1] at hstep1; rw [hstep1] at hres'; simp at hres'
  · -- no watch above or below
    rcases hcase with hc | ⟨rfl, hbelow⟩
    · exact absurd hc hab
    have hno : ∀ x, (x <+: p ∨ p <+: x) → ¬ Top P s.root x := by
      rintro x (hx | hx) hT
      · exact hab ⟨x, hx, (hs.top_iff x).2 hT⟩
      · exact (hs.top_iff x).2 hT (hbelow x hx)
    obtain ⟨hs1, htot, hw⟩ := hs.alone_fail hP O hp.2 hno c he hres.symm
    have hT1 : ∀ r, Top P (watchOp P O s p false c e).1.root r ↔ Top P s.root r := fun r => by simp [Top, htot]
    obtain ⟨h2, hb, htop, _⟩ := hs1.watch hP O' hp.2 false c he
      (.inr fun x hx hT => absurd ((hT1 x).1 hT) (hno x (.inr hx))) hres'.symm
    have hnone : ∀ t, t <+: p → tot P (watchOp P O s p false c e).1.root t = 0 := by
      intro t ht
      by_contra hc
      obtain ⟨y, h3, h4⟩ := exists_top (fun hx => hp.2 (ht.subset hx)) hc
      exact hno y (.inl (h3.trans ht)) ((hT1 y).1 h4)
    have hTp := (htop p).2 (.inl ⟨rfl, hnone⟩)
    obtain ⟨f, hf⟩ := h2.osTop p hTp
    refine ⟨p, _, f, List.prefix_refl _, hf, fun i hi => ?_⟩
    have hrw : ROK (RW P) (watchOp P O s p false c e).1.root := forall_ROK hs1.book.ok fun q w hf => by
      have := ROK.watchAt hs1.book.ok (RN.nil P) q
      unfold watchAt at this; rw [hf] at this; exact this.rw
    have hd := (watchOp_eff hP O' hrw hp.2 false c he).done hres'.symm
    rw [tot_bit h2.book.ok]
    refine ⟨clean_bit he.2 hi, c, .inl ?_⟩
    unfold uset
    rw [val_of_some hd, BitVec.getLsbD_or, setOf_false, hi]; simp

namespace Ex
/-- An OS that refuses to move or extend recursive watches. -/
def noMove : Oracle := fun _ c => match c with | .recRewatch .. => false | _ => true
/-- An OS that refuses everything. -/
def refuse : Oracle := fun _ _ => false

/-- Channel 2 watches `/a/b` for Write; channel 1 watches `/a` for Write and fails; the same again returns nil. -/
def f1 : St := (watchOp F .ok init [a, b] false 2 W).1
def f2 : St := (watchOp F noMove f1 [a] false 1 W).1
def f3 : St := (watchOp F .ok f2 [a] false 1 W).1
theorem fstep1 : RStep F true init (.watch [a, b] false 2 W true) f1 := RStep.watch (O := .ok) good_ab uW
theorem fstep2 : RStep F true f1 (.watch [a] false 1 W false) f2 := RStep.watch (O := noMove) good_a uW
theorem fstep3 : RStep F true f2 (.watch [a] false 1 W true) f3 := RStep.watch (O := .ok) good_a uW
theorem fhist1 : RHist F true [.watch [a, b] false 2 W true] f1 := RSteps.nil.snoc fstep1

/-- Channel 1 watches `/a/...` for Write three times: the OS refuses the new watch, then refuses the move of a
watch it does not have, then nothing is asked of it. -/
def g1 : St := (watchOp F refuse init [a] true 1 W).1
def g2 : St := (watchOp F noMove g1 [a] true 1 W).1
def g3 : St := (watchOp F .ok g2 [a] true 1 W).1
theorem gstep1 : RStep F true init (.watch [a] true 1 W false) g1 := RStep.watch (O := refuse) good_a uW
theorem gstep2 : RStep F true g1 (.watch [a] true 1 W false) g2 := RStep.watch (O := noMove) good_a uW
theorem gstep3 : RStep F true g2 (.watch [a] true 1 W true) g3 := RStep.watch (O := .ok) good_a uW

/-- Channel 1 watches `/a` for Write, channel 2 `/a/b` for Rename, failing once. -/
def t2 : St := (watchOp F refuse n1 [a, b] false 2 R).1
def t3 : St := (watchOp F .ok t2 [a, b] false 2 R).1
theorem tstep2 : RStep F true n1 (.watch [a, b] false 2 R false) t2 := RStep.watch (O := refuse) good_ab uR
theorem tstep3 : RStep F true t2 (.watch [a, b] false 2 R true) t3 := RStep.watch (O := .ok) good_ab uR
end Ex

/-- Non-trivial case of the partial theorem: the failed Watch is nested below a working one. -/
example : SafeHist Ex.F [.watch [Ex.a] false 1 Ex.W true] Ex.n1 ∧
    RStep Ex.F true Ex.n1 (.watch [Ex.a, Ex.b] false 2 Ex.R false) Ex.t2 ∧
    RStep Ex.F true Ex.t2 (.watch [Ex.a, Ex.b] false 2 Ex.R true) Ex.t3 ∧ osRec Ex.n1.world.log [Ex.a] ≠ none ∧
    osRec Ex.t3.world.log [Ex.a] = some (Ex.W ||| Ex.R, true) :=
  ⟨(watchOnly_safe Ex.hF Ex.nhist1 (by simp [ROp.isWatch])).1, Ex.tstep2, Ex.tstep3, by decide, by decide⟩

/-- **C28 is false** of the code: with an OS watch on `/a/b` only, a Watch of `/a` fails because the OS
refuses to move that watch up; the same Watch made again returns nil, makes no OS call, and the OS still
watches `/a/b` only. -/
theorem C28_refuted_adopt : ∃ ops s s1 s2 p c e, SafeHist Ex.F ops s ∧ SafeWatch (rregOf ops) s.world.log p ∧
    RStep Ex.F true s (.watch p false c e false) s1 ∧ RStep Ex.F true s1 (.watch p false c e true) s2 ∧
    s2.world.log = s1.world.log ∧ ∀ t, t <+: p → osRec s2.world.log t = none := by
  have h := watchOnly_safe Ex.hF Ex.fhist1 (by simp [ROp.isWatch])
  refine ⟨_, Ex.f1, Ex.f2, Ex.f3, [Ex.a], 1, Ex.W, h.1, .inr fun x _ hx => h.2 x hx, Ex.fstep2, Ex.fstep3, by decide, ?_⟩
  intro t ht
  have hl : Ex.f3.world.log = [(.recRewatch [Ex.a, Ex.b] [Ex.a] Ex.W Ex.W, false), (.watch [Ex.a, Ex.b] Ex.W, true)] := by decide
  rw [hl]
  have hne : t ≠ [Ex.a, Ex.b] := by
    rintro rfl
    have := ht.length_le
    simp at this
  simp [osRec, hne]

/-- **C28 is false** of the code also without any other watchpoint: a recursive Watch that fails leaves the
channel's recursive mark behind; the second attempt takes this for a watch below the path and asks the OS to
move it; when the OS refuses (it has no such watch), a total is left behind and the third attempt returns nil
without asking the OS for anything. -/
theorem C28_refuted_recursive : ∃ s1 s2 s3 p c e, RStep Ex.F true init (.watch p true c e false) s1 ∧
    RStep Ex.F true s1 (.watch p true c e false) s2 ∧ RStep Ex.F true s2 (.watch p true c e true) s3 ∧
    s3.world.log = [(.recRewatch p p e e, false), (.recWatch p e, false)] ∧ ∀ t, osRec s3.world.log t = none := by
  have hl : Ex.g3.world.log = [(.recRewatch [Ex.a] [Ex.a] Ex.W Ex.W, false), (.recWatch [Ex.a] Ex.W, false)] := by decide
  refine ⟨Ex.g1, Ex.g2, Ex.g3, [Ex.a], 1, Ex.W, Ex.gstep1, Ex.gstep2, Ex.gstep3, hl, ?_⟩
  intro t; rw [hl]; simp [osRec]

/-! ### Registrations below an OS watch -/

/-- **C45, partial.**  After a harmless history, a successful Watch finds or makes an OS watch at or above the
path that includes the events; if it is strictly above the path then it is recursive, unless it was there
before with all the events and the Watch made no OS call.  Missing: that case (`C45_refuted`). -/
theorem C45_nested_partial (hP : P.Facts) {ops : List ROp} {s s' : St} (h : SafeHist P ops s) {p : Path} {isrec : Bool}
    {c : Nat} {e : Event} (hs : RStep P true s (.watch p isrec c e true) s') (hsafe : SafeWatch (rregOf ops) s.world.log p) :
    ∃ t E f, t <+: p ∧ osRec s'.world.log t = some (E, f) ∧ e ⊑ E ∧
      (t ≠ p → f = true ∨ (s'.world.log = s.world.log ∧ osRec s.world.log t = some (E, false))) := by
  have hnew := h.snoc hs ⟨rfl, hsafe⟩
  have hm := (C26_mirror_partial hP hnew).1
  obtain ⟨O, hp, he, hres, rfl⟩ := hs.watch_inv
  have hsync := h.sync hP
  have hr := RHist.refines hP h.hist.1 h.hist.2
  obtain ⟨hn, hback, _⟩ := hsync.watch hP O hp.2 isrec c he (safeWatch_solid hsync hr hp.2 hsafe) hres.symm
  have hreg : ∃ E f, rregOf (ops ++ [.watch p isrec c e true]) c p = some (E, f) ∧ e ⊑ E := by
    rw [rregOf_snoc]
    simp only [rregStep, if_true, Reg.watch, and_self]
    split
    · exact ⟨e, isrec, rfl, Event.Sub.refl _⟩
    · exact ⟨_, _, rfl, Event.sub_or_right _ _⟩
  obtain ⟨E, f, hE, hEe⟩ := hreg
  obtain ⟨t, E', f', h1, h2, h3⟩ := mirror_covered hm c p E f hE
  refine ⟨t, E', f', h1, h2, hEe.trans h3, fun hne => ?_⟩
  rcases hback with hlog | ⟨q, E'', f'', h4, h5, h6⟩
  · cases f' with
    | true => exact .inl rfl
    | false => exact .inr ⟨hlog, by rw [← hlog]; exact h2⟩
  · have ht := ((hn.top_iff t).1 (by rw [h2]; simp)).unique ((hn.top_iff q).1 (by rw [h5]; simp)) h1 h4
    subst ht
    rw [h2] at h5
    simp only [Option.some.injEq, Prod.mk.injEq] at h5
    exact .inl (h5.2.trans (h6 (.inr hne)))

namespace Ex
/-- Channel 1 watches `/a` for Write, then channel 2 `/a/b` for Write. -/
def m2 : St := (watchOp F .ok n1 [a, b] false 2 W).1
theorem mstep2 : RStep F true n1 (.watch [a, b] false 2 W true) m2 := RStep.watch (O := .ok) good_ab uW
end Ex

/-- Non-trivial case: channel 2 asks for another event, and the watch on `/a` is made recursive. -/
example : SafeHist Ex.F [.watch [Ex.a] false 1 Ex.W true] Ex.n1 ∧
    RStep Ex.F true Ex.n1 (.watch [Ex.a, Ex.b] false 2 Ex.R true) Ex.n2 ∧
    SafeWatch (rregOf [.watch [Ex.a] false 1 Ex.W true]) Ex.n1.world.log [Ex.a, Ex.b] ∧
    osRec Ex.n2.world.log [Ex.a] = some (Ex.W ||| Ex.R, true) :=
  ⟨(watchOnly_safe Ex.hF Ex.nhist1 (by simp [ROp.isWatch])).1, Ex.nstep2, .inl ⟨[Ex.a], by decide, by decide⟩, by decide⟩

/-- **C45 is false** of the code: channel 1 watches the directory `/a` for Write, then channel 2 the directory
`/a/b` for Write; both return nil and the only OS watch is the non-recursive one on `/a`, which says nothing
about the files in `/a/b`. -/
theorem C45_refuted : ∃ ops s s' p c e, SafeHist Ex.F ops s ∧ SafeWatch (rregOf ops) s.world.log p ∧
    RStep Ex.F true s (.watch p false c e true) s' ∧
    ∀ t E f, osRec s'.world.log t = some (E, f) → t <+: p ∧ t ≠ p ∧ f = false := by
  refine ⟨_, Ex.n1, Ex.m2, [Ex.a, Ex.b], 2, Ex.W, (watchOnly_safe Ex.hF Ex.nhist1 (by simp [ROp.isWatch])).1,
    .inl ⟨[Ex.a], by decide, by decide⟩, Ex.mstep2, ?_⟩
  have hl : Ex.m2.world.log = [(.watch [Ex.a] Ex.W, true)] := by decide
  intro t E f h
  rw [hl] at h
  by_cases ht : t = [Ex.a]
  · subst ht; simp [osRec] at h; exact ⟨by decide, by decide, h.2⟩
  · simp [osRec, ht] at h

end Rec
end Verif
