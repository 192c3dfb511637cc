/-
The OS watches of the recursive tree in histories with mistaken calls: as long as every Watch returns nil, each
of them is on a topmost path of the bookkeeping, so that Stop finds it.
-/
import Verif.PropsRecSync

namespace Verif
namespace Rec
open GoMap NonRec Spec

variable {P : Platform}

/-- The watcher answers truthfully: it removes a watch if and only if it has it, and changes only watches that
it has.  (It may refuse to set or to change one.) -/
def Honest : Log → Prop
  | [] => True
  | (c, ok) :: l => Honest l ∧
    match c with
    | .unwatch p | .recUnwatch p => ok = true ↔ osRec l p ≠ none
    | .rewatch p _ _ | .recRewatch p _ _ _ => ok = true → osRec l p ≠ none
    | _ => True

/-- Every OS watch is on a topmost path of the bookkeeping. -/
structure Tidy (P : Platform) (s : St) : Prop where
  book : Book P s.root
  os : ∀ q, osRec s.world.log q ≠ none → Top P s.root q

/-- Watch of a path at or below a topmost watched one. -/
theorem Tidy.under (O : Oracle) {s : St} (h : Tidy P s) {q p : Path} (hp : [] ∉ p) (hqp : q <+: p)
    (hq : Top P s.root q) (hg : s.root.get? p ≠ none) (isrec : Bool) (c : Nat) {E : Event} (hE : Storable P E)
    (hres : (watchUnder P O s q p isrec c E).2 = true) (hh : Honest (watchUnder P O s q p isrec c E).1.world.log) :
    Tidy P (watchUnder P O s q p isrec c E).1 := by
  have hbk := h.book
  have hok := hbk.ok
  have hgq : s.root.get? q ≠ none := tot_ne_find hq.2.1
  have hrn : ∀ r, RN P (watchAt s.root r) := fun r => ROK.watchAt hok (RN.nil P) r
  have hok1 : ROK (RN P) (regAt P s.root q p c E) := regAt_ok hok hq.1 ((hrn _).add c hE)
  have hw1 := fun r => regAt_watchAt (P := P) hok (p := p) hq.1 hgq c E r
  have hg1 : (regAt P s.root q p c E).get? p ≠ none := regAt_get hok hq.1 hg
  have hrn1 : ∀ r, RN P (watchAt (regAt P s.root q p c E) r) := fun r => ROK.watchAt hok1 (RN.nil P) r
  have hok2 : ROK (RN P) (addAt P (regAt P s.root q p c E) p c E) := addAt_ok hok1 hp ((hrn1 _).add c hE)
  have hval : ∀ (w : WP) d, (w.add P (.user c) E).1.val (.user d) = if d = c then w.val (.user d) ||| E else w.val (.user d) := by
    intro w d
    rw [WP.val, get_add_user]
    split
    · next hd => subst hd; rfl
    · rfl
  have hu1 : ∀ r d, uset (regAt P s.root q p c E) r d =
      if d = c ∧ r = slot q p then uset s.root r d ||| E else uset s.root r d := by
    intro r d
    unfold uset
    rw [hw1 r]
    by_cases hr : r = slot q p
    · subst hr; rw [if_pos rfl, hval]; simp
    · simp [hr]
  have hu2 : ∀ r d, uset (addAt P (regAt P s.root q p c E) p c E) r d =
      if d = c ∧ (r = p ∨ r = slot q p) then uset s.root r d ||| E else uset s.root r d := by
    intro r d
    have h2 : uset (addAt P (regAt P s.root q p c E) p c E) r d =
        if d = c ∧ r = p then uset (regAt P s.root q p c E) r d ||| E else uset (regAt P s.root q p c E) r d := by
      unfold uset
      rw [addAt_watchAt hg1]
      by_cases hr : r = p
      · subst hr; rw [if_pos rfl, hval]; simp
      · simp [hr]
    rw [h2, hu1]
    generalize uset s.root r d = x
    generalize slot q p = y
    by_cases hd : d = c
    · by_cases hr : r = p
      · rw [if_pos ⟨hd, hr⟩, if_pos (⟨hd, .inl hr⟩ : d = c ∧ (r = p ∨ r = y))]
        split
        · rw [BitVec.or_assoc, BitVec.or_self]
        · rfl
      · simp [hr]
    · simp [hd]
  have hroot : ∀ root', root' = addAt P (regAt P s.root q p c E) p c E ∨ (q = p ∧ root' = regAt P s.root q p c E) →
      ROK (RN P) root' ∧ ∀ r d, uset root' r d =
        if d = c ∧ (r = p ∨ r = slot q p) then uset s.root r d ||| E else uset s.root r d := by
    rintro root' (rfl | ⟨rfl, rfl⟩)
    · exact ⟨hok2, hu2⟩
    · refine ⟨hok1, fun r d => ?_⟩
      rw [hu1]; simp [slot]
  have hname := regNode_name (P := P) hok hq.1 hgq p c E
  rw [watchUnder_eq P O s q p isrec c E hq.2.1] at hres hh ⊢
  split at hres
  · next hsub =>
    rw [if_pos hsub] at hh ⊢
    simp only at hh ⊢
    generalize hroot' : (if q = p then regAt P s.root q p c E else addAt P (regAt P s.root q p c E) p c E) = root'
    have hr := hroot root' (by
      rw [← hroot']
      by_cases hqe : q = p
      · right; exact ⟨hqe, by simp [hqe]⟩
      · left; simp [hqe])
    obtain ⟨hb, _, hT, _⟩ := hbk.under hr.1 hq hqp hp hr.2
    exact ⟨hb, fun r hr' => (hT r).2 (h.os r hr')⟩
  · next hsub =>
    split at hres
    · next hO =>
      rw [if_neg hsub, if_pos hO] at hh ⊢
      obtain ⟨hb, _, hT, _⟩ := hbk.under hok2 hq hqp hp hu2
      refine ⟨hb, fun r hr' => (hT r).2 ?_⟩
      simp only [World.exec, hO] at hr'
      by_cases hrq : r = q
      · rw [hrq]; exact hq
      · refine h.os r ?_
        intro h0
        apply hr'
        unfold underCall
        simp only [hname]
        by_cases hrec : (isrec || watchIsRecursive P (regNode P s.root q p c E)) = true
        · rw [if_pos hrec]; simp [osRec, hrq, h0]
        · rw [if_neg hrec]; simp [osRec, hrq, h0]
    · simp at hres

/-! ### Watch of a new topmost path -/

theorem unwatchAll_honest (O : Oracle) {Q : WP → Prop} {root : Node} (hok : ROK Q root) {p : Path} (hp : [] ∉ p) :
    ∀ (rs : List Path) (w : World), (∀ r ∈ rs, [] ∉ r ∧ root.get? (p ++ r) ≠ none) →
    (unwatchAll P O root p rs w).2 = true → Honest (unwatchAll P O root p rs w).1.log →
    Honest w.log ∧ ∀ r ∈ rs, osRec w.log (p ++ r) ≠ none
  | [], w, _, _, hh => ⟨hh, by simp⟩
  | r :: rs, w, hr, hres, hh => by
    obtain ⟨hr1, hr2⟩ := hr r (by simp)
    have hname : (nodeAt root (p ++ r)).name = p ++ r := nodeAt_name hok (by simp [hp, hr1]) hr2
    simp only [unwatchAll, hname, Bool.and_eq_true] at hres hh
    obtain ⟨hO, hrest⟩ := hres
    have ih := unwatchAll_honest O hok hp rs _ (fun r' hr' => hr r' (by simp [hr'])) hrest hh
    have hstep : ∀ x, osRec (w.exec O (if watchIsRecursive P (nodeAt root (p ++ r)) then Call.recUnwatch (p ++ r)
        else Call.unwatch (p ++ r))).1.log x = if x = p ++ r then none else osRec w.log x := by
      intro x
      simp only [World.exec] at hO ⊢
      rw [hO]
      split <;> simp [osRec]
    have hhd := ih.1
    simp only [World.exec] at hhd hO
    refine ⟨hhd.1, fun r' hr' => ?_⟩
    rcases List.mem_cons.1 hr' with rfl | hr'
    · have := hhd.2
      rw [hO] at this
      by_cases hw : watchIsRecursive P (nodeAt root (p ++ r')) = true
      · simp only [hw, if_true] at this
        exact this.1 trivial
      · simp only [hw, if_false] at this
        exact this.1 trivial
    · have := ih.2 r' hr'
      rw [hstep] at this
      split at this
      · exact absurd rfl this
      · exact this

theorem first_prefix (φ : Path → Prop) {x : Path} (hx : φ x) : ∃ t, t <+: x ∧ φ t ∧ ∀ t', t' <+: t → t' ≠ t → ¬ φ t' := by
  generalize hn : x.length = n
  induction n using Nat.strongRecOn generalizing x with
  | _ n ih =>
    by_cases h : ∃ t', t' <+: x ∧ t' ≠ x ∧ φ t'
    · obtain ⟨t', h1, h2, h3⟩ := h
      have hlt : t'.length < n := by
        rw [← hn]
        rcases Nat.lt_or_ge t'.length x.length with h4 | h4
        · exact h4
        · exact absurd (h1.eq_of_length (Nat.le_antisymm h1.length_le h4)) h2
      obtain ⟨t, h5, h6, h7⟩ := ih _ hlt h3 rfl
      exact ⟨t, h5.trans h1, h6, h7⟩
    · exact ⟨x, List.prefix_rfl, hx, fun t' h1 h2 h3 => h ⟨t', h1, h2, h3⟩⟩

/-- If every child found is a topmost path, every topmost path below has a watchpoint of its own. -/
theorem Book.solid (hP : P.Facts) {root : Node} (h : Book P root) {p : Path} (hp : [] ∉ p)
    (htops : ∀ r ∈ (nodeAt root p).tops, Top P root (p ++ r)) :
    ∀ x, p <+: x → Top P root x → watchAt root x ≠ [] := by
  intro x hpx hT h0
  have hu0 := (watchAt_nil_iff hP h.ok x).1 h0
  obtain ⟨d, i, hb⟩ : ∃ d i, BitVec.getLsbD (uset root (x ++ [[]]) d) i = true := by
    by_contra hn
    push Not at hn
    apply hT.2.1
    rw [tot_eq_zero h.ok]
    intro d
    refine ⟨hu0 d, ?_⟩
    rw [Event.bext]
    intro i
    have := hn d i
    simpa using this
  obtain ⟨y, hxy, hne, hy, hby⟩ := h.sub x d i hT.1 hb
  have hwy : watchAt root y ≠ [] := by
    intro hc
    rw [(watchAt_nil_iff hP h.ok y).1 hc d] at hby
    simp at hby
  obtain ⟨ry, rfl⟩ := hpx.trans hxy
  obtain ⟨t, h1, h2, h3⟩ := first_prefix (fun t => watchAt root (p ++ t) ≠ []) hwy
  have hmem : t ∈ (nodeAt root p).tops := by
    rw [mem_tops_at h.ok hp]
    refine ⟨fun hc => hy (by simp [h1.subset hc]), h2, fun t' h4 h5 => ?_⟩
    by_contra hc
    exact h3 t' h4 h5 hc
  have := (htops t hmem).unique hT ((List.prefix_append_right_inj p).2 h1) hxy
  exact h2 (this ▸ h0)

theorem watchTop_many (O : Oracle) (s : St) (p : Path) (isrec : Bool) (c : Nat) (E : Event)
    (h1 : (nodeAt s.root p).tops ≠ []) (h2 : ∀ r, (nodeAt s.root p).tops ≠ [r]) :
    watchTop P O s p isrec c E =
      (let s2 := copyAll P p (nodeAt s.root p).tops { s with root := addAt P s.root p c E }
      let x := s2.world.exec O (.recWatch (nodeAt s2.root p).name (watchTotal P (nodeAt s2.root p)))
      if x.2 then
        let y := unwatchAll P O s2.root p (nodeAt s.root p).tops x.1
        ({ s2 with world := y.1 }, y.2)
      else ({ root := s2.root.update p (clean c), world := x.1 }, false)) := by
  unfold watchTop
  split
  · next h3 => exact absurd h3 h1
  · next h3 => exact absurd h3 (h2 _)
  · rfl

theorem Tidy.solid (hP : P.Facts) (O : Oracle) {s : St} (h : Tidy P s) {p : Path} (hp : [] ∉ p)
    (hnone : ∀ t, t <+: p → tot P s.root t = 0) (hg : s.root.get? p ≠ none) (isrec : Bool) (c : Nat) {E : Event}
    (hE : Storable P E) (hres : (watchTop P O s p isrec c E).2 = true)
    (hh : Honest (watchTop P O s p isrec c E).1.world.log) :
    ∀ x, p <+: x → Top P s.root x → watchAt s.root x ≠ [] := by
  have hok := h.book.ok
  refine h.book.solid hP hp ?_
  have hrn : ∀ r, RN P (watchAt s.root r) := fun r => ROK.watchAt hok (RN.nil P) r
  have hok1 : ROK (RN P) (addAt P s.root p c E) := addAt_ok hok hp ((hrn _).add c hE)
  have hw1 := fun r => addAt_watchAt (P := P) hg c E r
  have hg1 : (addAt P s.root p c E).get? p ≠ none := addAt_get hg
  have htp : tot P s.root p = 0 := hnone p (List.prefix_refl _)
  have hwp : watchAt s.root p = [] := (watchAt_nil_iff hP hok p).2 fun d => ((tot_eq_zero hok p).1 htp d).1
  have hrs0 : ∀ r ∈ (nodeAt s.root p).tops, r ≠ [] ∧ [] ∉ r ∧ watchAt (addAt P s.root p c E) (p ++ r) ≠ [] := by
    intro r hr
    obtain ⟨a1, a2, _⟩ := (mem_tops_at hok hp r).1 hr
    have hr0 : r ≠ [] := by
      rintro rfl
      rw [List.append_nil] at a2; exact a2 hwp
    refine ⟨hr0, a1, ?_⟩
    rw [hw1, if_neg (by simpa using hr0)]
    exact a2
  have hcp := copyAll_spec (s := { s with root := addAt P s.root p c E }) hp (nodeAt s.root p).tops hok1 hg1 hrs0
  generalize hs2 : copyAll P p (nodeAt s.root p).tops { s with root := addAt P s.root p c E } = s2 at hcp
  obtain ⟨hok2, hg2, hw2, hworld, -⟩ := hcp
  simp only at hw2 hworld
  have hgr : ∀ r ∈ (nodeAt s.root p).tops, s2.root.get? (p ++ r) ≠ none := by
    intro r hr
    apply find_ne_of_watchAt
    have hpr : [] ∉ p ++ r := by simp [hp, (hrs0 r hr).2.1]
    rw [hw2 _ (append_ne_inactive hpr).symm]
    exact (hrs0 r hr).2.2
  unfold watchTop at hres hh
  split at hres
  · next ht => intro r hr; rw [ht] at hr; simp at hr
  · next r ht =>
    simp only [ht] at hh
    rw [ht] at hs2 hrs0 hgr
    simp only [hs2] at hres hh
    have hnm : (nodeAt s2.root (p ++ r)).name = p ++ r :=
      nodeAt_name hok2 (by simp [hp, (hrs0 r (by simp)).2.1]) (hgr r (by simp))
    generalize hcall : Call.recRewatch (nodeAt s2.root (p ++ r)).name (nodeAt s2.root p).name
      (watchTotal P (nodeAt s2.root (p ++ r))) (watchTotal P (nodeAt s2.root p)) = call at *
    have hO : O s2.world.log call = true := by
      rcases Bool.eq_false_or_eq_true (O s2.world.log call) with hx | hx
      · exact hx
      · simp [World.exec, hx] at hres
    simp only [World.exec, hO, if_true] at hh
    have h2 := hh.2
    rw [← hcall] at h2
    simp only [hnm] at h2
    intro r' hr'
    rw [ht] at hr'
    rw [List.mem_singleton] at hr'
    subst hr'
    have := h2 trivial
    rw [hworld] at this
    exact h.os _ this
  · next h1 h2 =>
    have hm := watchTop_many (P := P) O s p isrec c E h1 h2
    rw [hs2] at hm
    unfold watchTop at hm
    rw [hm] at hh
    simp only [hs2] at hres
    simp only at hh
    generalize hcall : Call.recWatch (nodeAt s2.root p).name (watchTotal P (nodeAt s2.root p)) = call at *
    have hO : O s2.world.log call = true := by
      rcases Bool.eq_false_or_eq_true (O s2.world.log call) with hx | hx
      · exact hx
      · simp [World.exec, hx] at hres
    simp only [World.exec, hO, if_true] at hres hh
    have hu := unwatchAll_honest (P := P) O hok2 hp _ _ (fun r hr => ⟨(hrs0 r hr).2.1, hgr r hr⟩) hres hh
    intro r hr
    have := hu.2 r hr
    simp only at this
    refine h.os _ ?_
    have hne : p ++ r ≠ p := by simpa using (hrs0 r hr).1
    rw [← hcall, nodeAt_name hok2 hp hg2] at this
    simp only [osRec, Bool.not_true, Bool.false_eq_true, if_false, if_neg hne] at this
    rw [hworld] at this
    exact this

/-- Watch of a path that is not below any watched one. -/
theorem Tidy.over (hP : P.Facts) (O : Oracle) {s : St} (h : Tidy P s) {p : Path} (hp : [] ∉ p)
    (hnone : ∀ t, t <+: p → tot P s.root t = 0) (hg : s.root.get? p ≠ none) (isrec : Bool) (c : Nat) {E : Event}
    (hE : Storable P E) (hres : (watchTop P O s p isrec c E).2 = true)
    (hh : Honest (watchTop P O s p isrec c E).1.world.log) :
    Tidy P (watchTop P O s p isrec c E).1 := by
  have hbk := h.book
  have hsolid := h.solid hP O hp hnone hg isrec c hE hres hh
  have hok := hbk.ok
  have hrn : ∀ r, RN P (watchAt s.root r) := fun r => ROK.watchAt hok (RN.nil P) r
  have hok1 : ROK (RN P) (addAt P s.root p c E) := addAt_ok hok hp ((hrn _).add c hE)
  have hw1 := fun r => addAt_watchAt (P := P) hg c E r
  have hg1 : (addAt P s.root p c E).get? p ≠ none := addAt_get hg
  have hu1 : ∀ r d, uset (addAt P s.root p c E) r d = if d = c ∧ r = p then uset s.root r d ||| E else uset s.root r d := by
    intro r d
    unfold uset
    rw [hw1 r]
    by_cases hr : r = p
    · subst hr; rw [if_pos rfl, WP.val, get_add_user]
      by_cases hd : d = c
      · subst hd; simp
      · simp [hd, WP.val]
    · simp [hr]
  have htp : tot P s.root p = 0 := hnone p (List.prefix_refl _)
  have hpT : ¬ Top P s.root p := fun hc => hc.2.1 htp
  have htops := hbk.tops_iff hP hp hnone hsolid
  have hnd := nodup_tops_at hok hp
  -- facts about the children found
  have hrs0 : ∀ r ∈ (nodeAt s.root p).tops, r ≠ [] ∧ [] ∉ r ∧ watchAt (addAt P s.root p c E) (p ++ r) ≠ [] := by
    intro r hr
    have hT := (htops r).1 hr
    have hr0 : r ≠ [] := by
      rintro rfl
      rw [List.append_nil] at hT; exact hpT hT
    refine ⟨hr0, ((mem_tops_at hok hp r).1 hr).1, ?_⟩
    rw [hw1, if_neg (by simpa using hr0)]
    exact ((mem_tops_at hok hp r).1 hr).2.1
  have hcp := copyAll_spec (s := { s with root := addAt P s.root p c E }) hp (nodeAt s.root p).tops hok1 hg1 hrs0
  generalize hs2 : copyAll P p (nodeAt s.root p).tops { s with root := addAt P s.root p c E } = s2 at hcp
  obtain ⟨hok2, hg2, hw2, hworld, hin⟩ := hcp
  simp only at hw2 hworld hin
  have hu2 : ∀ r d, r ≠ p ++ [[]] → uset s2.root r d = if d = c ∧ r = p then uset s.root r d ||| E else uset s.root r d := by
    intro r d hr
    rw [← hu1]; unfold uset; rw [hw2 r hr]
  have hin2 : ∀ d i, BitVec.getLsbD (uset s2.root (p ++ [[]]) d) i = true ↔ Below s.root p d i := by
    intro d i
    rw [hin, hbk.below_iff hnone]
    have e0 : uset (addAt P s.root p c E) (p ++ [[]]) d = 0 := by
      rw [hu1, if_neg (fun hc => append_ne_inactive hp hc.2)]
      exact ((tot_eq_zero hok p).1 htp d).2
    rw [e0]
    constructor
    · rintro (hb | ⟨r, hr, hb⟩)
      · simp at hb
      · have hr0 := (hrs0 r hr).1
        have hr1 := (hrs0 r hr).2.1
        rw [hu1, if_neg (by rintro ⟨-, hc⟩; simp at hc; exact hr0 hc), hu1, if_neg (fun hc => append_ne_inactive hp hc.2)] at hb
        exact ⟨r, (htops r).1 hr, hb⟩
    · rintro ⟨r, hT, hb⟩
      have hr := (htops r).2 hT
      have hr0 := (hrs0 r hr).1
      refine .inr ⟨r, hr, ?_⟩
      rw [hu1, if_neg (by rintro ⟨-, hc⟩; simp at hc; exact hr0 hc), hu1, if_neg (fun hc => append_ne_inactive hp hc.2)]
      exact hb
  obtain ⟨hb, hT, hto⟩ := hbk.over hok2 hp hnone hE hu2 hin2
  have htp2 : tot P s2.root p ≠ 0 := ((hT p).2 (.inl rfl)).2.1
  have hname2 : ∀ x, [] ∉ x → watchAt s2.root x ≠ [] → (nodeAt s2.root x).name = x :=
    fun x hx hw => nodeAt_name hok2 hx (find_ne_of_watchAt hw)
  have hnamep : (nodeAt s2.root p).name = p := nodeAt_name hok2 hp hg2
  have hlog : s2.world = s.world := hworld
  have hfin : ∀ (w : World) (f : Bool), (∀ x, osRec w.log x = if x = p then some (tot P s2.root p, f)
      else if ∃ r ∈ (nodeAt s.root p).tops, x = p ++ r then none else osRec s.world.log x) →
      Tidy P { root := s2.root, world := w } := by
    intro w f hos
    refine ⟨hb, fun x hx => (hT x).2 ?_⟩
    by_cases hxp : x = p
    · exact .inl hxp
    · right
      simp only at hx
      rw [hos, if_neg hxp] at hx
      split at hx
      · exact absurd rfl hx
      · next hr =>
        have hTx := h.os x hx
        refine ⟨hTx, ?_⟩
        rintro ⟨r, rfl⟩
        exact hr ⟨r, (htops r).2 hTx, rfl⟩
  unfold watchTop at hres hh ⊢
  split at hres
  · next ht =>
    rw [ht] at hs2 hfin
    simp only [ht] at hh ⊢
    simp only [copyAll] at hs2
    simp only [selfAt_eq] at hres hh ⊢
    have hnm : (watchAdd P (nodeAt s.root p) (.user c) E).1.name = p := by
      rw [watchAdd_name]; exact nodeAt_name hok hp hg
    have hdiff : (watchAdd P (nodeAt s.root p) (.user c) E).2 = (0, E &^ P.internal) := by
      rw [watchAdd_diff, watchTotal_nodeAt, htp]
      have h0 : (0 : Event) ||| (E &^ P.internal) = E &^ P.internal := BitVec.zero_or
      rw [h0]
      exact diffOf_ne (Ne.symm hE.ne)
    have htot2 : tot P s2.root p = E &^ P.internal := by
      rw [← hs2, ← watchTotal_nodeAt, watchTotal_eq]
      rw [watch_nodeAt, inact_nodeAt, hw1, hw1, if_pos rfl, if_neg (append_ne_inactive hp)]
      rw [total_add P _ (k := .user c) nofun]
      unfold tot at htp
      generalize WP.total P (watchAt s.root p) = a at *
      generalize WP.total P (watchAt s.root (p ++ [[]])) = b at *
      clear hu1 hin hu2 hin2 hdiff
      ebits
    have hdn : ¬ ((0, E &^ P.internal) = Diff.none) := by
      unfold Diff.none
      intro hc
      exact hE.ne (congrArg Prod.snd hc)
    simp only [hdiff, hnm, if_neg hdn, if_true] at hres ⊢
    generalize hcall : (if isrec = true then Call.recWatch p (E &^ P.internal) else Call.watch p (E &^ P.internal)) = call at *
    have hO : O s.world.log call = true := by
      rcases Bool.eq_false_or_eq_true (O s.world.log call) with hx | hx
      · exact hx
      · simp [World.exec, hx] at hres
    simp only [World.exec, hO, if_true]
    have := hfin { log := (call, true) :: s.world.log, panicked := s.world.panicked } isrec ?_
    · rw [← hs2] at this; exact this
    · intro x
      rw [← hcall, htot2]
      cases isrec <;> simp [osRec]
  · next r ht =>
    rw [ht] at hs2 hfin htops hrs0
    simp only [ht]
    simp only [hs2] at hres ⊢
    have hTr := (htops r).1 (by simp)
    obtain ⟨hr0, hr1, hr2⟩ := hrs0 r (by simp)
    have hpr : p ++ r ≠ p := by simpa using hr0
    have hwr : watchAt s2.root (p ++ r) ≠ [] := by rw [hw2 _ (append_ne_inactive hTr.1).symm]; exact hr2
    simp only [hname2 _ hTr.1 hwr, hnamep, watchTotal_nodeAt, hto _ hTr.1 hpr, hlog] at hres ⊢
    have hO : O s.world.log (.recRewatch (p ++ r) p (tot P s.root (p ++ r)) (tot P s2.root p)) = true := by
      rcases Bool.eq_false_or_eq_true (O s.world.log (.recRewatch (p ++ r) p (tot P s.root (p ++ r)) (tot P s2.root p))) with hx | hx
      · exact hx
      · simp [World.exec, hx] at hres
    simp only [World.exec, hO, if_true]
    refine hfin _ true ?_
    intro x
    simp [osRec]
  · next h1 h2 =>
    simp only [hs2, hnamep, watchTotal_nodeAt, hlog] at hres ⊢
    have hO : O s.world.log (.recWatch p (tot P s2.root p)) = true := by
      rcases Bool.eq_false_or_eq_true (O s.world.log (.recWatch p (tot P s2.root p))) with hx | hx
      · exact hx
      · simp [World.exec, hx] at hres
    simp only [World.exec, hO, if_true] at hres ⊢
    have hTr : ∀ r ∈ (nodeAt s.root p).tops, Top P s.root (p ++ r) := fun r hr => (htops r).1 hr
    have hun := unwatchAll_os (P := P) O hok2 hp (nodeAt s.root p).tops
      { log := (.recWatch p (tot P s2.root p), true) :: s.world.log, panicked := s.world.panicked } hnd ?_ hres
    · refine hfin _ true ?_
      intro x
      rw [hun.1]
      simp only [osRec]
      by_cases hx : x = p
      · subst hx
        rw [if_neg]
        · simp
        · rintro ⟨r, hr, hc⟩
          exact (hrs0 r hr).1 (by simpa using hc)
      · simp [hx]
    · intro r hr
      refine ⟨(hrs0 r hr).2.1, ?_⟩
      apply find_ne_of_watchAt
      rw [hw2 _ (append_ne_inactive (hTr r hr).1).symm]
      exact (hrs0 r hr).2.2

/-- Every successful Watch of a truthful watcher keeps the invariant. -/
theorem Tidy.watch (hP : P.Facts) (O : Oracle) {s : St} (h : Tidy P s) {p : Path} (hp : [] ∉ p)
    (isrec : Bool) (c : Nat) {e : Event} (he : UserEvents P e) (hres : (watchOp P O s p isrec c e).2 = true)
    (hh : Honest (watchOp P O s p isrec c e).1.world.log) : Tidy P (watchOp P O s p isrec c e).1 := by
  have hadd : ∀ r, watchAt (s.root.add p) r = watchAt s.root r := watchAt_add s.root p
  have htot : ∀ r, tot P (s.root.add p) r = tot P s.root r := fun r => by simp [tot, hadd]
  have hTop : ∀ r, Top P (s.root.add p) r ↔ Top P s.root r := fun r => by simp [Top, htot]
  have hok : ROK (RN P) (s.root.add p) := Node.add_OK h.book.ok (RN.nil P) hp
  have hg := Node.add_get_ne_none s.root p
  have h0 : Tidy P { s with root := s.root.add p } :=
    ⟨(h.book.congr hok (fun r d => by simp [uset, hadd])).1, fun q hq => (hTop q).2 (h.os q hq)⟩
  have he' : watchOp P O s p isrec c e = match parentOf P s.root p with
    | some q => watchUnder P O { s with root := s.root.add p } q p isrec c (setOf P isrec e)
    | none => watchTop P O { s with root := s.root.add p } p isrec c (setOf P isrec e) := rfl
  rw [he'] at hres hh ⊢
  cases hq : parentOf P s.root p with
  | some q =>
    rw [hq] at hres hh
    obtain ⟨hqp, hqt, hqn⟩ := parentOf_some hq
    have hqT : Top P s.root q := ⟨fun hc => hp (hqp.subset hc), hqt, hqn⟩
    exact h0.under O hp hqp ((hTop q).2 hqT) hg isrec c (storable hP he isrec) hres hh
  | none =>
    rw [hq] at hres hh
    have hnone := parentOf_none hq
    exact h0.over hP O hp (fun t ht => by rw [htot]; exact hnone t ht) hg isrec c (storable hP he isrec) hres hh

/-! ### Stop -/

/-- A call of Stop removes the watch of its node, or changes it if there is one. -/
theorem stopCall_honest {nd : Node} {d : Diff} {l : Log} {ok : Bool} (h : Honest ((stopCall P nd d, ok) :: l)) :
    (∀ x, osRec ((stopCall P nd d, ok) :: l) x ≠ none → osRec l x ≠ none) ∧
    (d.2 = 0 → osRec ((stopCall P nd d, ok) :: l) nd.name = none) := by
  have h2 := h.2
  cases ok with
  | false =>
    refine ⟨fun x hx => by simpa [osRec] using hx, fun h0 => ?_⟩
    unfold stopCall at h2 ⊢
    rw [if_pos h0] at h2 ⊢
    by_cases hr : watchIsRecursive P nd = true
    · simp only [hr, if_true] at h2 ⊢
      simp only [osRec, Bool.not_false, if_true]
      by_contra hc
      exact absurd (h2.2 hc) (by simp)
    · simp only [hr, if_false] at h2 ⊢
      simp only [osRec, Bool.not_false, if_true]
      by_contra hc
      exact absurd (h2.2 hc) (by simp)
  | true =>
    unfold stopCall at h2 ⊢
    by_cases h0 : d.2 = 0
    · rw [if_pos h0]
      by_cases hr : watchIsRecursive P nd = true
      · simp only [hr, if_true]
        refine ⟨fun x hx => ?_, fun _ => by simp [osRec]⟩
        simp only [osRec, Bool.not_true, Bool.false_eq_true, if_false] at hx
        split at hx
        · exact absurd rfl hx
        · exact hx
      · simp only [hr, if_false]
        refine ⟨fun x hx => ?_, fun _ => by simp [osRec]⟩
        simp only [osRec, Bool.not_true, Bool.false_eq_true, if_false] at hx
        split at hx
        · exact absurd rfl hx
        · exact hx
    · rw [if_neg h0] at h2 ⊢
      refine ⟨fun x hx => ?_, fun hc => absurd hc h0⟩
      by_cases hr : watchIsRecursive P nd = true
      · simp only [hr, if_true] at hx h2
        by_cases hxn : x = nd.name
        · rw [hxn]; exact h2 trivial
        · simpa [osRec, hxn] using hx
      · simp only [hr, if_false] at hx h2
        by_cases hxn : x = nd.name
        · rw [hxn]; exact h2 trivial
        · simpa [osRec, hxn] using hx

theorem lostDiff_zero {x i : Event} (h : x ||| i ≠ 0) : lostDiff x 0 i 0 ≠ Diff.none ∧ (lostDiff x 0 i 0).2 = 0 := by
  unfold lostDiff
  by_cases hx : x = 0
  · rw [if_pos hx]
    have hi : i ≠ 0 := by
      rintro rfl
      apply h; rw [hx]; rfl
    rw [if_neg hi]
    exact ⟨fun hc => hi (congrArg Prod.fst hc), rfl⟩
  · rw [if_neg hx]
    have h0 : ¬ x ||| i = 0 ||| 0 := h
    rw [if_neg h0]
    exact ⟨fun hc => h (congrArg Prod.fst hc), rfl⟩

mutual
/-- The walk of Stop, with any outcomes of a truthful watcher: no OS watch appears, and the watch of a topmost path
without registrations left disappears. -/
theorem stopWalk_tidy (O : Oracle) {c : Nat} {n : Path} : (nd : Node) → (s : World) → nd.OK (RN P) (inR (RN P)) n →
    Honest (nd.stopWalk P O c s).1.log →
    Honest s.log ∧ (∀ x, osRec (nd.stopWalk P O c s).1.log x ≠ none → osRec s.log x ≠ none) ∧
    ∀ r, Top P nd r → (gone P (watchAt nd r) c).total P = 0 → (gone P (watchAt nd (r ++ [[]])) c).total P = 0 →
      osRec (nd.stopWalk P O c s).1.log (n ++ r) = none
  | .mk n' w ch, s, h, hh => by
    have hn : n' = n := h.name_eq
    subst hn
    have hv := stop_visits h c
    simp only [Node.stopWalk] at hh ⊢
    by_cases h0 : (watchDel P (Node.mk n' w ch) (.user c) allEvents).2 = Diff.none ∧
        watchTotal P (watchDel P (Node.mk n' w ch) (.user c) allEvents).1 = 0
    · rw [if_pos h0] at hh ⊢
      rw [hv] at h0
      have ih := stopWalkF_tidy O ch s h.child (c := c) hh
      refine ⟨ih.1, ih.2.1, fun r hr hx hi => ?_⟩
      cases r with
      | nil => rw [top_nil] at hr; exact absurd h0 hr
      | cons b r =>
        obtain ⟨-, hb, y, hy, hT⟩ := top_cons.1 hr
        rw [watchAt_cons_some hy] at hx
        rw [List.cons_append, watchAt_cons_some hy] at hi
        exact ih.2.2 b y r hy hb hT hx hi
    · rw [if_neg h0] at hh ⊢
      rw [hv] at h0
      have ha := inact_Q h (RN.nil P)
      have hd := watchDel_diff (c := c) ha
      rw [inact_eq_watchAt, watch_eq_watchAt] at hd
      have htop : ∀ r, Top P (.mk n' w ch) r → r = [] := by
        intro r
        cases r with
        | nil => exact fun _ => rfl
        | cons b r => rw [top_cons]; exact fun hc => absurd hc.1 h0
      have hname := watchDel_name (P := P) (.mk n' w ch) (.user c) allEvents
      generalize hres : watchDel P (Node.mk n' w ch) (.user c) allEvents = res at *
      simp only at hh ⊢
      by_cases hnone : res.2 = Diff.none
      · rw [if_pos hnone] at hh ⊢
        refine ⟨hh, fun _ hx => hx, fun r hr hx hi => ?_⟩
        rw [htop r hr] at hx hi
        rw [List.nil_append] at hi
        rw [hx, hi] at hd
        exact absurd (hd.symm.trans hnone) (lostDiff_zero h0).1
      · rw [if_neg hnone] at hh ⊢
        simp only [World.exec] at hh ⊢
        have hc := stopCall_honest hh
        refine ⟨hh.1, hc.1, fun r hr hx hi => ?_⟩
        rw [htop r hr] at hx hi
        rw [List.nil_append] at hi
        rw [hx, hi] at hd
        have := hc.2 (by rw [hd]; exact (lostDiff_zero h0).2)
        rw [htop r hr, List.append_nil]
        rw [hname] at this
        exact this
theorem stopWalkF_tidy (O : Oracle) {c : Nat} {n : Path} : (f : Forest) → (s : World) → f.OK (RN P) (inR (RN P)) n →
    Honest (f.stopWalk P O c s).1.log →
    Honest s.log ∧ (∀ x, osRec (f.stopWalk P O c s).1.log x ≠ none → osRec s.log x ≠ none) ∧
    ∀ b y r, f.get? b = some y → b ≠ [] → Top P y r → (gone P (watchAt y r) c).total P = 0 →
      (gone P (watchAt y (r ++ [[]])) c).total P = 0 → osRec (f.stopWalk P O c s).1.log (n ++ b :: r) = none
  | .nil, s, _, hh => by
    simp only [Forest.stopWalk] at hh ⊢
    exact ⟨hh, fun _ hx => hx, fun b y r hy => by simp [Forest.get?] at hy⟩
  | .cons b nd rest, s, h, hh => by
    simp only [Forest.OK] at h
    obtain ⟨hkey, h1, h2, h3⟩ := h
    have hrest : rest.get? b = none := (Forest.get?_eq_none rest b).2 hkey
    simp only [Forest.stopWalk] at hh ⊢
    by_cases hb : b = []
    · simp only [if_pos hb] at hh ⊢
      have ih := stopWalkF_tidy O rest s h3 (c := c) hh
      refine ⟨ih.1, ih.2.1, fun b' y r hy hb' hT hx hi => ?_⟩
      have : b ≠ b' := fun hc => hb' (hc.symm.trans hb)
      exact ih.2.2 b' y r (by simpa [Forest.get?, this] using hy) hb' hT hx hi
    · simp only [if_neg hb] at hh ⊢
      have ih := stopWalkF_tidy O rest (nd.stopWalk P O c s).1 h3 (c := c) hh
      have ih1 := stopWalk_tidy O nd s (h2 hb) (c := c) ih.1
      refine ⟨ih1.1, fun x hx => ih1.2.1 x (ih.2.1 x hx), fun b' y r hy hb' hT hx hi => ?_⟩
      by_cases hbb : b = b'
      · subst hbb
        simp only [Forest.get?, if_true, Option.some.injEq] at hy
        subst hy
        have := ih1.2.2 r hT hx hi
        by_contra hc
        refine ih.2.1 _ hc ?_
        rw [← this]; simp
      · exact ih.2.2 b' y r (by simpa [Forest.get?, hbb] using hy) hb' hT hx hi
end

/-- Stop keeps the invariant, whatever of its calls succeed. -/
theorem Tidy.stop (O : Oracle) {s : St} (h : Tidy P s) (c : Nat) (hh : Honest (Rec.stop P O s c).world.log) :
    Tidy P (Rec.stop P O s c) := by
  obtain ⟨hok, htot, hu⟩ := stop_uset O h.book.ok c
  obtain ⟨hb, hT⟩ := h.book.stop hok hu
  obtain ⟨-, hmono, hgone⟩ := stopWalk_tidy O (c := c) s.root s.world h.book.ok hh
  refine ⟨hb, fun q hq => (hT q).2 ?_⟩
  have hq0 := h.os q (hmono q hq)
  refine ⟨hq0, fun h0 => hq ?_⟩
  unfold tot at h0
  rw [htot, htot] at h0
  have h1 : WP.total P (gone P (watchAt s.root q) c) = 0 := by
    generalize WP.total P (gone P (watchAt s.root (q ++ [[]])) c) = b at *
    generalize WP.total P (gone P (watchAt s.root q) c) = a at *
    clear htot hu hT hmono hgone
    ebits
  have h2 : WP.total P (gone P (watchAt s.root (q ++ [[]])) c) = 0 := by
    generalize WP.total P (gone P (watchAt s.root (q ++ [[]])) c) = b at *
    generalize WP.total P (gone P (watchAt s.root q) c) = a at *
    clear htot hu hT hmono hgone
    ebits
  exact hgone q hq0 h1 h2

theorem Tidy.shuffle {s : St} (h : Tidy P s) {root' : Node} (hs : RShuffle s.root root') :
    Tidy P { s with root := root' } := by
  have hok : ROK (RN P) root' := hs.ok h.book.ok (fun _ _ => RN.congr)
  have hu : ∀ r d, uset root' r d = uset s.root r d := fun r d => by
    unfold uset WP.val; rw [hs.get r]
  obtain ⟨hb, -, hT⟩ := h.book.congr hok hu
  exact ⟨hb, fun q hq => (hT q).2 (h.os q hq)⟩

theorem Tidy.init (P : Platform) : Tidy P Rec.init := ⟨(Sync.init P).book, fun q hq => absurd rfl hq⟩

end Rec
end Verif
