/-
What Watch and Stop of the recursive tree do to the users' entries, whatever the OS calls return.
-/
import Verif.RecEff

namespace Verif
namespace Rec
open GoMap NonRec

variable {P : Platform} {Q : WP → Prop}

/-! ### The parent watch -/

theorem watchAt_cons_some {nd : Node} {b : Comp} {x : Node} (h : nd.child.get? b = some x) (r : Path) :
    watchAt nd (b :: r) = watchAt x r := by
  simp [watchAt, Node.find_cons, h]

theorem watchAt_cons_none {nd : Node} {b : Comp} (h : nd.child.get? b = none) (r : Path) :
    watchAt nd (b :: r) = [] := by
  simp [watchAt, Node.find_cons, h]

theorem tot_nil_path (P : Platform) (nd : Node) : tot P nd [] = watchTotal P nd := by
  rw [← watchTotal_nodeAt]; simp [nodeAt]

theorem tot_cons_some {nd : Node} {b : Comp} {x : Node} (h : nd.child.get? b = some x) (r : Path) :
    tot P nd (b :: r) = tot P x r := by
  simp only [tot, List.cons_append, watchAt_cons_some h]

theorem tot_cons_none {nd : Node} {b : Comp} (h : nd.child.get? b = none) (r : Path) :
    tot P nd (b :: r) = 0 := by
  simp only [tot, List.cons_append, watchAt_cons_none h, total_nil]; rfl

theorem parentOf_some {nd : Node} {p q : Path} (h : parentOf P nd p = some q) :
    q <+: p ∧ tot P nd q ≠ 0 ∧ ∀ r, r <+: q → r ≠ q → tot P nd r = 0 := by
  induction p generalizing nd q with
  | nil =>
    simp only [parentOf] at h
    split at h
    · next h0 =>
      simp only [Option.some.injEq] at h
      subst h
      exact ⟨List.prefix_refl _, by rw [tot_nil_path]; exact h0, fun r hr hn => absurd (List.prefix_nil.1 hr) hn⟩
    · simp at h
  | cons b p ih =>
    obtain ⟨n, w, ch⟩ := nd
    simp only [parentOf] at h
    split at h
    · next h0 =>
      simp only [Option.some.injEq] at h
      subst h
      exact ⟨List.nil_prefix, by rw [tot_nil_path]; exact h0, fun r hr hn => absurd (List.prefix_nil.1 hr) hn⟩
    · next h0 =>
      split at h
      · simp at h
      · next x hx =>
        simp only [Option.map_eq_some_iff] at h
        obtain ⟨q', h1, rfl⟩ := h
        obtain ⟨h2, h3, h4⟩ := ih h1
        refine ⟨by simpa using h2, by rw [tot_cons_some hx]; exact h3, fun r hr hn => ?_⟩
        cases r with
        | nil => rw [tot_nil_path]; exact not_not.1 h0
        | cons b' r =>
          obtain ⟨rfl, hr'⟩ := List.cons_prefix_cons.1 hr
          rw [tot_cons_some hx]
          exact h4 r hr' (by rintro rfl; exact hn rfl)

theorem parentOf_none {nd : Node} {p : Path} (h : parentOf P nd p = none) : ∀ r, r <+: p → tot P nd r = 0 := by
  induction p generalizing nd with
  | nil =>
    simp only [parentOf] at h
    split at h
    · simp at h
    · next h0 =>
      intro r hr
      rw [List.prefix_nil.1 hr, tot_nil_path]; exact not_not.1 h0
  | cons b p ih =>
    obtain ⟨n, w, ch⟩ := nd
    simp only [parentOf] at h
    split at h
    · simp at h
    · next h0 =>
      intro r hr
      cases r with
      | nil => rw [tot_nil_path]; exact not_not.1 h0
      | cons b' r =>
        obtain ⟨rfl, hr'⟩ := List.cons_prefix_cons.1 hr
        split at h
        · next hx => exact tot_cons_none hx r
        · next x hx =>
          rw [tot_cons_some hx]
          exact ih (by simpa using h) r hr'

/-! ### Differences -/

theorem orDiff_diffOf (a b t : Event) : orDiff (diffOf a b) t t = diffOf (a ||| t) (b ||| t) := by
  unfold orDiff
  by_cases h : a = b
  · subst h; simp [diffOf, Diff.none]
  · simp only [diffOf, h, if_false]

theorem watchAdd_diff (P : Platform) (nd : Node) (c : Nat) (e : Event) :
    (watchAdd P nd (.user c) e).2 = diffOf (watchTotal P nd) (watchTotal P nd ||| (e &^ P.internal)) := by
  rw [watchTotal_eq]
  unfold watchAdd
  simp only [add_diffOf P nd.watch (k := .user c) nofun, total_add P nd.watch (k := .user c) nofun]
  split
  · rw [orDiff_diffOf]
    congr 1
    generalize nd.watch.total P = x
    generalize (inact nd).total P = y
    ebits
  · next h =>
    have h0 : inact nd = [] := by simpa using h
    rw [h0, total_nil]; simp

theorem watchAddInactive_diff (P : Platform) (nd : Node) (c : Nat) (e : Event) :
    (watchAddInactive P nd (.user c) e).2 = diffOf (watchTotal P nd) (watchTotal P nd ||| (e &^ P.internal)) := by
  rw [watchTotal_eq]
  unfold watchAddInactive
  simp only [add_diffOf P (inact nd) (k := .user c) nofun, total_add P (inact nd) (k := .user c) nofun]
  rw [orDiff_diffOf]
  generalize nd.watch.total P = x
  generalize (inact nd).total P = y
  congr 1 <;> ebits

/-! ### Watch below or at an existing watch -/

/-- Conditions on the event set stored by Watch. -/
structure Storable (P : Platform) (E : Event) : Prop where
  omitted : E &&& P.omitted = 0
  ne : E &^ P.internal ≠ 0

theorem Storable.ne0 {E : Event} (h : Storable P E) : E ≠ 0 := by
  have := h.ne
  clear h
  ebits

theorem addAt_get {root : Node} {p r : Path} {c : Nat} {e : Event} (h : root.get? r ≠ none) :
    (addAt P root p c e).get? r ≠ none := by
  by_cases hpr : p <+: r
  · obtain ⟨t, rfl⟩ := hpr
    refine get_update_ne _ _ ?_ h
    intro x hx
    obtain ⟨n, w, ch⟩ := x
    cases t with
    | nil => simp at hx
    | cons b t => simpa [watchAdd, Node.setWatch, Node.get?_cons, Node.child] using hx
  · rw [Ne, ← Node.find_eq_none] at h ⊢
    unfold addAt
    rwa [Node.update_find_other _ _ _ hpr]

theorem setInact_get {root : Node} (hok : ROK Q root) {p r : Path} (hp : [] ∉ p) {w : WP} (h : root.get? r ≠ none) :
    (root.update p (setInact w)).get? r ≠ none := by
  by_cases hpq : p <+: r
  · obtain ⟨t, rfl⟩ := hpq
    refine get_update_ne _ _ ?_ h
    intro x hx
    rw [← Node.find_eq_none, find_setInact] at hx
    split at hx
    · simp at hx
    · split at hx
      · next h3 h4 =>
        exfalso
        obtain ⟨t', rfl⟩ := h4
        apply h
        rw [← Node.find_eq_none]
        rw [List.singleton_append]
        exact OK.flat hok hp (by rintro rfl; exact h3 rfl)
      · exact (Node.find_eq_none _ _).1 hx
  · rw [Ne, ← Node.find_eq_none, Node.update_find_other _ _ _ hpq, Node.find_eq_none]; exact h

/-- The parent node after the registration (tree_recursive.go:192-196). -/
def regNode (P : Platform) (root : Node) (q p : Path) (c : Nat) (e : Event) : Node :=
  (if q = p then watchAdd P (nodeAt root q) (.user c) e
    else watchAddInactive P (nodeAt root q) (.user c) e).1

/-- The tree after the registration at the parent. -/
def regAt (P : Platform) (root : Node) (q p : Path) (c : Nat) (e : Event) : Node :=
  root.update q (fun _ => regNode P root q p c e)

/-- The call made by Watch for the parent (tree_recursive.go:207-213). -/
def underCall (P : Platform) (root : Node) (q p : Path) (isrec : Bool) (c : Nat) (e : Event) : Call :=
  let nd := regNode P root q p c e
  if isrec || watchIsRecursive P nd then
    .recRewatch nd.name nd.name (tot P root q) (tot P root q ||| (e &^ P.internal))
  else .rewatch nd.name (tot P root q) (tot P root q ||| (e &^ P.internal))

/-- The watchpoint changed by the registration at the parent. -/
def slot (q p : Path) : Path := if q = p then p else q ++ [[]]

theorem regAt_eq (P : Platform) (root : Node) (q p : Path) (c : Nat) (e : Event) :
    regAt P root q p c e = if q = p then addAt P root p c e
      else root.update q (setInact ((watchAt root (q ++ [[]])).add P (.user c) e).1) := by
  unfold regAt regNode
  by_cases h : q = p
  · subst h
    simp only [if_true]
    exact selfAt_eq root q c e
  · simp only [if_neg h]
    exact inactAt_eq root q c e

theorem regAt_watchAt {root : Node} (h : ROK Q root) {q p : Path} (hq : [] ∉ q) (hg : root.get? q ≠ none) (c : Nat) (e : Event)
    (r : Path) : watchAt (regAt P root q p c e) r =
      if r = slot q p then ((watchAt root (slot q p)).add P (.user c) e).1 else watchAt root r := by
  rw [regAt_eq]
  unfold slot
  by_cases h1 : q = p
  · subst h1
    simp only [if_true]
    exact addAt_watchAt hg c e r
  · simp only [if_neg h1]
    exact watchAt_setInact h hq hg _ r

theorem regAt_ok {root : Node} (h : ROK Q root) {q p : Path} (hq : [] ∉ q) {c : Nat} {e : Event}
    (hQ : Q ((watchAt root (slot q p)).add P (.user c) e).1) : ROK Q (regAt P root q p c e) := by
  rw [regAt_eq]
  unfold slot at hQ
  by_cases h1 : q = p
  · subst h1
    rw [if_pos rfl] at hQ
    rw [if_pos rfl]
    exact addAt_ok h hq hQ
  · rw [if_neg h1] at hQ
    rw [if_neg h1]
    exact Node.update_OK h hq fun x _ hx => setInact_OK hx hQ

theorem regAt_get {root : Node} (h : ROK Q root) {q p r : Path} (hq : [] ∉ q) {c : Nat} {e : Event}
    (hr : root.get? r ≠ none) : (regAt P root q p c e).get? r ≠ none := by
  rw [regAt_eq]
  split
  · exact addAt_get hr
  · exact setInact_get h hq hr

/-- `watchUnder` with its pieces named. -/
theorem watchUnder_eq (P : Platform) (O : Oracle) (s : St) (q p : Path) (isrec : Bool) (c : Nat) (e : Event)
    (ht : tot P s.root q ≠ 0) :
    watchUnder P O s q p isrec c e =
      if e &^ P.internal ⊑ tot P s.root q then
        ({ s with root := if q = p then regAt P s.root q p c e else addAt P (regAt P s.root q p c e) p c e }, true)
      else if O s.world.log (underCall P s.root q p isrec c e) then
        ({ root := addAt P (regAt P s.root q p c e) p c e, world := (s.world.exec O (underCall P s.root q p isrec c e)).1 }, true)
      else
        ({ root := (regAt P s.root q p c e).update q (fun nd => (watchDel P nd (.user c)
            ((tot P s.root q ||| (e &^ P.internal)) &^ tot P s.root q)).1),
           world := (s.world.exec O (underCall P s.root q p isrec c e)).1 }, false) := by
  have hd : (if q = p then watchAdd P (nodeAt s.root q) (.user c) e
      else watchAddInactive P (nodeAt s.root q) (.user c) e).2 =
      diffOf (tot P s.root q) (tot P s.root q ||| (e &^ P.internal)) := by
    rw [← watchTotal_nodeAt]
    split
    · exact watchAdd_diff ..
    · exact watchAddInactive_diff ..
  unfold watchUnder
  simp only [hd]
  by_cases hsub : e &^ P.internal ⊑ tot P s.root q
  · have heq : tot P s.root q = tot P s.root q ||| (e &^ P.internal) := (Event.sub_iff_or.1 hsub).symm
    rw [if_pos hsub, if_pos (diffOf_none.2 heq)]
    rfl
  · have hne : tot P s.root q ≠ tot P s.root q ||| (e &^ P.internal) := fun h => hsub (Event.sub_iff_or.2 h.symm)
    rw [if_neg hsub, if_neg (fun h => hne (diffOf_none.1 h)), diffOf_ne hne, if_neg ht]
    rfl

/-! ### Effect of Watch -/

/-- The effect of a Watch on the users' entries. -/
structure Eff (P : Platform) (root root' : Node) (p : Path) (c : Nat) (E : Event) (res : Bool) : Prop where
  ok : ROK (RW P) root'
  frame : ∀ d r, [] ∉ r → ¬ (d = c ∧ r = p) → entry root' d r = entry root d r
  done : res = true → entry root' c p = some ((watchAt root p).val (.user c) ||| E)
  undone : res = false → ((watchAt root p).val (.user c) ⊑ P.internal ∨
      (watchAt root p).val (.user c) ⊑ (watchAt root' p).val (.user c)) ∧
    (watchAt root' p).val (.user c) ⊑ (watchAt root p).val (.user c) ||| E

theorem not_inact {r q : Path} (h : [] ∉ r) : r ≠ q ++ [[]] := by
  rintro rfl; simp at h

theorem RW.val_sub {w : WP} (h : RW P w) (c : Nat) : w.val (.user c) ⊑ w.val .nil := by
  cases hg : w.get? (.user c) with
  | none => rw [WP.val_eq_zero_of_none hg]; exact Event.zero_sub _
  | some v => rw [WP.val_eq_of_get? hg]; exact (h.user c v hg).2

theorem get_add_user (P : Platform) (w : WP) (c d : Nat) (e : Event) :
    (w.add P (.user c) e).1.get? (.user d) = if d = c then some (w.val (.user c) ||| e) else w.get? (.user d) := by
  rw [WP.get?_add P w (by simp)]
  simp

theorem val_add_user (P : Platform) (w : WP) (c : Nat) (e : Event) :
    (w.add P (.user c) e).1.val (.user c) = w.val (.user c) ||| e := by
  rw [WP.val, get_add_user]; simp

theorem get_del_user (P : Platform) (w : WP) (c d : Nat) (e : Event) :
    (w.del P (.user c) e).1.get? (.user d) =
      if d = c then (if w.val (.user c) &^ e = 0 then none else some (w.val (.user c) &^ e)) else w.get? (.user d) := by
  rw [WP.get?_del_ne_nil P w (by simp) e (by simp)]
  simp

theorem val_del_user (P : Platform) (w : WP) (c : Nat) (e : Event) :
    (w.del P (.user c) e).1.val (.user c) = w.val (.user c) &^ e := by
  rw [WP.val, get_del_user, if_pos rfl]
  split
  · next h => rw [h]; rfl
  · rfl

theorem watchUnder_eff (O : Oracle) {s : St} (h : ROK (RW P) s.root) {q p : Path} (hp : [] ∉ p) (hqp : q <+: p)
    (ht : tot P s.root q ≠ 0) (hg : s.root.get? p ≠ none) (isrec : Bool) (c : Nat) {E : Event} (hE : Storable P E) :
    Eff P s.root (watchUnder P O s q p isrec c E).1.root p c E (watchUnder P O s q p isrec c E).2 := by
  have hq : [] ∉ q := fun hc => hp (hqp.subset hc)
  have hgq : s.root.get? q ≠ none := tot_ne_find ht
  have hrw : ∀ r, RW P (watchAt s.root r) := fun r => ROK.watchAt h (RW.nil P) r
  have hok1 : ROK (RW P) (regAt P s.root q p c E) := regAt_ok h hq ((hrw _).add c hE.omitted hE.ne0)
  have hw1 := fun r => regAt_watchAt (P := P) h (p := p) hq hgq c E r
  have hg1 : (regAt P s.root q p c E).get? p ≠ none := regAt_get h hq hg
  have hgq1 : (regAt P s.root q p c E).get? q ≠ none := regAt_get h hq hgq
  have hrw1 : ∀ r, RW P (watchAt (regAt P s.root q p c E) r) := fun r => ROK.watchAt hok1 (RW.nil P) r
  have hok2 : ROK (RW P) (addAt P (regAt P s.root q p c E) p c E) :=
    addAt_ok hok1 hp ((hrw1 _).add c hE.omitted hE.ne0)
  -- the entries after both registrations
  have he2 : ∀ d r, [] ∉ r → entry (addAt P (regAt P s.root q p c E) p c E) d r =
      if d = c ∧ r = p then some ((watchAt s.root p).val (.user c) ||| E) else entry s.root d r := by
    intro d r hr
    unfold entry
    rw [addAt_watchAt hg1]
    by_cases hrp : r = p
    · subst hrp
      simp only [if_true, and_true]
      rw [get_add_user, hw1 r]
      unfold slot
      by_cases hqr : q = r
      · subst hqr
        simp only [if_true]
        by_cases hd : d = c
        · simp only [hd, if_true, val_add_user]
          congr 1
          generalize (watchAt s.root q).val (.user c) = x
          clear hw1
          ebits
        · simp only [hd, if_false]
          rw [get_add_user, if_neg hd]
      · simp only [if_neg hqr, if_neg (not_inact (q := q) hr)]
    · simp only [hrp, if_false, and_false]
      rw [hw1 r]
      rw [if_neg]
      unfold slot
      split
      · exact hrp
      · exact not_inact hr
  have hdone : ∀ (root' : Node) (res : Bool), ROK (RW P) root' → (∀ d r, [] ∉ r → entry root' d r =
      if d = c ∧ r = p then some ((watchAt s.root p).val (.user c) ||| E) else entry s.root d r) →
      res = true → Eff P s.root root' p c E res := by
    intro root' res h1 h2 h3
    refine ⟨h1, fun d r hr hn => by rw [h2 d r hr, if_neg hn], fun _ => by rw [h2 c p hp]; simp, fun h4 => ?_⟩
    rw [h3] at h4; simp at h4
  rw [watchUnder_eq P O s q p isrec c E ht]
  split
  · by_cases hqe : q = p
    · subst hqe
      simp only [if_true]
      refine hdone _ _ hok1 ?_ rfl
      intro d r hr
      unfold entry
      rw [hw1 r]
      simp only [slot, if_true]
      by_cases hrp : r = q
      · subst hrp
        simp only [if_true, and_true, get_add_user]
      · simp [hrp]
    · simp only [hqe, if_false]
      exact hdone _ _ hok2 he2 rfl
  · next hsub =>
    split
    · exact hdone _ _ hok2 he2 rfl
    · -- roll back
      have hdel := fun r => delAt_watchAt (P := P) hok1 hq hgq1 c
        ((tot P s.root q ||| (E &^ P.internal)) &^ tot P s.root q) r
      refine ⟨?_, ?_, fun hx => by simp at hx, fun _ => ?_⟩
      · refine Node.update_OK hok1 hq fun x hx hxo => ?_
        have e1 : x.watch = watchAt (regAt P s.root q p c E) q := by rw [← watch_nodeAt, nodeAt_of_get hx]
        have e2 : inact x = watchAt (regAt P s.root q p c E) (q ++ [[]]) := by rw [← inact_nodeAt, nodeAt_of_get hx]
        refine watchDel_OK hxo c _ ?_ ?_
        · rw [e1]; exact (hrw1 _).del c _
        · rw [e2]; exact (hrw1 _).del c _
      · intro d r hr hn
        unfold entry
        rw [hdel r]
        by_cases hrq : r = q
        · subst hrq
          simp only [if_true]
          rw [get_del_user, hw1 r]
          by_cases hqe : r = p
          · have hd : d ≠ c := fun hd => hn ⟨hd, hqe⟩
            rw [if_neg hd]
            simp only [slot, hqe, if_true, get_add_user, if_neg hd]
          · have hs : r ≠ slot r p := by
              simp only [slot, hqe, if_false]; exact not_inact hr
            rw [if_neg hs]
            by_cases hd : d = c
            · subst hd
              simp only [if_true]
              cases hv : GoMap.get? (watchAt s.root r) (.user d) with
              | none => rw [WP.val_eq_zero_of_none hv]; simp
              | some v =>
                rw [WP.val_eq_of_get? hv]
                have h1 := ((hrw r).user d v hv).2
                have h2 : v &^ ((tot P s.root r ||| (E &^ P.internal)) &^ tot P s.root r) = v := by
                  have h3 : (v &^ P.internal) ⊑ tot P s.root r := by
                    unfold tot WP.total
                    generalize (watchAt s.root r).val .nil = y at *
                    generalize (watchAt s.root (r ++ [[]])).val .nil = z at *
                    clear hrw hw1 hdel hsub ht hdone he2 hrw1 hE hv hs hn
                    ebits
                  generalize tot P s.root r = t at *
                  clear hrw hw1 hdel hsub ht hdone he2 hrw1 h1 hE hv hs hn
                  ebits
                rw [h2, if_neg ((hrw r).ne d v hv)]
            · simp only [hd, if_false]
        · rw [if_neg hrq, if_neg (not_inact hr), hw1 r, if_neg]
          unfold slot
          split
          · rename_i hqe; rw [← hqe]; exact hrq
          · exact not_inact hr
      · rw [hdel p]
        by_cases hqe : q = p
        · subst hqe
          simp only [if_true]
          rw [val_del_user, hw1 q]
          simp only [slot, if_true, val_add_user]
          have h1 := (hrw q).val_sub c
          have h3 : ((watchAt s.root q).val (.user c) &^ P.internal) ⊑ tot P s.root q := by
            unfold tot WP.total
            generalize (watchAt s.root q).val .nil = y at *
            generalize (watchAt s.root q).val (.user c) = x at *
            generalize (watchAt s.root (q ++ [[]])).val .nil = z at *
            clear hrw hw1 hdel hsub ht hdone he2 hrw1 hE
            ebits
          generalize tot P s.root q = t at *
          generalize (watchAt s.root q).val (.user c) = x at *
          clear hrw hw1 hdel hsub ht hdone he2 hrw1 h1 hE
          exact ⟨.inr (by ebits), by ebits⟩
        · rw [if_neg (fun h => hqe h.symm), if_neg (not_inact hp), hw1 p, if_neg]
          · generalize (watchAt s.root p).val (.user c) = x at *
            exact ⟨.inr (Event.Sub.refl _), Event.sub_or_left _ _⟩
          · simp only [slot, hqe, if_false]; exact not_inact hp

theorem watchTop_eff (O : Oracle) {s : St} (h : ROK (RW P) s.root) {p : Path} (hp : [] ∉ p)
    (ht : tot P s.root p = 0) (hg : s.root.get? p ≠ none) (isrec : Bool) (c : Nat) {E : Event} (hE : Storable P E) :
    Eff P s.root (watchTop P O s p isrec c E).1.root p c E (watchTop P O s p isrec c E).2 := by
  have hrw : ∀ r, RW P (watchAt s.root r) := fun r => ROK.watchAt h (RW.nil P) r
  have hok1 : ROK (RW P) (addAt P s.root p c E) := addAt_ok h hp ((hrw _).add c hE.omitted hE.ne0)
  have hw1 := fun r => addAt_watchAt (P := P) hg c E r
  have hg1 : (addAt P s.root p c E).get? p ≠ none := addAt_get hg
  have hrw1 : ∀ r, RW P (watchAt (addAt P s.root p c E) r) := fun r => ROK.watchAt hok1 (RW.nil P) r
  have hold : (watchAt s.root p).val (.user c) ⊑ P.internal := by
    have h1 := (hrw p).val_sub c
    unfold tot WP.total at ht
    generalize (watchAt s.root p).val .nil = y at *
    generalize (watchAt s.root p).val (.user c) = x at *
    generalize (watchAt s.root (p ++ [[]])).val .nil = z at *
    clear hrw hw1 hrw1 hE
    ebits
  have he1 : ∀ root', (∀ r, [] ∉ r → watchAt root' r = watchAt (addAt P s.root p c E) r) → ∀ d r, [] ∉ r →
      entry root' d r = if d = c ∧ r = p then some ((watchAt s.root p).val (.user c) ||| E) else entry s.root d r := by
    intro root' hr' d r hr
    unfold entry
    rw [hr' r hr, hw1 r]
    by_cases hrp : r = p
    · subst hrp; simp only [if_true, and_true, get_add_user]
    · simp [hrp]
  have hdone : ∀ (root' : Node) (res : Bool), ROK (RW P) root' →
      (∀ r, [] ∉ r → watchAt root' r = watchAt (addAt P s.root p c E) r) → Eff P s.root root' p c E res := by
    intro root' res h1 h2
    have h3 := he1 root' h2
    refine ⟨h1, fun d r hr hn => by rw [h3 d r hr, if_neg hn], fun _ => by rw [h3 c p hp]; simp, fun h4 => ?_⟩
    rw [h2 p hp, hw1 p, if_pos rfl, val_add_user]
    exact ⟨.inl hold, Event.Sub.refl _⟩
  have hclean : ∀ (root₁ : Node), ROK (RW P) root₁ → root₁.get? p ≠ none →
      (∀ r, [] ∉ r → watchAt root₁ r = watchAt (addAt P s.root p c E) r) →
      Eff P s.root (root₁.update p (clean c)) p c E false := by
    intro root₁ h1 h2 h3
    have h4 := fun r => watchAt_clean h1 hp h2 c r
    refine ⟨?_, ?_, fun hx => by simp at hx, fun _ => ?_⟩
    · refine Node.update_OK h1 hp fun x hx hxo => clean_OK hxo ?_
      exact RW.erase hxo.watch c
    · intro d r hr hn
      have h5 := he1 root₁ h3 d r hr
      rw [if_neg hn] at h5
      rw [← h5]
      unfold entry
      rw [h4 r]
      by_cases hrp : r = p
      · subst hrp
        have hd : ¬ (Key.user c = Key.user d) := by
          simp only [Key.user.injEq]; rintro rfl; exact hn ⟨rfl, rfl⟩
        rw [if_pos rfl, GoMap.get?_del, if_neg hd]
      · rw [if_neg hrp, if_neg (not_inact hr)]
    · rw [h4 p, if_pos rfl, WP.val_del, if_pos rfl]
      exact ⟨.inl hold, Event.zero_sub _⟩
  have hcopy := fun rs => copyAll_eff (P := P) hp rs (s := { s with root := addAt P s.root p c E }) hok1 hg1 (RW.nil P)
    (fun _ _ _ h1 h2 h3 => RW.copied h1 h2 h3)
  unfold watchTop
  split
  · -- no watch below
    simp only [selfAt_eq]
    generalize (if isrec = true then Call.recWatch (watchAdd P (nodeAt s.root p) (Key.user c) E).1.name
      (watchAdd P (nodeAt s.root p) (Key.user c) E).2.2 else Call.watch
      (watchAdd P (nodeAt s.root p) (Key.user c) E).1.name (watchAdd P (nodeAt s.root p) (Key.user c) E).2.2) = call
    split
    · exact hdone _ _ hok1 fun r _ => rfl
    · split
      · split
        · exact hdone _ _ hok1 fun r _ => rfl
        · rw [watchAdd_diff, watchTotal_nodeAt, ht]
          have hev : Diff.event (diffOf 0 (0 ||| (E &^ P.internal))) = E &^ P.internal := by
            have hne := hE.ne
            rw [diffOf_ne]
            · simp only [Diff.event]
              have : ∀ x : Event, (0 ||| x) &^ 0 = x := by
                intro x
                show (0#32 ||| x) &&& ~~~0#32 = x
                rw [BitVec.zero_or, BitVec.not_zero, BitVec.and_allOnes]
              exact this _
            · intro h0; apply hne; rw [h0]; simp
          rw [hev]
          have hdel := fun r => delAt_watchAt (P := P) hok1 hp hg1 c (E &^ P.internal) r
          refine ⟨?_, ?_, fun hx => by simp at hx, fun _ => ?_⟩
          · refine Node.update_OK hok1 hp fun x hx hxo => ?_
            have e1 : x.watch = watchAt (addAt P s.root p c E) p := by rw [← watch_nodeAt, nodeAt_of_get hx]
            have e2 : inact x = watchAt (addAt P s.root p c E) (p ++ [[]]) := by rw [← inact_nodeAt, nodeAt_of_get hx]
            refine watchDel_OK hxo c _ ?_ ?_
            · rw [e1]; exact (hrw1 _).del c _
            · rw [e2]; exact (hrw1 _).del c _
          · intro d r hr hn
            unfold entry
            rw [hdel r]
            by_cases hrp : r = p
            · subst hrp
              have hd : d ≠ c := fun hd => hn ⟨hd, rfl⟩
              simp only [if_true, get_del_user, if_neg hd, hw1 r, get_add_user]
            · rw [if_neg hrp, if_neg (not_inact hr), hw1 r, if_neg hrp]
          · rw [hdel p, if_pos rfl, val_del_user, hw1 p, if_pos rfl, val_add_user]
            refine ⟨.inl hold, ?_⟩
            generalize (watchAt s.root p).val (.user c) = x at *
            clear hrw hw1 hrw1 hE hdone he1 hclean hcopy hdel ht hev hold
            ebits
      · exact hdone _ _ hok1 fun r _ => rfl
  · next r _ =>
    simp only
    have hc := hcopy [r]
    split
    · exact hdone _ _ hc.1 fun r hr => hc.2.2.1 r (not_inact hr)
    · exact hclean _ hc.1 (hc.2.1 p hg1) fun r hr => hc.2.2.1 r (not_inact hr)
  · next rs _ _ =>
    simp only
    have hc := hcopy (nodeAt s.root p).tops
    split
    · exact hdone _ _ hc.1 fun r hr => hc.2.2.1 r (not_inact hr)
    · exact hclean _ hc.1 (hc.2.1 p hg1) fun r hr => hc.2.2.1 r (not_inact hr)

/-- The event set stored by Watch. -/
def setOf (P : Platform) (isrec : Bool) (e : Event) : Event := if isrec then e ||| P.recursive else e

theorem storable (hP : P.Facts) {e : Event} (he : UserEvents P e) (isrec : Bool) : Storable P (setOf P isrec e) := by
  obtain ⟨h1, h2⟩ := he
  have := hP.rec_omit
  unfold setOf
  clear hP
  constructor <;> cases isrec <;> simp only [if_true, if_false, Bool.false_eq_true] <;> ebits

theorem watchOp_eff (hP : P.Facts) (O : Oracle) {s : St} (h : ROK (RW P) s.root) {p : Path} (hp : [] ∉ p)
    (isrec : Bool) (c : Nat) {e : Event} (he : UserEvents P e) :
    Eff P s.root (watchOp P O s p isrec c e).1.root p c (setOf P isrec e) (watchOp P O s p isrec c e).2 := by
  have hadd : ∀ r, watchAt (s.root.add p) r = watchAt s.root r := watchAt_add s.root p
  have htot : ∀ r, tot P (s.root.add p) r = tot P s.root r := fun r => by simp [tot, hadd]
  have hok : ROK (RW P) (s.root.add p) := Node.add_OK h (RW.nil P) hp
  have hg := Node.add_get_ne_none s.root p
  have lift : ∀ {root' res}, Eff P (s.root.add p) root' p c (setOf P isrec e) res →
      Eff P s.root root' p c (setOf P isrec e) res := by
    intro root' res hx
    refine ⟨hx.ok, fun d r hr hn => ?_, fun hr => ?_, fun hr => ?_⟩
    · rw [hx.frame d r hr hn]; simp [entry, hadd]
    · rw [hx.done hr, hadd]
    · have := hx.undone hr; rwa [hadd] at this
  unfold watchOp
  simp only
  cases hpar : parentOf P s.root p with
  | some q =>
    obtain ⟨h1, h2, h3⟩ := parentOf_some hpar
    exact lift (watchUnder_eff O (s := { s with root := s.root.add p }) hok hp h1 (by rw [htot]; exact h2) hg isrec c
      (storable hP he isrec))
  | none =>
    have h1 := parentOf_none hpar p (List.prefix_refl _)
    exact lift (watchTop_eff O (s := { s with root := s.root.add p }) hok hp (by rw [htot]; exact h1) hg isrec c
      (storable hP he isrec))

end Rec
end Verif
