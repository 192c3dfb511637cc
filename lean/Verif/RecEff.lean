/-
The effect of the operations of the recursive tree on the watchpoints, path by path, for every
outcome of the OS calls.
-/
import Verif.RecLemmas

namespace Verif
namespace Rec
open GoMap NonRec

variable {P : Platform} {Q : WP → Prop}

/-! ### What holds for a watchpoint whatever failed before -/

/-- Weak invariant of a watchpoint: the total contains every channel's set. -/
structure RW (P : Platform) (w : WP) : Prop where
  nodup : w.Nodup
  norec : w.get? .recCh = none
  user : ∀ c v, w.get? (.user c) = some v → v &&& P.omitted = 0 ∧ v ⊑ w.val .nil
  ne : ∀ c v, w.get? (.user c) = some v → v ≠ 0
  tot : w.val .nil &&& P.omitted = 0

theorem RW.nil (P : Platform) : RW P [] := ⟨by simp, by simp, by simp, by simp, by simp⟩

theorem RW.add {w : WP} (h : RW P w) (c : Nat) {e : Event} (he : e &&& P.omitted = 0)
    (he0 : e ≠ 0) : RW P (w.add P (.user c) e).1 where
  nodup := (h.nodup.set _ _).set _ _
  norec := by
    rw [WP.get?_add P w (by simp)]
    simpa using h.norec
  user := by
    intro d v hv
    have hn : (w.add P (.user c) e).1.val .nil = (w.val .nil ||| e) &^ P.omitted := by
      simp [WP.val, WP.get?_add P w (c := .user c) nofun]
    rw [WP.get?_add P w (by simp)] at hv
    simp only [reduceCtorEq, if_false] at hv
    rw [hn]
    split at hv
    · next hd =>
      simp only [Option.some.injEq] at hv
      subst hv
      have h1 : w.val (.user c) &&& P.omitted = 0 ∧ w.val (.user c) ⊑ w.val .nil := by
        cases hg : w.get? (.user c) with
        | none => rw [WP.val_eq_zero_of_none hg]; exact ⟨by simp, Event.zero_sub _⟩
        | some u => rw [WP.val_eq_of_get? hg]; exact h.user c u hg
      generalize w.val (.user c) = x at *
      generalize w.val .nil = y at *
      clear hn h hd
      constructor <;> ebits
    · have h1 := h.user d v hv
      generalize w.val .nil = y at *
      clear hn h hv
      exact ⟨h1.1, by ebits⟩
  ne := by
    intro d v hv
    rw [WP.get?_add P w (by simp)] at hv
    simp only [reduceCtorEq, if_false] at hv
    split at hv
    · simp only [Option.some.injEq] at hv
      subst hv
      generalize w.val (.user c) = x
      clear h he
      ebits
    · exact h.ne d v hv
  tot := by
    have hn : (w.add P (.user c) e).1.val .nil = (w.val .nil ||| e) &^ P.omitted := by
      simp [WP.val, WP.get?_add P w (c := .user c) nofun]
    rw [hn]
    clear h
    ebits

theorem RW.del {w : WP} (h : RW P w) (c : Nat) (e : Event) : RW P (w.del P (.user c) e).1 where
  nodup := WP.Nodup_del_fst h.nodup (by simp) e
  norec := by
    rw [WP.get?_del_ne_nil P w (by simp) e (by simp)]
    simpa using h.norec
  user := by
    intro d v hv
    have hn := WP.val_del_nil P w (c := .user c) (by simp) e
    have hb := WP.bit_orAll_del0 h.nodup (c := .user c) (by simp) e
    have hg : (WP.del0 w (.user c) e).get? (.user d) = some v := by
      rw [WP.get?_del_ne_nil P w (by simp) e (by simp)] at hv
      rw [WP.get?_del0 w (by simp)]
      simpa using hv
    have h1 : v ⊑ WP.orAll (WP.del0 w (.user c) e) := fun i hi => (hb i).2 ⟨.user d, v, by simp, hg, hi⟩
    have h2 : v &&& P.omitted = 0 := by
      rw [WP.get?_del_ne_nil P w (by simp) e (by simp)] at hv
      split at hv
      · split at hv
        · simp at hv
        · simp only [Option.some.injEq] at hv
          have h3 : w.val (.user c) &&& P.omitted = 0 := by
            cases hg : w.get? (.user c) with
            | none => rw [WP.val_eq_zero_of_none hg]; simp
            | some u => rw [WP.val_eq_of_get? hg]; exact (h.user c u hg).1
          rw [← hv]
          generalize w.val (.user c) = x at *
          clear h1 hb hn h hv hg
          ebits
      · exact (h.user d v hv).1
    rw [hn]
    generalize WP.orAll (WP.del0 w (.user c) e) = y at *
    clear hb hn h hv hg
    exact ⟨h2, by ebits⟩
  ne := by
    intro d v hv
    rw [WP.get?_del_ne_nil P w (by simp) e (by simp)] at hv
    split at hv
    · split at hv
      · simp at hv
      · next h0 =>
        simp only [Option.some.injEq] at hv
        subst hv; exact h0
    · exact h.ne d v hv
  tot := by
    rw [WP.val_del_nil P w (c := .user c) (by simp) e]
    clear h
    ebits

theorem RW.erase {w : WP} (h : RW P w) (c : Nat) : RW P (GoMap.del w (.user c)) where
  nodup := h.nodup.del _
  norec := by rw [GoMap.get?_del]; simpa using h.norec
  user := by
    intro d v hv
    rw [GoMap.get?_del] at hv
    rw [WP.val_del]
    split at hv
    · simp at hv
    · simpa using h.user d v hv
  ne := by
    intro d v hv
    rw [GoMap.get?_del] at hv
    split at hv
    · simp at hv
    · exact h.ne d v hv
  tot := by rw [WP.val_del]; simpa using h.tot

/-! ### Effects of the building blocks -/

theorem addAt_watchAt {root : Node} {p : Path} (hg : root.get? p ≠ none) (c : Nat) (e : Event) (r : Path) :
    watchAt (addAt P root p c e) r = if r = p then ((watchAt root p).add P (.user c) e).1 else watchAt root r := by
  have : addAt P root p c e = root.update p (Node.setWatch ((watchAt root p).add P (.user c) e).1) := by
    unfold addAt
    rw [← update_const, ← update_const (f := Node.setWatch _)]
    unfold watchAdd
    rw [watch_nodeAt]
  rw [this, watchAt_setWatch hg]

theorem addAt_ok {root : Node} (h : ROK Q root) {p : Path} (hp : [] ∉ p) {c : Nat} {e : Event}
    (hQ : Q ((watchAt root p).add P (.user c) e).1) : ROK Q (addAt P root p c e) := by
  refine Node.update_OK h hp ?_
  intro x hx hok
  have : watchAt root p = x.watch := by simp [watchAt, Node.find, hx]
  rw [this] at hQ
  exact Node.setWatch_OK hok hQ

theorem inactAt_eq (root : Node) (q : Path) (c : Nat) (e : Event) :
    root.update q (fun _ => (watchAddInactive P (nodeAt root q) (.user c) e).1) =
      root.update q (setInact ((watchAt root (q ++ [[]])).add P (.user c) e).1) := by
  unfold watchAddInactive
  simp only [inact_nodeAt]
  rw [update_const (f := setInact _)]

theorem selfAt_eq (root : Node) (q : Path) (c : Nat) (e : Event) :
    root.update q (fun _ => (watchAdd P (nodeAt root q) (.user c) e).1) = addAt P root q c e := by
  unfold addAt
  rw [update_const (f := fun nd => (watchAdd P nd (.user c) e).1)]

theorem del_nil (P : Platform) (c : Nat) (e : Event) : (WP.del P [] (.user c) e).1 = [] := by
  rw [GoMap.eq_nil_iff_get?]
  intro k
  by_cases hk : k = .nil
  · subst hk
    rw [WP.get?_del_nil P [] (by simp)]
    have : WP.del0 [] (.user c) e = [] := by
      rw [GoMap.eq_nil_iff_get?]
      intro k
      rw [WP.get?_del0 [] (by simp)]
      simp
    rw [this]; simp
  · rw [WP.get?_del_ne_nil P [] (by simp) e hk]; simp

theorem watchDel_fst (P : Platform) (nd : Node) (c : Nat) (e : Event) :
    (watchDel P nd (.user c) e).1 =
      if (inact nd).length ≠ 0 then
        setInact ((inact nd).del P (.user c) e).1 (nd.setWatch (nd.watch.del P (.user c) e).1)
      else nd.setWatch (nd.watch.del P (.user c) e).1 := by
  unfold watchDel
  simp only
  split <;> rfl

theorem find_watchDel (P : Platform) (nd : Node) (c : Nat) (e : Event) {r : Path}
    (hflat : ∀ b t, nd.find ([] :: b :: t) = none) :
    (((watchDel P nd (.user c) e).1.find r).getD []) =
      if r = [] then (nd.watch.del P (.user c) e).1
      else if r = [[]] then ((inact nd).del P (.user c) e).1 else (nd.find r).getD [] := by
  have hsw : ∀ w, (nd.setWatch w).find r = if r = [] then some w else nd.find r := by
    intro w
    obtain ⟨n, w0, ch⟩ := nd
    cases r with
    | nil => simp [Node.setWatch, Node.watch]
    | cons b r => simp [Node.setWatch, Node.find_cons, Node.child]
  have hin : inact nd = (nd.find [[]]).getD [] := by
    simp only [inact, inact?, Node.find_cons]
    cases nd.child.get? [] <;> simp
  rw [watchDel_fst]
  split
  · next h =>
    rw [find_setInact, hsw]
    cases r with
    | nil => simp
    | cons b r =>
      simp only [reduceCtorEq, if_false]
      by_cases h1 : b :: r = [[]]
      · rw [if_pos h1, if_pos h1]; rfl
      · rw [if_neg h1, if_neg h1]
        split
        · next h2 =>
          obtain ⟨t, ht⟩ := h2
          cases t with
          | nil => exact absurd ht.symm h1
          | cons x t => rw [← ht]; simp [hflat]
        · rfl
  · next h =>
    have h0 : inact nd = [] := by simpa using h
    rw [hsw]
    cases r with
    | nil => simp
    | cons b r =>
      simp only [reduceCtorEq, if_false]
      split
      · next h1 =>
        rw [h1, ← hin, h0, del_nil]
      · rfl

theorem watchDel_OK {n : Path} {nd : Node} (h : nd.OK Q (inR Q) n) (c : Nat) (e : Event)
    (h1 : Q (nd.watch.del P (.user c) e).1) (h2 : Q ((inact nd).del P (.user c) e).1) :
    (watchDel P nd (.user c) e).1.OK Q (inR Q) n := by
  rw [watchDel_fst]
  split
  · exact setInact_OK (Node.setWatch_OK h h1) h2
  · exact Node.setWatch_OK h h1

theorem delAt_watchAt {root : Node} (h : ROK Q root) {q : Path} (hq : [] ∉ q) (hg : root.get? q ≠ none) (c : Nat)
    (e : Event) (r : Path) :
    watchAt (root.update q (fun nd => (watchDel P nd (.user c) e).1)) r =
      if r = q then ((watchAt root q).del P (.user c) e).1
      else if r = q ++ [[]] then ((watchAt root (q ++ [[]])).del P (.user c) e).1 else watchAt root r := by
  obtain ⟨x, hc⟩ := Option.ne_none_iff_exists'.1 hg
  have hw : watchAt root q = x.watch := by rw [← watch_nodeAt, nodeAt_of_get hc]
  have hi : watchAt root (q ++ [[]]) = inact x := by rw [← inact_nodeAt, nodeAt_of_get hc]
  rw [hw, hi]
  by_cases hqr : q <+: r
  · obtain ⟨r, rfl⟩ := hqr
    have hfl : ∀ b t, x.find ([] :: b :: t) = none := by
      intro b t
      have := OK.flat h hq (r := b :: t) (by simp)
      rw [Node.find_append, hc] at this
      exact this
    unfold watchAt
    rw [Node.update_find_append root q _ hc, find_watchDel P x c e hfl, Node.find_append, hc]
    have hqr : q ++ r = q ↔ r = [] := by simp
    simp only [List.append_cancel_left_eq, Option.bind_some, hqr]
  · unfold watchAt
    rw [Node.update_find_other root q _ hqr, if_neg, if_neg]
    · rintro rfl; exact hqr (List.prefix_append _ _)
    · rintro rfl; exact hqr (List.prefix_refl _)

/-! ### Copying registrations -/

theorem foldl_inactive (P : Platform) (l : List (Key × Event)) (nd : Node) :
    l.foldl (fun d x => (watchAddInactive P d x.1 x.2).1) nd =
      if l = [] then nd else setInact (l.foldl (fun w x => (WP.add P w x.1 x.2).1) (inact nd)) nd := by
  induction l generalizing nd with
  | nil => simp
  | cons x l ih =>
    obtain ⟨n, w0, ch⟩ := nd
    simp only [List.foldl_cons, ih]
    have h1 : inact (watchAddInactive P (.mk n w0 ch) x.1 x.2).1 = (WP.add P (inact (.mk n w0 ch)) x.1 x.2).1 := by
      simp [watchAddInactive, inact, inact?, setInact, Node.child, Forest.get?_put, Node.watch]
    have h2 : ∀ w w', setInact w (setInact w' (.mk n w0 ch)) = setInact w (.mk n w0 ch) := by
      intro w w'
      simp only [setInact, Node.mk.injEq, true_and]
      exact put_put ch _ _
    rw [if_neg (List.cons_ne_nil x l)]
    split
    · next h => subst h; simp only [List.foldl_nil]; rfl
    · rw [h1]; exact h2 _ _
where
  put_put (f : Forest) {b : Comp} (x y : Node) : (f.put b x).put b y = f.put b y := by
    match f with
    | .nil => simp [Forest.put]
    | .cons b' nd rest =>
      simp only [Forest.put]
      split
      · simp [Forest.put]
      · next h => simp [Forest.put, h, put_put rest x y]

/-- The inactive watchpoint after `watchCopy`. -/
def copied (P : Platform) (src inac dst : WP) : WP :=
  (users inac).foldl (fun w x => (WP.add P w x.1 x.2).1)
    ((users src).foldl (fun w x => (WP.add P w x.1 x.2).1) dst)

theorem watchCopy_fst (P : Platform) (src dst : Node) (h : users src.watch ≠ []) :
    watchCopy P src dst = (setInact (copied P src.watch (inact src) (inact dst)) dst, false) := by
  unfold watchCopy
  simp only [foldl_inactive, if_neg h]
  obtain ⟨n, w0, ch⟩ := dst
  have h2 : ∀ w w', setInact w (setInact w' (.mk n w0 ch)) = setInact w (.mk n w0 ch) := by
    intro w w'
    simp only [setInact, Node.mk.injEq, true_and]
    exact foldl_inactive.put_put ch _ _
  have h1 : ∀ w, inact? (setInact w (.mk n w0 ch)) = some w := by
    intro w; simp [inact?, setInact, Node.child, Forest.get?_put, Node.watch]
  simp only [h1, h2]
  split
  · rfl
  · next h0 =>
    have h0 : inact src = [] := by simpa using h0
    simp [copied, h0, users]

/-- In general `watchCopy` changes at most the inactive watchpoint. -/
theorem watchCopy_cases (P : Platform) (src dst : Node) :
    (watchCopy P src dst).1 = dst ∨ ∃ w, (watchCopy P src dst).1 = setInact w dst ∧
      (w = copied P src.watch (inact src) (inact dst)) := by
  by_cases h : users src.watch = []
  · unfold watchCopy
    simp only [foldl_inactive, if_pos h]
    split
    · split
      · exact .inl rfl
      · next w hw =>
        refine .inr ⟨_, rfl, ?_⟩
        simp [copied, h, inact, hw]
    · exact .inl rfl
  · rw [watchCopy_fst P src dst h]
    exact .inr ⟨_, rfl, rfl⟩

theorem users_mem {w : WP} {x : Key × Event} (h : x ∈ users w) : x ∈ w ∧ x.1 ≠ .nil := by
  simpa [users] using h

theorem RW.addAll {w : WP} (h : RW P w) (l : List (Key × Event))
    (hl : ∀ x ∈ l, x.1 ≠ .nil ∧ x.1 ≠ .recCh ∧ x.2 &&& P.omitted = 0 ∧ x.2 ≠ 0) :
    RW P (l.foldl (fun w x => (WP.add P w x.1 x.2).1) w) := by
  induction l generalizing w with
  | nil => exact h
  | cons x l ih =>
    obtain ⟨k, e⟩ := x
    have hx := hl (k, e) List.mem_cons_self
    cases k with
    | nil => exact absurd rfl hx.1
    | recCh => exact absurd rfl hx.2.1
    | user c => exact ih (h.add c hx.2.2.1 hx.2.2.2) (fun y hy => hl y (List.mem_cons_of_mem _ hy))

theorem RW.users_ok {w : WP} (h : RW P w) : ∀ x ∈ users w, x.1 ≠ .nil ∧ x.1 ≠ .recCh ∧ x.2 &&& P.omitted = 0 ∧ x.2 ≠ 0 := by
  rintro ⟨k, e⟩ hx
  obtain ⟨h1, h2⟩ := users_mem hx
  have hg := GoMap.get?_of_mem h.nodup h1
  cases k with
  | nil => exact absurd rfl h2
  | recCh => rw [h.norec] at hg; simp at hg
  | user c => exact ⟨by simp, by simp, (h.user c e hg).1, h.ne c e hg⟩

theorem RW.copied {src inac dst : WP} (h1 : RW P src) (h2 : RW P inac) (h3 : RW P dst) : RW P (copied P src inac dst) :=
  (h3.addAll _ h1.users_ok).addAll _ h2.users_ok

/-- `copyAll` changes at most the inactive watchpoint at `p`. -/
theorem copyAll_eff {p : Path} (hp : [] ∉ p) (rs : List Path) {s : St} (h : ROK Q s.root) (hg : s.root.get? p ≠ none)
    (h0 : Q []) (hQ : ∀ a b d, Q a → Q b → Q d → Q (copied P a b d)) :
    ROK Q (copyAll P p rs s).root ∧ (∀ r, s.root.get? r ≠ none → (copyAll P p rs s).root.get? r ≠ none) ∧
    (∀ r, r ≠ p ++ [[]] → watchAt (copyAll P p rs s).root r = watchAt s.root r) ∧
    (copyAll P p rs s).world.log = s.world.log := by
  induction rs generalizing s with
  | nil => exact ⟨h, fun _ h => h, fun _ _ => rfl, rfl⟩
  | cons r rs ih =>
    simp only [copyAll]
    have hstep : ROK Q (s.root.update p (fun _ => (watchCopy P (nodeAt s.root (p ++ r)) (nodeAt s.root p)).1)) ∧
        (∀ q, s.root.get? q ≠ none →
          (s.root.update p (fun _ => (watchCopy P (nodeAt s.root (p ++ r)) (nodeAt s.root p)).1)).get? q ≠ none) ∧
        (∀ q, q ≠ p ++ [[]] →
          watchAt (s.root.update p (fun _ => (watchCopy P (nodeAt s.root (p ++ r)) (nodeAt s.root p)).1)) q =
            watchAt s.root q) := by
      rcases watchCopy_cases P (nodeAt s.root (p ++ r)) (nodeAt s.root p) with h1 | ⟨w, h1, h2⟩
      · have he : s.root.update p (fun _ => (watchCopy P (nodeAt s.root (p ++ r)) (nodeAt s.root p)).1) = s.root := by
          rw [h1, update_const (f := fun x => x)]
          exact update_id _ _
        rw [he]
        exact ⟨h, fun _ h => h, fun _ _ => rfl⟩
      · have he : s.root.update p (fun _ => (watchCopy P (nodeAt s.root (p ++ r)) (nodeAt s.root p)).1) =
            s.root.update p (setInact w) := by
          rw [h1, update_const (f := setInact w)]
        rw [he]
        have hw : Q w := by
          rw [h2]
          refine hQ _ _ _ ?_ ?_ ?_
          · rw [watch_nodeAt]; exact ROK.watchAt h h0 _
          · rw [inact_nodeAt]; exact ROK.watchAt h h0 _
          · rw [inact_nodeAt]; exact ROK.watchAt h h0 _
        refine ⟨Node.update_OK h hp fun x _ hx => setInact_OK hx hw, fun q hq => ?_, fun q hq => ?_⟩
        · by_cases hpq : p <+: q
          · obtain ⟨t, rfl⟩ := hpq
            refine get_update_ne _ _ ?_ hq
            intro x hx
            rw [← Node.find_eq_none, find_setInact] at hx
            split at hx
            · simp at hx
            · split at hx
              · next h3 h4 =>
                exfalso
                obtain ⟨t', rfl⟩ := h4
                apply hq
                rw [← Node.find_eq_none]
                rw [List.singleton_append]
                exact OK.flat h hp (by rintro rfl; exact h3 rfl)
              · exact (Node.find_eq_none _ _).1 hx
          · rw [Ne, ← Node.find_eq_none, Node.update_find_other _ _ _ hpq, Node.find_eq_none]; exact hq
        · rw [watchAt_setInact h hp hg, if_neg hq]
    have := @ih { root := s.root.update p (fun _ => (watchCopy P (nodeAt s.root (p ++ r)) (nodeAt s.root p)).1),
                  world := if (watchCopy P (nodeAt s.root (p ++ r)) (nodeAt s.root p)).2 then s.world.panic
                    else s.world } hstep.1 (hstep.2.1 p hg)
    refine ⟨this.1, fun q hq => this.2.1 q (hstep.2.1 q hq), fun q hq => ?_, ?_⟩
    · rw [this.2.2.1 q hq]; exact hstep.2.2 q hq
    · rw [this.2.2.2]; split <;> rfl
where
  update_id (root : Node) (p : Path) : root.update p (fun x => x) = root := by
    induction p generalizing root with
    | nil => rfl
    | cons b p ih =>
      obtain ⟨n, w, ch⟩ := root
      simp only [Node.update]
      cases hg : ch.get? b with
      | none => rfl
      | some c => simp only [ih, Node.mk.injEq, true_and]; exact Node.update_of_none.put_same hg

end Rec
end Verif
