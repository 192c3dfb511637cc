/-
Failures that the non-recursive tree ignores: when a Watch that returns nil is in force (C83).

The histories here are those of `NonRecHist` in which any call may fail, also those whose failure the code ignores.
-/
import Verif.PropsNonRec2

namespace Verif

section
variable {σ α : Type} {skip : Bool} {fn : σ → WP → Path → WP → σ × WP}

/-- A traversal that does not visit `q` leaves `q` alone. -/
theorem Node.trav_frame {Q Q' : WP → Prop} {π : σ → α} {q : Path}
    (hQ : ∀ s pw n w, Q' pw → Q w → Q' (fn s pw n w).2)
    (hfr : ∀ s pw n w, n ≠ q → π (fn s pw n w).1 = π s) {s : σ} {pw : WP} (hpw : Q' pw) {n : Path} {nd : Node}
    (h : nd.OK Q noR n) (hq : ∀ r, nd.find r ≠ none → q ≠ n ++ r) : π (Node.trav skip fn s pw nd).1 = π s := by
  have := (Node.trav_os (skip := skip) (os := fun s p => if p = q then some (π s) else none) (tot := fun _ => none)
    (V := fun _ => True) hQ (fun s pw n w _ _ _ ho => by
      have hn : n ≠ q := by
        intro e; rw [if_pos e] at ho; exact absurd ho (by simp)
      exact ⟨trivial, by simp [hn], fun p hp => by split <;> simp [hfr s pw n w hn]⟩)
    (s := s) hpw h trivial (fun r w hr => by
      rw [if_neg]; rintro e; exact hq r (by rw [hr]; simp) e.symm)).2.2 q hq
  simpa using this

theorem Forest.trav_frame {Q Q' : WP → Prop} {π : σ → α} {q : Path}
    (hQ : ∀ s pw n w, Q' pw → Q w → Q' (fn s pw n w).2)
    (hfr : ∀ s pw n w, n ≠ q → π (fn s pw n w).1 = π s) {s : σ} {pw : WP} (hpw : Q' pw) {n : Path} {f : Forest}
    (h : f.OK Q noR n) (hq : ∀ b r, (f.get? b).bind (·.find r) ≠ none → q ≠ n ++ b :: r) :
    π (Forest.trav skip fn s pw f).1 = π s := by
  have := (Forest.trav_os (skip := skip) (os := fun s p => if p = q then some (π s) else none) (tot := fun _ => none)
    (V := fun _ => True) hQ (fun s pw n w _ _ _ ho => by
      have hn : n ≠ q := by
        intro e; rw [if_pos e] at ho; exact absurd ho (by simp)
      exact ⟨trivial, by simp [hn], fun p hp => by split <;> simp [hfr s pw n w hn]⟩)
    (s := s) hpw h trivial (fun b r w hr => by
      rw [if_neg]; rintro e; exact hq b r (by rw [hr]; simp) e.symm)).2.2 q hq
  simpa using this

mutual
/-- A traversal does at `q` what one call of the callback does. -/
theorem Node.trav_at {Q Q' : WP → Prop} {π : σ → α} {q : Path}
    (hQ : ∀ s pw n w, Q' pw → Q w → Q' (fn s pw n w).2)
    (hfr : ∀ s pw n w, n ≠ q → π (fn s pw n w).1 = π s) {s : σ} {pw : WP} (hpw : Q' pw) {n : Path} :
    {nd : Node} → nd.OK Q noR n → ∀ {r : Path}, q = n ++ r → ∀ {w : WP}, nd.find r = some w →
      ∃ s' pw', Q' pw' ∧ π s' = π s ∧ π (Node.trav skip fn s pw nd).1 = π (fn s' pw' q w).1 ∧
        (Node.trav skip fn s pw nd).2.find r = some (fn s' pw' q w).2
  | .mk n' w' ch, h, r, hq, w, hf => by
    simp only [Node.OK] at h
    obtain ⟨rfl, hw, hc⟩ := h
    have hne : ∀ (b : Comp) (r : Path), n' ++ b :: r ≠ n' := by
      intro b r e
      have := congrArg List.length e
      simp at this
    cases r with
    | nil =>
      simp only [List.append_nil] at hq
      subst hq
      simp only [Node.find_nil, Node.watch, Option.some.injEq] at hf
      subst hf
      refine ⟨s, pw, hpw, rfl, ?_, by simp [Node.trav, Node.watch]⟩
      simp only [Node.trav]
      exact Forest.trav_frame hQ hfr (hQ s pw q w' hpw hw) hc (fun b r _ e => hne b r e.symm)
    | cons b r =>
      have h1 : n' ≠ q := by rw [hq]; exact (hne b r).symm
      simp only [Node.find_cons, Node.child] at hf
      obtain ⟨s', pw', h2, h3, h4, h5⟩ := Forest.trav_at hQ hfr (s := (fn s pw n' w').1) (hQ s pw n' w' hpw hw) hc hq hf
      refine ⟨s', pw', h2, h3.trans (hfr s pw n' w' h1), ?_, ?_⟩
      · simpa only [Node.trav] using h4
      · simpa only [Node.trav, Node.find_cons, Node.child] using h5
theorem Forest.trav_at {Q Q' : WP → Prop} {π : σ → α} {q : Path}
    (hQ : ∀ s pw n w, Q' pw → Q w → Q' (fn s pw n w).2)
    (hfr : ∀ s pw n w, n ≠ q → π (fn s pw n w).1 = π s) {s : σ} {pw : WP} (hpw : Q' pw) {n : Path} :
    {f : Forest} → f.OK Q noR n → ∀ {b : Comp} {r : Path}, q = n ++ b :: r → ∀ {w : WP}, (f.get? b).bind (·.find r) = some w →
      ∃ s' pw', Q' pw' ∧ π s' = π s ∧ π (Forest.trav skip fn s pw f).1 = π (fn s' pw' q w).1 ∧
        ((Forest.trav skip fn s pw f).2.get? b).bind (·.find r) = some (fn s' pw' q w).2
  | .nil, _, b, r, hq, w, hf => by simp [Forest.get?] at hf
  | .cons b' nd rest, h, b, r, hq, w, hf => by
    simp only [Forest.OK] at h
    have hb : b' ≠ [] := h.2.1
    have hsk : (skip && b' == []) = false := by simp [hb]
    have hfresh : rest.get? b' = none := by rw [Forest.get?_eq_none]; exact h.1
    simp only [Forest.trav, hsk, Bool.false_eq_true, if_false, Forest.get?]
    simp only [Forest.get?] at hf
    by_cases e : b' = b
    · subst e
      simp only [if_true, Option.bind_some] at hf ⊢
      obtain ⟨s', pw', h2, h3, h4, h5⟩ := Node.trav_at hQ hfr (s := s) hpw (h.2.2.1 hb) (r := r) (by rw [hq]; simp) hf
      refine ⟨s', pw', h2, h3, ?_, h5⟩
      rw [← h4]
      apply Forest.trav_frame hQ hfr hpw h.2.2.2
      intro b2 r2 hr e
      rw [hq] at e
      simp only [List.append_cancel_left_eq, List.cons.injEq] at e
      rw [← e.1, hfresh] at hr
      simp at hr
    · simp only [e, if_false] at hf ⊢
      have h1 : π (Node.trav skip fn s pw nd).1 = π s := by
        apply Node.trav_frame hQ hfr hpw (h.2.2.1 hb)
        intro r2 _ e2
        rw [hq] at e2
        simp only [List.append_assoc, List.cons_append, List.nil_append, List.append_cancel_left_eq, List.cons.injEq] at e2
        exact e e2.1.symm
      obtain ⟨s', pw', h2, h3, h4, h5⟩ := Forest.trav_at hQ hfr (s := (Node.trav skip fn s pw nd).1) hpw h.2.2.2 hq hf
      exact ⟨s', pw', h2, h3.trans h1, h4, h5⟩
end
end

/-- A scan of a directory that is not above `q` leaves `q` alone. -/
theorem DirTree.addDir_frame {σ α : Type} {fn : σ → Path → WP → σ × WP} {Q : WP → Prop} {π : σ → α} {q : Path} (hQ0 : Q [])
    (hQ : ∀ s n w, Q w → Q (fn s n w).2) (hfr : ∀ s n w, n ≠ q → π (fn s n w).1 = π s) {n : Path} (hn : [] ∉ n)
    {d : DirTree} (hd : d.Named) {s : σ} {nd : Node} (h : nd.OK Q noR n) (hq : ¬ n <+: q) : π (d.addDir fn s nd).1 = π s := by
  have := (DirTree.addDir_os (os := fun s p => if p = q then some (π s) else none) (tot := fun _ => none)
    (V := fun _ => True) hQ0 hQ (fun s n w _ _ ho => by
      have hn : n ≠ q := by
        intro e; rw [if_pos e] at ho; exact absurd ho (by simp)
      exact ⟨trivial, by simp [hn], fun p hp => by split <;> simp [hfr s n w hn]⟩)
    hn d hd (s := s) h trivial (fun r => by
      rw [if_neg]; rintro rfl; exact hq (List.prefix_append _ _))).2.2 q hq
  simpa using this

namespace NonRec
open GoMap

variable {P : Platform}

/-- A call about another path changes nothing about `q`. -/
theorem exec_other (O : Oracle) (s : World) {n q : Path} (h : n ≠ q) :
    (∀ d, osOf (s.exec O (diffCall n d)).1.log q = osOf s.log q) ∧ osOf (s.exec O (.unwatch n)).1.log q = osOf s.log q ∧
    ∀ a b, osOf (s.exec O (.rewatch n a b)).1.log q = osOf s.log q := by
  refine ⟨fun d => ?_, ?_, fun a b => ?_⟩
  · unfold diffCall World.exec
    split <;> (dsimp only; cases O s.log _ <;> simp [osOf, h])
  · unfold World.exec; dsimp only; cases O s.log _ <;> simp [osOf, h]
  · unfold World.exec; dsimp only; cases O s.log _ <;> simp [osOf, h]

theorem recFunc_other (O : Oracle) (e : Event) (s : World) {n q : Path} (w : WP) (h : n ≠ q) :
    osOf (recFunc P O e s n w).1.log q = osOf s.log q := by
  unfold recFunc
  dsimp only
  split
  · rfl
  · split
    · rfl
    · exact (exec_other O s h).1 _

theorem stopFunc_other (O : Oracle) (c : Nat) (s : World) (pw : WP) {n q : Path} (w : WP) (h : n ≠ q) :
    osOf (stopFunc P O c s pw n w).1.log q = osOf s.log q := by
  unfold stopFunc
  dsimp only
  split
  · split
    · rfl
    · split
      · exact (exec_other O s h).2.1
      · exact (exec_other O s h).2.2 _ _
  · rfl

/-- No recursive watch reaches `p`, and what is registered on `p` is watched there. -/
structure Plain (P : Platform) (p : Path) (s : St) : Prop where
  shape : Shape P s.root
  norec : ∀ q, q <+: p → (watchAt s.root q).get? .recCh = none
  backed : (watchAt s.root p).total P ⊑ osOf s.world.log p

/-- The operation is not a recursive Watch of `p` or of a directory above it. -/
def Op.NotAbove (p : Path) : Op → Prop
  | .watch q true _ _ _ => ¬ q <+: p
  | _ => True

theorem plain_init (P : Platform) (p : Path) : Plain P p init := by
  have : ∀ q, watchAt init.root q = [] := by intro q; cases q <;> rfl
  refine ⟨(good_init P).shape, fun q _ => by rw [this]; rfl, ?_⟩
  have h0 : WP.total P ([] : WP) = 0 := by simp [WP.total, WP.val, GoMap.get?]
  rw [this, h0]
  ebits

theorem osOf_exec_diff (O : Oracle) (s : World) (n : Path) (a b : Event) (q : Path) :
    osOf (s.exec O (diffCall n (a, b))).1.log q =
      if (s.exec O (diffCall n (a, b))).2 = true ∧ n = q then b else osOf s.log q := by
  simp only [World.exec]
  rcases Bool.eq_false_or_eq_true (O s.log (diffCall n (a, b))) with h | h
  · simp only [h, true_and]; rw [osOf_diffCall]
  · simp only [h, Bool.false_eq_true, false_and, if_false]; rw [osOf_fail]

/-- A non-recursive Watch. -/
theorem Plain.watch (hP : P.Facts) (O : Oracle) {p p' : Path} {s : St} (h : Plain P p s) (hp : GoodPath p')
    (hg : s.root.get? p' ≠ none) (c : Nat) {e : Event} (he : UserEvents P e) : Plain P p (NonRec.watch P O s p' c e).1 := by
  refine ⟨(watch_effect hP O h.shape hp hg c he).1, ?_, ?_⟩
  · intro q hq
    have hn := h.norec q hq
    have h1 : ∀ (e : Event), ((watchAt s.root p').add P (.user c) e).1.get? .recCh = (watchAt s.root p').get? .recCh := by
      intro e; rw [WP.get?_add P _ (by simp)]; simp
    unfold NonRec.watch
    dsimp only
    split
    · dsimp only; rw [watchAt_setWatch hg]; split
      · next e1 => rw [h1, ← e1]; exact hn
      · exact hn
    · split
      · dsimp only; rw [watchAt_setWatch hg]; split
        · next e1 => rw [h1, ← e1]; exact hn
        · exact hn
      · split
        · dsimp only; rw [watchAt_setWatch hg]; split
          · next e1 => rw [h1, ← e1]; exact hn
          · exact hn
        · dsimp only; rw [watchAt_setWatch (get_setWatch_ne hg _)]; split
          · next e1 =>
            rw [WP.get?_del_ne_nil P _ (by simp) _ (by simp), if_neg (by simp), h1, ← e1]; exact hn
          · next e1 =>
            rw [watchAt_setWatch hg, if_neg e1]; exact hn
  · have hw := h.shape.nr p'
    unfold NonRec.watch
    simp only [add_diffOf P (watchAt s.root p') (k := .user c) nofun, diffOf_none]
    by_cases h1 : (watchAt s.root p').total P = ((watchAt s.root p').add P (.user c) e).1.total P
    · simp only [h1, if_true]
      rw [watchAt_setWatch hg]
      split
      · next e1 => subst e1; rw [← h1]; exact h.backed
      · exact h.backed
    · simp only [h1, if_false, diffOf_ne h1]
      have hne : ((watchAt s.root p').add P (.user c) e).1.total P ≠ 0 := by
        intro h0
        rw [total_add P _ (by simp)] at h0
        have := or_sub_left _ _ h0
        apply h1
        rw [this, total_add P _ (by simp), h0]
      simp only [hne, if_false]
      have hx := osOf_exec_diff O s.world p' ((watchAt s.root p').total P) (((watchAt s.root p').add P (.user c) e).1.total P) p
      split
      · next hok =>
        dsimp only
        rw [watchAt_setWatch hg, hx]
        by_cases e1 : p = p'
        · subst e1; simp only [hok, if_true, and_self]; exact Event.Sub.refl _
        · rw [if_neg e1, if_neg (fun x => e1 x.2.symm)]; exact h.backed
      · next hok =>
        dsimp only
        rw [hx, if_neg (fun x => hok x.1), watchAt_setWatch (get_setWatch_ne hg _)]
        by_cases e1 : p = p'
        · subst e1
          rw [if_pos rfl, (hw.rollback hP (c := c) (event_nonzero he.1 he.2) he.2 rfl rfl).2]
          exact h.backed
        · rw [if_neg e1, watchAt_setWatch hg, if_neg e1]; exact h.backed

theorem Plain.add {p p' : Path} {s : St} (h : Plain P p s) (hp : GoodPath p') :
    Plain P p { s with root := s.root.add p' } :=
  ⟨h.shape.add hp, fun q hq => by dsimp only; rw [watchAt_add]; exact h.norec q hq, by dsimp only; rw [watchAt_add]; exact h.backed⟩

/-- If nothing that matters changes. -/
theorem Plain.congr {p : Path} {s s' : St} (h : Plain P p s) (hs : Shape P s'.root)
    (hw : ∀ q, q <+: p → watchAt s'.root q = watchAt s.root q) (ho : osOf s'.world.log p = osOf s.world.log p) : Plain P p s' :=
  ⟨hs, fun q hq => by rw [hw q hq]; exact h.norec q hq, by rw [hw p List.prefix_rfl, ho]; exact h.backed⟩

theorem prefix_ne {p p' q : Path} (hq : q <+: p) (hn : ¬ p' <+: p) : ¬ p' <+: q := fun h => hn (h.trans hq)

/-- A recursive Watch elsewhere. -/
theorem Plain.watchrec (hP : P.Facts) (O : Oracle) {p p' : Path} {s : St} (h : Plain P p s) (hp : GoodPath p')
    (hg : s.root.get? p' ≠ none) (c : Nat) {e : Event} (he : RecSet P e) {dt : DirTree} (hd : dt.Named) (hn : ¬ p' <+: p) :
    Plain P p (NonRec.watchrec P O dt s p' c e).1 := by
  have hsh := (watchrec_effect hP O h.shape hp hg c he hd).1
  have hset : ∀ (nd : Node) (w : WP) q, nd.get? p' ≠ none → q <+: p → watchAt (nd.update p' (Node.setWatch w)) q = watchAt nd q := by
    intro nd w q hg hq
    rw [watchAt_setWatch hg, if_neg]
    rintro rfl; exact hn hq
  refine h.congr hsh ?_ ?_
  · intro q hq
    unfold NonRec.watchrec
    dsimp only
    split
    · exact hset _ _ q hg hq
    · split
      · rfl
      · obtain ⟨nd, hnd⟩ := Option.ne_none_iff_exists'.1 hg
        simp only [hnd]
        generalize (if ((watchAt s.root p').dryAdd P Key.recCh (e ||| P.create)).1 = 0 then dt.addDir (recFunc P O e) s.world nd
            else ((nd.trav true (fun s _ n w => recFunc P O e s n w) s.world []).1,
              (nd.trav true (fun s _ n w => recFunc P O e s n w) s.world []).2, true)) = R
        cases R.2.2
        · exact watchAt_put_other _ _ (prefix_ne hq hn)
        · simp only [if_true]
          rw [hset _ _ q (get_put_ne hg _) hq]
          exact watchAt_put_other _ _ (prefix_ne hq hn)
  · unfold NonRec.watchrec
    dsimp only
    split
    · rfl
    · split
      · rfl
      · obtain ⟨nd, hnd⟩ := Option.ne_none_iff_exists'.1 hg
        have hndok : nd.OK (NR P) noR p' := by simpa using h.shape.ok.get hp.2 hnd
        simp only [hnd]
        have key : osOf (if ((watchAt s.root p').dryAdd P Key.recCh (e ||| P.create)).1 = 0 then dt.addDir (recFunc P O e) s.world nd
            else ((nd.trav true (fun s _ n w => recFunc P O e s n w) s.world []).1,
              (nd.trav true (fun s _ n w => recFunc P O e s n w) s.world []).2, true)).1.log p = osOf s.world.log p := by
          split
          · exact DirTree.addDir_frame (π := fun s : World => osOf s.log p) (Q := NR P) (nr_nil P)
              (fun s n w hw => recFunc_nr he.1 hw) (fun s n w hnp => recFunc_other O e s w hnp) hp.2 hd hndok hn
          · exact Node.trav_frame (π := fun s : World => osOf s.log p) (Q := NR P) (Q' := NR P)
              (fun s _ n w _ hw => recFunc_nr he.1 hw) (fun s _ n w hnp => recFunc_other O e s w hnp) (nr_nil P) hndok
              (by rintro r _ rfl; exact hn (List.prefix_append _ _))
        revert key
        generalize (if ((watchAt s.root p').dryAdd P Key.recCh (e ||| P.create)).1 = 0 then dt.addDir (recFunc P O e) s.world nd
            else ((nd.trav true (fun s _ n w => recFunc P O e s n w) s.world []).1,
              (nd.trav true (fun s _ n w => recFunc P O e s n w) s.world []).2, true)) = R
        intro key
        cases R.2.2 <;> exact key

theorem Plain.stop (hP : P.Facts) (O : Oracle) {p : Path} {s : St} (h : Plain P p s) (c : Nat) : Plain P p (NonRec.stop P O s c) := by
  have hQ : ∀ s pw n w, NR P pw → NR P w → NR P (stopFunc P O c s pw n w).2 :=
    fun _ _ _ _ hpw hw => stopFunc_nr hP hpw hw
  have hfind : ∀ q w, s.root.find q = some w → ∃ s' pw', NR P pw' ∧ osOf s'.log q = osOf s.world.log q ∧
      osOf (NonRec.stop P O s c).world.log q = osOf (stopFunc P O c s' pw' q w).1.log q ∧
      (NonRec.stop P O s c).root.find q = some (stopFunc P O c s' pw' q w).2 := fun q w hw =>
    Node.trav_at (skip := false) (π := fun s : World => osOf s.log q) (Q := NR P) (Q' := NR P) hQ
      (fun s pw n w hn => stopFunc_other O c s pw w hn) (s := s.world) (nr_nil P) h.shape.ok (r := q) (by simp) hw
  have hnone : ∀ q, s.root.find q = none → osOf (NonRec.stop P O s c).world.log q = osOf s.world.log q ∧
      (NonRec.stop P O s c).root.find q = none := by
    intro q hq
    refine ⟨Node.trav_frame (skip := false) (π := fun s : World => osOf s.log q) (Q := NR P) (Q' := NR P) hQ
      (fun s pw n w hn => stopFunc_other O c s pw w hn) (nr_nil P) h.shape.ok
      (by rintro r hr e; simp only [List.nil_append] at e; subst e; exact hr hq), ?_⟩
    have h1 := Node.trav_find (skip := false) (s := s.world) (pw := []) (fun s pw n w => stopFunc_snd P O c s pw n w) h.shape.ok q
    have h2 := Node.travW_isSome (fun pw w => if w.length ≠ 0 then
          (watchDelMin P (pw.val .recCh) w (.user c) allEvents).1 else w) [] s.root q
    rw [hq, ← h1] at h2
    have h3 : ((Node.trav false (stopFunc P O c) s.world [] s.root).2.find q).isSome = false := h2
    have h4 : (Node.trav false (stopFunc P O c) s.world [] s.root).2.find q = none := by simpa using h3
    exact h4
  have hnr : ∀ q w, s.root.find q = some w → NR P w := fun q w hw => h.shape.ok.find_Q hw
  have hrec : ∀ w pw : WP, NR P w → NR P pw → w.get? .recCh = none → ∀ s' n, (stopFunc P O c s' pw n w).2.get? .recCh = none ∧
      (w.total P ⊑ osOf s'.log n → (stopFunc P O c s' pw n w).2.total P ⊑ osOf (stopFunc P O c s' pw n w).1.log n) := by
    intro w pw hw hpw hr s' n
    rw [stopFunc_snd]
    unfold stopFunc
    by_cases hl : w.length ≠ 0
    · rw [if_pos hl, if_pos hl]
      obtain ⟨_, _, hd, _, hx⟩ := watchDelMin_spec hP hw hpw.minOK c
      refine ⟨hx.2 (Or.inl hr), fun hb => ?_⟩
      dsimp only
      have hdel : (watchDelMin P (pw.val .recCh) w (.user c) allEvents).1 = (w.del P (.user c) allEvents).1 := by
        unfold watchDelMin; rw [hr]
      have hsub : (watchDelMin P (pw.val .recCh) w (.user c) allEvents).1.total P ⊑ w.total P := by
        rw [hdel]
        intro i hi
        obtain ⟨h1, k, v, hk, hv, hbit⟩ := (total_bit (hw.del_all c).inv i).1 hi
        rw [WP.get?_del_ne_nil P w (by simp) _ hk] at hv
        refine (total_bit hw.inv i).2 ⟨h1, k, v, hk, ?_, hbit⟩
        split at hv
        · simp [allEvents] at hv
        · exact hv
      rw [hd]
      simp only [diffOf_none]
      by_cases h1 : w.total P = (watchDelMin P (pw.val .recCh) w (.user c) allEvents).1.total P
      · rw [if_pos h1, ← h1]; exact hb
      · rw [if_neg h1, diffOf_ne h1]
        dsimp only
        split
        · next h0 =>
          rw [h0]
          simp [World.exec]
          ebits
        · simp only [World.exec]
          cases O s'.log (Call.rewatch n (w.total P) _) with
          | true => simp only [osOf, if_true]; exact Event.Sub.refl _
          | false => rw [osOf_fail]; exact hsub.trans hb
    · rw [if_neg hl, if_neg hl]; exact ⟨hr, fun hb => hb⟩
  refine ⟨(stop_effect hP O h.shape c).1, ?_, ?_⟩
  · intro q hq
    cases hf : s.root.find q with
    | none => unfold watchAt; rw [(hnone q hf).2]; rfl
    | some w =>
      obtain ⟨s', pw', h1, _, _, h2⟩ := hfind q w hf
      unfold watchAt
      rw [h2]
      have := h.norec q hq
      rw [find_some_watchAt hf] at this
      exact (hrec w pw' (hnr q w hf) h1 this s' q).1
  · cases hf : s.root.find p with
    | none =>
      unfold watchAt; rw [(hnone p hf).2, (hnone p hf).1]
      have := h.backed
      unfold watchAt at this
      rwa [hf] at this
    | some w =>
      obtain ⟨s', pw', h1, h3, h4, h2⟩ := hfind p w hf
      unfold watchAt
      rw [h2, h4]
      have h5 := h.norec p List.prefix_rfl
      rw [find_some_watchAt hf] at h5
      have h6 := h.backed
      rw [find_some_watchAt hf, ← h3] at h6
      exact (hrec w pw' (hnr p w hf) h1 h5 s' p).2 h6

theorem Plain.internal (O : Oracle) {p : Path} {s : St} (h : Plain P p s) {ei : EventInfo} (hp : GoodPath ei.path)
    {dt : DirTree} (hd : dt.Named) : Plain P p (NonRec.internal P O dt s ei) := by
  have hsh := (internal_effect O h.shape hp hd).1
  revert hsh
  unfold NonRec.internal
  split
  · split
    · exact fun _ => h
    · next nd hnd =>
      have hndok : nd.OK (NR P) noR ei.path := by simpa using h.shape.ok.get hp.2 hnd
      have hsome := Node.del_isSome s.root hp.1
      rw [hnd] at hsome
      obtain ⟨root', hroot'⟩ := Option.isSome_iff_exists.1 hsome
      rw [hroot']
      simp only [Option.getD_some]
      intro hsh
      by_cases hq : ei.path <+: p
      · have hw : ∀ q, q <+: p → (watchAt root' q).get? .recCh = none := by
          intro q hq
          rw [h.shape.del_watchAt hroot' q]
          split
          · rfl
          · exact h.norec q hq
        refine ⟨hsh, hw, ?_⟩
        dsimp only
        rw [h.shape.del_watchAt hroot' p, if_pos hq]
        have h0 : WP.total P ([] : WP) = 0 := by simp [WP.total, WP.val, GoMap.get?]
        rw [h0]; ebits
      · refine h.congr hsh ?_ ?_
        · intro q hqp
          dsimp only
          rw [h.shape.del_watchAt hroot' q, if_neg (prefix_ne hqp hq)]
        · exact Node.trav_frame (π := fun s : World => osOf s.log p) (Q := NR P) (Q' := NR P)
            (fun s pw n w _ hw => by unfold unwatchFunc; split <;> exact hw)
            (fun s pw n w hnp => by
              unfold unwatchFunc; split
              · exact (exec_other O s hnp).2.1
              · rfl) (nr_nil P) hndok
            (by rintro r _ rfl; exact hq (List.prefix_append _ _))
  · dsimp only
    split
    · exact fun _ => h
    · next hne =>
      have hset := pickSet_ok h.shape.ok hne
      have h1 := h.add hp
      have hg := Node.add_get_ne_none s.root ei.path
      obtain ⟨nd, hnd⟩ := Option.ne_none_iff_exists'.1 hg
      simp only [hnd]
      have hndok : nd.OK (NR P) noR ei.path := by simpa using h1.shape.ok.get hp.2 hnd
      have hq : ¬ ei.path <+: p := by
        intro hq
        apply hne
        unfold pickSet
        rcases pickSet_ge P ((onPath s.root ei.path).map Node.watch) P.internal with h2 | ⟨w, hw, h3, h4⟩
        · exact h2
        · exfalso
          obtain ⟨nd', hnd', rfl⟩ := List.mem_map.1 hw
          obtain ⟨r, hr, hget⟩ := mem_onPath hnd'
          have := h.norec r (hr.trans hq)
          unfold watchAt Node.find at this
          rw [hget] at this
          exact h3 (WP.val_eq_zero_of_none this)
      intro hsh
      refine h.congr hsh ?_ ?_
      · intro q hqp
        dsimp only
        rw [watchAt_put_other _ _ (prefix_ne hqp hq), watchAt_add]
      · exact DirTree.addDir_frame (π := fun s : World => osOf s.log p) (Q := NR P) (nr_nil P)
          (fun s n w hw => recFunc_nr (rec_of_set hset) hw) (fun s n w hnp => recFunc_other O _ s w hnp) hp.2 hd hndok hq

theorem Plain.step (hP : P.Facts) {rel : Bool} {p : Path} {s s' : St} {op : Op} (h : Plain P p s) (hs : Step P rel s op s')
    (hop : op.NotAbove p) : Plain P p s' := by
  cases hs with
  | @watch p' isrec c e O dt hp he hd hO =>
    have h1 := h.add hp
    have hg := Node.add_get_ne_none s.root p'
    unfold watchOp
    cases isrec with
    | true => exact h1.watchrec hP O hp hg c (recSet_of hP he.1 he.2) hd hop
    | false => exact h1.watch hP O hp hg c he
  | @stop c O hO => exact h.stop hP O c
  | @internal ei O dt hp hd hO => exact h.internal O hp hd
  | shuffle hsh =>
    refine ⟨h.shape.shuffle hsh, fun q hq => ?_, ?_⟩
    · rw [hsh.get q]; exact h.norec q hq
    · have := h.backed
      rw [WP.total, WP.val] at this ⊢
      rw [hsh.get p .nil]; exact this

theorem Plain.steps (hP : P.Facts) {rel : Bool} {p : Path} {s s' : St} {ops : List Op} (h : Plain P p s) (hs : Steps P rel s ops s')
    (hop : ∀ op ∈ ops, op.NotAbove p) : Plain P p s' := by
  induction hs with
  | nil => exact h
  | snoc h1 h2 ih => exact (ih (fun o ho => hop o (by simp [ho]))).step hP h2 (hop _ (by simp))

/-- **C83, Watch and the outcome of the calls.**  Whatever calls fail, also those whose failure the code ignores: when a non-recursive Watch returns nil, the OS
watches the path for all the events, from then on until Stop of that channel or removal of the path, if neither the path nor a directory above it was passed
to a recursive Watch.  Missing for the full claim: recursive Watches, for which it is false (C83_refuted, C83_after_refuted). -/
theorem C83_in_force_partial (hP : P.Facts) {rel : Bool} {ops ops' : List Op} {s s₁ s₂ : St} {p : Path} {c : Nat} {e : Event}
    (h : Hist P rel ops s) (hw : Step P rel s (.watch p false c e true) s₁) (hlater : Steps P rel s₁ ops' s₂)
    (hops : ∀ op ∈ ops ++ ops', op.NotAbove p)
    (hops' : ∀ op ∈ ops', op ≠ .stop c ∧ ∀ ei, op = .internal ei → ei.event = P.remove → ¬ ei.path <+: p) :
    e ⊑ osOf s₂.world.log p := by
  have hs := Hist.shape hP h
  have hs₁ := hw.shape hP hs
  have h1 : Plain P p s₁ := ((plain_init P p).steps hP h (fun o ho => hops o (by simp [ho]))).step hP hw trivial
  have h2 : Plain P p s₂ := h1.steps hP hlater (fun o ho => hops o (by simp [ho]))
  have hi : e &&& P.internal = 0 := by obtain ⟨_, _, _, he, _⟩ := hw.watch_inv; exact he.2
  have key : ∃ v, entry s₂.root c p = some v ∧ e ⊑ v := by
    clear h2 hops
    induction hlater with
    | nil =>
      obtain ⟨O, dt, hp, he, hd, _, hb, rfl⟩ := hw.watch_inv
      rw [(watchOp_effect hP O hs hp false c he hd).2 c p, ← hb]
      refine ⟨(watchAt s.root p).val (.user c) ||| e ||| 0, ?_, ?_⟩
      · simp only [and_self, if_true, Bool.false_eq_true, if_false]
      · exact Event.Sub.trans (Event.sub_or_right _ _) (Event.sub_or_left _ _)
    | @snoc ops'' s₃ op s₄ h3 h4 ih =>
      obtain ⟨v, hv, hev⟩ := ih (fun o ho => hops' o (by simp [ho]))
      have hs₃ := h3.shape hP hs₁
      obtain ⟨hop1, hop2⟩ := hops' op (by simp)
      cases h4 with
      | @watch p' isrec' d e' O dt hp he hd hO =>
        rw [(watchOp_effect hP O hs₃ hp isrec' d he hd).2 c p]
        split
        · next hdq =>
          obtain ⟨rfl, rfl⟩ := hdq
          have hvv := val_of_some hv
          split
          · rw [hvv]
            exact ⟨_, rfl, hev.trans (Event.Sub.trans (Event.sub_or_left _ _) (Event.sub_or_left _ _))⟩
          · split
            · exact ⟨v, hv, hev⟩
            · obtain ⟨v', h5, h6⟩ := rolledBack_ge (hs₃.nr p) c he hv
              exact ⟨v', h5, hev.trans h6⟩
        · exact ⟨v, hv, hev⟩
      | @stop d O hO =>
        rw [(stop_effect hP O hs₃ d).2 c p, if_neg]
        · exact ⟨v, hv, hev⟩
        · rintro rfl; exact hop1 rfl
      | @internal ei O dt hp hd hO =>
        rw [(internal_effect O hs₃ hp hd).2 c p, if_neg]
        · exact ⟨v, hv, hev⟩
        · rintro ⟨h5, h6⟩; exact hop2 ei rfl h5 h6
      | shuffle hsh =>
        refine ⟨v, ?_, hev⟩
        have := hsh.get p (.user c)
        unfold entry; rw [this]; exact hv
  obtain ⟨v, hv, hev⟩ := key
  have hb := h2.backed
  have hsub := sub_total (h2.shape.nr p).inv (k := .user c) nofun hv
  clear hv hops' hops
  generalize (watchAt s₂.root p).total P = t at hsub hb
  generalize osOf s₂.world.log p = o at hb
  clear h1 h2 hlater
  ebits

theorem osOf_failed {l : Log} (h : ∀ x ∈ l, x.2 = false) (p : Path) : osOf l p = 0 := by
  induction l with
  | nil => rfl
  | cons x l ih =>
    obtain ⟨c, b⟩ := x
    have : b = false := h (c, b) (by simp)
    subst this
    rw [osOf_fail]; exact ih (fun x hx => h x (by simp [hx]))

/-- **C83, no watcher.**  If every call fails, as on systems for which there is no watcher (watcher_notimplemented.go, watcher_stub.go:10-13), every
non-recursive Watch returns an error, whatever was called before, unless the path or a directory above it was passed to a recursive Watch. -/
theorem C83_unsupported_partial (hP : P.Facts) {rel : Bool} {ops : List Op} {s s₁ : St} {p : Path} {c : Nat} {e : Event} {res : Bool}
    (h : Hist P rel ops s) (hw : Step P rel s (.watch p false c e res) s₁) (hops : ∀ op ∈ ops, op.NotAbove p)
    (hall : ∀ x ∈ s₁.world.log, x.2 = false) : res = false := by
  cases res with
  | false => rfl
  | true =>
    have h1 := C83_in_force_partial hP h hw .nil (by simpa using hops) (by simp)
    rw [osOf_failed hall] at h1
    have he : e ≠ 0 := by obtain ⟨_, _, _, he, _⟩ := hw.watch_inv; exact he.1
    exact absurd (by ebits : e = 0) he

namespace FailEx
/-- Nothing can be watched. -/
def no : Oracle := fun _ _ => false
/-- `/a/...` with `/a/b` below it, nothing can be watched. -/
def s1 : St := (watchOp Ex.I no Ex.list init [Ex.a] true 1 Ex.W).1
/-- Then a non-recursive Watch of `/a` by another channel. -/
def s2 : St := (watchOp Ex.I no Ex.list s1 [Ex.a] false 2 Ex.W).1
def s3 : St := (watchOp Ex.I no Ex.list init [Ex.a] false 2 Ex.W).1
theorem step1 : Step Ex.I false init (.watch [Ex.a] true 1 Ex.W true) s1 :=
  Step.watch (O := no) Ex.good_a Ex.uW Ex.list_named (by simp)
theorem step2 : Step Ex.I false s1 (.watch [Ex.a] false 2 Ex.W true) s2 :=
  Step.watch (O := no) Ex.good_a Ex.uW Ex.list_named (by simp)
theorem step3 : Step Ex.I false init (.watch [Ex.a] false 2 Ex.W false) s3 :=
  Step.watch (O := no) Ex.good_a Ex.uW Ex.list_named (by simp)
end FailEx

/-- **C83** is false of a recursive Watch: it returns nil although the OS refused to watch the directory and everything below. -/
theorem C83_refuted : ∃ (s : St) (p : Path) (c : Nat) (e : Event), Step Platform.inotify false init (.watch p true c e true) s ∧
    s.world.log.length = 2 ∧ (∀ x ∈ s.world.log, x.2 = false) ∧ entry s.root c p ≠ none ∧ osOf s.world.log p = 0 :=
  ⟨FailEx.s1, [Ex.a], 1, Ex.W, FailEx.step1, by decide, by decide, by decide, by decide⟩

/-- **C83** is false of a non-recursive Watch after a recursive one: it returns nil without a call, although nothing is watched. -/
theorem C83_after_refuted : ∃ (s s₁ : St) (p : Path) (c : Nat) (e : Event), Hist Platform.inotify false [.watch p true 1 e true] s ∧
    Step Platform.inotify false s (.watch p false c e true) s₁ ∧ c ≠ 1 ∧ s₁.world.log = s.world.log ∧ osOf s₁.world.log p = 0 :=
  ⟨FailEx.s1, FailEx.s2, [Ex.a], 2, Ex.W, Steps.nil.snoc FailEx.step1, FailEx.step2, by decide, by decide, by decide⟩

example : Hist Ex.I false [] init ∧ Step Ex.I false init (.watch [Ex.a] false 2 Ex.W false) FailEx.s3 ∧
    (∀ x ∈ FailEx.s3.world.log, x.2 = false) ∧ FailEx.s3.world.log ≠ [] :=
  ⟨.nil, FailEx.step3, by decide, by decide⟩

namespace FailEx
/-- Unwatch and Rewatch fail, Watch succeeds except below `/a/b`. -/
def some_ : Oracle := fun _ c => match c with
  | .watch p _ => p != [Ex.a, Ex.b]
  | _ => false
def t1 : St := (watchOp Ex.I some_ Ex.list init [Ex.a, Ex.b] true 1 Ex.W).1
def t2 : St := (watchOp Ex.I some_ Ex.list t1 [Ex.a] false 2 Ex.W).1
def t3 : St := (watchOp Ex.I some_ Ex.list t2 [Ex.a] false 3 Ex.CW).1
def t4 : St := stop Ex.I some_ t3 3
theorem tstep1 : Step Ex.I false init (.watch [Ex.a, Ex.b] true 1 Ex.W true) t1 :=
  Step.watch (O := some_) ⟨by decide, by decide⟩ Ex.uW Ex.list_named (by simp)
theorem tstep2 : Step Ex.I false t1 (.watch [Ex.a] false 2 Ex.W true) t2 :=
  Step.watch (O := some_) Ex.good_a Ex.uW Ex.list_named (by simp)
theorem tstep3 : Step Ex.I false t2 (.watch [Ex.a] false 3 Ex.CW false) t3 :=
  Step.watch (O := some_) Ex.good_a ⟨by decide, by decide⟩ Ex.list_named (by simp)
theorem tstep4 : Step Ex.I false t3 (.stop 3) t4 := Step.stop (O := some_) (by simp)
end FailEx

/-- Non-trivial case: calls fail before and after the Watch. -/
example : Hist Ex.I false [.watch [Ex.a, Ex.b] true 1 Ex.W true] FailEx.t1 ∧
    Step Ex.I false FailEx.t1 (.watch [Ex.a] false 2 Ex.W true) FailEx.t2 ∧
    Steps Ex.I false FailEx.t2 ([.watch [Ex.a] false 3 Ex.CW false] ++ [.stop 3]) FailEx.t4 ∧
    Op.NotAbove [Ex.a] (.watch [Ex.a, Ex.b] true 1 Ex.W true) ∧ FailEx.t4.world.log.length = 4 :=
  ⟨Steps.nil.snoc FailEx.tstep1, FailEx.tstep2, (Steps.nil.snoc FailEx.tstep3).snoc FailEx.tstep4, by
    show ¬ _ <+: _; decide, by decide⟩

end NonRec
end Verif
