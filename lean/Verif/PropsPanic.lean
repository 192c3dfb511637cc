/-
Panics of Watch and Stop (C88).
-/
import Verif.PropsStop
import Verif.PropsRecFail
import Verif.RecEx

namespace Verif
open GoMap

/-! ### Traversals that keep a quantity -/

section
variable {σ α : Type} {π : σ → α}

mutual
theorem Node.trav_keep {skip : Bool} {fn : σ → WP → Path → WP → σ × WP} (hfn : ∀ s pw n w, π (fn s pw n w).1 = π s) :
    (nd : Node) → ∀ (s : σ) (pw : WP), π (nd.trav skip fn s pw).1 = π s
  | .mk n w ch, s, pw => by
    simp only [Node.trav]
    rw [Forest.trav_keep hfn ch, hfn]
theorem Forest.trav_keep {skip : Bool} {fn : σ → WP → Path → WP → σ × WP} (hfn : ∀ s pw n w, π (fn s pw n w).1 = π s) :
    (f : Forest) → ∀ (s : σ) (pw : WP), π (f.trav skip fn s pw).1 = π s
  | .nil, s, pw => rfl
  | .cons b nd rest, s, pw => by
    simp only [Forest.trav]
    split
    · exact Forest.trav_keep hfn rest s pw
    · simp only
      rw [Forest.trav_keep hfn rest, Node.trav_keep hfn nd]
end

mutual
theorem DirTree.addDir_keep {fn : σ → Path → WP → σ × WP} (hfn : ∀ s n w, π (fn s n w).1 = π s) :
    (d : DirTree) → ∀ (s : σ) (nd : Node), π (d.addDir fn s nd).1 = π s
  | .err, s, .mk n w ch => by simp only [DirTree.addDir]; exact hfn _ _ _
  | .dir es, s, .mk n w ch => by
    simp only [DirTree.addDir]
    rw [Entries.addDir_keep hfn es, hfn]
theorem Entries.addDir_keep {fn : σ → Path → WP → σ × WP} (hfn : ∀ s n w, π (fn s n w).1 = π s) :
    (es : Entries) → ∀ (n : Path) (s : σ) (f : Forest), π (es.addDir fn n s f).1 = π s
  | .nil, n, s, f => rfl
  | .cons b isDir sub rest, n, s, f => by
    simp only [Entries.addDir]
    have h1 := Entries.addDir_keep hfn rest n s f
    split
    · exact h1
    · split
      · split
        · exact h1
        · simp only
          rw [DirTree.addDir_keep hfn sub, h1]
      · exact h1
end
end

/-! ### The tree for watchers without native recursion -/

namespace NonRec

variable {P : Platform}

theorem exec_panicked (O : Oracle) (s : World) (c : Call) : (s.exec O c).1.panicked = s.panicked := rfl

/-- A difference that is not `none` has a new set that is not empty. -/
theorem add_diff_ne (P : Platform) (w : WP) {k : Key} (hk : k ≠ .nil) (e : Event) (h : (w.add P k e).2 ≠ Diff.none) :
    (w.add P k e).2.2 ≠ 0 := by
  rw [add_diffOf P w hk, total_add P w hk] at h ⊢
  have hne : w.total P ≠ w.total P ||| (e &^ P.internal) := fun hc => h (diffOf_none.2 hc)
  rw [diffOf_ne hne]
  intro h0
  apply hne
  simp only at h0
  rw [h0]
  generalize w.total P = x at *
  generalize e &^ P.internal = y at *
  clear h hne
  ebits

theorem recFunc_panicked (O : Oracle) (e : Event) (s : World) (n : Path) (w : WP) :
    (recFunc P O e s n w).1.panicked = s.panicked := by
  unfold recFunc
  simp only
  split
  · rfl
  · next h =>
    rw [if_neg (add_diff_ne P w (by simp) _ h)]
    rfl

theorem stopFunc_panicked (O : Oracle) (c : Nat) (s : World) (pw : WP) (n : Path) (w : WP) :
    (stopFunc P O c s pw n w).1.panicked = s.panicked := by
  unfold stopFunc
  split
  · simp only
    split
    · rfl
    · split <;> rfl
  · rfl

theorem watch_panicked (O : Oracle) (s : St) (p : Path) (c : Nat) (e : Event) :
    (watch P O s p c e).1.world.panicked = s.world.panicked := by
  unfold watch
  simp only
  split
  · rfl
  · next h =>
    rw [if_neg (add_diff_ne P _ (by simp) _ h)]
    split <;> rfl

theorem watchrec_panicked (O : Oracle) (d : DirTree) (s : St) (p : Path) (c : Nat) (e : Event) :
    (watchrec P O d s p c e).1.world.panicked = s.world.panicked := by
  unfold watchrec
  simp only
  split
  · rfl
  · next h =>
    have hne : (WP.dryAdd P (watchAt s.root p) .recCh (e ||| P.create)).2 ≠ 0 := by
      unfold WP.dryAdd at h ⊢
      simp only at h ⊢
      split
      · next h0 => rw [if_pos h0] at h; exact absurd rfl h
      · next h0 =>
        intro h1
        apply h0
        simp only at h1
        generalize (watchAt s.root p).val .recCh = x at *
        generalize (e ||| P.create) &^ P.internal = y at *
        clear h h0
        ebits
    rw [if_neg hne]
    cases s.root.get? p with
    | none => rfl
    | some nd =>
      simp only
      generalize hr : (if (WP.dryAdd P (watchAt s.root p) .recCh (e ||| P.create)).1 = 0
        then d.addDir (recFunc P O e) s.world nd
        else ((nd.trav true (fun s _ n w => recFunc P O e s n w) s.world []).1,
          (nd.trav true (fun s _ n w => recFunc P O e s n w) s.world []).2, true)) = r
      have h1 : r.1.panicked = s.world.panicked := by
        rw [← hr]
        split
        · exact DirTree.addDir_keep (π := World.panicked) (fun s n w => recFunc_panicked O _ s n w) d _ _
        · exact Node.trav_keep (π := World.panicked) (fun s _ n w => recFunc_panicked O _ s n w) _ _ _
      split <;> exact h1

theorem watchOp_panicked (O : Oracle) (d : DirTree) (s : St) (p : Path) (isrec : Bool) (c : Nat) (e : Event) :
    (watchOp P O d s p isrec c e).1.world.panicked = s.world.panicked := by
  unfold watchOp
  simp only
  split
  · exact watchrec_panicked O d _ p c _
  · exact watch_panicked O _ p c e

/-- C88 for the tree of watchers without native recursion: in any state whatsoever, with any events,
whatever the OS calls and listings return, a Watch with a channel reaches no panic, nor does Stop, nor
the goroutine handling directory events. -/
theorem C88_nonrec (P : Platform) (O : Oracle) (d : DirTree) (s : St) :
    (∀ clean c es, (apiWatch P O d s clean (some c) es).1.world.panicked = s.world.panicked ∧
      (apiWatch P O d s clean (some c) es).2 ≠ .panic) ∧
    (∀ c, (stop P O s c).world.panicked = s.world.panicked) ∧
    (∀ ei, (internal P O d s ei).world.panicked = s.world.panicked) := by
  refine ⟨fun clean c es => ?_, fun c => ?_, fun ei => ?_⟩
  · unfold apiWatch
    simp only
    split
    · exact ⟨rfl, by simp⟩
    · split
      · exact ⟨rfl, by simp⟩
      · refine ⟨watchOp_panicked O d s _ _ c _, ?_⟩
        simp only
        split <;> simp
  · exact Node.trav_keep (π := World.panicked) (fun s pw n w => stopFunc_panicked O c s pw n w) _ _ _
  · unfold NonRec.internal
    split
    · split
      · rfl
      · exact Node.trav_keep (π := World.panicked) (fun s pw n w => by unfold unwatchFunc; split <;> rfl) _ _ _
    · simp only
      split
      · rfl
      · split
        · rfl
        · exact DirTree.addDir_keep (π := World.panicked) (fun s n w => recFunc_panicked O _ s n w) d _ _

theorem zero_andNot (y : Event) : (0 : Event) &^ y = 0 := BitVec.zero_and

theorem or_zero_event (x : Event) : x ||| (0 : Event) = x := BitVec.or_zero

/-- A Watch for the empty event set returns nil and makes no call. -/
theorem C88_nonrec_zero (P : Platform) (O : Oracle) (d : DirTree) (s : St) (p : Path) (c : Nat) :
    (apiWatch P O d s (some (p, false)) (some c) [0]).2 = .ok ∧
    (apiWatch P O d s (some (p, false)) (some c) [0]).1.world = s.world := by
  have hj : joinevents P [0] = 0 := by simp [joinevents]
  have hd : ∀ w : WP, (w.add P (.user c) 0).2 = Diff.none := by
    intro w
    rw [add_diffOf P w (by simp), total_add P w (by simp), diffOf_none, zero_andNot, or_zero_event]
  simp only [apiWatch, hj, watchOp, watch, hd]
  simp

end NonRec

/-! ### The tree for watchers with native recursion -/

namespace Rec
open NonRec

variable {P : Platform}

theorem Inv.ofGet {w w' : WP} (h : w.Inv P) (hn : w'.Nodup) (he : ∀ k, w.get? k = w'.get? k) : w'.Inv P where
  nodup := hn
  nil_none := by simp only [← he]; exact h.nil_none
  total_bit := by
    intro i
    have hv : w'.val .nil = w.val .nil := by simp [WP.val, he]
    simp only [← he, hv]
    exact h.total_bit i

theorem Inv.users {w : WP} (h : w.Inv P) (hw : w ≠ []) : users w ≠ [] := by
  intro h0
  apply hw
  rw [h.eq_nil_iff, h.nil_none]
  intro k hk
  cases hg : w.get? k with
  | none => rfl
  | some v =>
    have : (k, v) ∈ Rec.users w := by
      simp only [Rec.users, List.mem_filter, decide_eq_true_eq]
      exact ⟨GoMap.mem_of_get? hg, hk⟩
    rw [h0] at this; simp at this

theorem Inv.addAll {w : WP} (h : w.Inv P) (l : List (Key × Event)) (hl : ∀ x ∈ l, x.1 ≠ .nil) :
    (l.foldl (fun w x => (WP.add P w x.1 x.2).1) w).Inv P := by
  induction l generalizing w with
  | nil => exact h
  | cons x l ih => exact ih (h.add (hl x (by simp)) x.2) fun y hy => hl y (by simp [hy])

theorem Inv.copied {a b d : WP} (h : d.Inv P) : (copied P a b d).Inv P :=
  Inv.addAll (Inv.addAll h _ fun _ hx => (users_mem hx).2) _ fun _ hx => (users_mem hx).2

theorem add_ne_nil (w : WP) (c : Nat) (e : Event) : (w.add P (.user c) e).1 ≠ [] := by
  intro h
  have := get_add_user P w c c e
  rw [h] at this
  simp at this

/-- `copyAll` reaches no write to a nil map if each child has a channel. -/
theorem copyAll_panicked {Q : WP → Prop} {p : Path} (hp : [] ∉ p) (rs : List Path) {s : St} (h : ROK Q s.root)
    (hg : s.root.get? p ≠ none) (h0 : Q []) (hQ : ∀ a b d, Q a → Q b → Q d → Q (copied P a b d))
    (hrs : ∀ r ∈ rs, [] ∉ r ∧ users (watchAt s.root (p ++ r)) ≠ []) :
    (copyAll P p rs s).world.panicked = s.world.panicked := by
  induction rs generalizing s with
  | nil => rfl
  | cons r rs ih =>
    obtain ⟨hr1, hr2⟩ := hrs r (by simp)
    have hu : users (nodeAt s.root (p ++ r)).watch ≠ [] := by rw [watch_nodeAt]; exact hr2
    have h1 := copyAll_eff (P := P) hp [r] h hg h0 hQ
    have hc : copyAll P p (r :: rs) s = copyAll P p rs (copyAll P p [r] s) := rfl
    rw [hc, ih h1.1 (h1.2.1 p hg) fun r' hr' => ?_]
    · simp only [copyAll, watchCopy_fst P _ _ hu]
      simp
    · obtain ⟨h2, h3⟩ := hrs r' (by simp [hr'])
      refine ⟨h2, ?_⟩
      rw [h1.2.2.1 _ (not_inact (by simp [hp, h2]))]
      exact h3

theorem unwatchAll_panicked (O : Oracle) (root : Node) (p : Path) : ∀ (rs : List Path) (w : World),
    (unwatchAll P O root p rs w).1.panicked = w.panicked
  | [], w => rfl
  | r :: rs, w => by
    simp only [unwatchAll]
    rw [unwatchAll_panicked O root p rs]
    rfl

mutual
theorem stopWalk_panicked (O : Oracle) (c : Nat) : (nd : Node) → (s : World) →
    (nd.stopWalk P O c s).1.panicked = s.panicked
  | .mk n w ch, s => by
    simp only [Node.stopWalk]
    split
    · exact stopWalkF_panicked O c ch s
    · simp only
      split <;> rfl
theorem stopWalkF_panicked (O : Oracle) (c : Nat) : (f : Forest) → (s : World) →
    (f.stopWalk P O c s).1.panicked = s.panicked
  | .nil, s => rfl
  | .cons b nd rest, s => by
    simp only [Forest.stopWalk]
    rw [stopWalkF_panicked O c rest]
    split
    · rfl
    · exact stopWalk_panicked O c nd s
end

/-- Every watchpoint has its total, and only paths given to Watch have one. -/
structure Owned (P : Platform) (ps : List Path) (root : Node) : Prop where
  ok : ROK (WP.Inv P) root
  only : ∀ r, [] ∉ r → watchAt root r ≠ [] → r ∈ ps

theorem Owned.inv {ps : List Path} {root : Node} (h : Owned P ps root) (r : Path) : (watchAt root r).Inv P :=
  ROK.watchAt h.ok (WP.inv_nil P) r

theorem watchUnder_owned (O : Oracle) {ps : List Path} {s : St} (h : Owned P ps s.root) {q p : Path} (hp : [] ∉ p)
    (hqp : q <+: p) (ht : tot P s.root q ≠ 0) (hg : s.root.get? p ≠ none) (isrec : Bool) (c : Nat) (E : Event) :
    Owned P (p :: ps) (watchUnder P O s q p isrec c E).1.root ∧
    (watchUnder P O s q p isrec c E).1.world.panicked = s.world.panicked := by
  have hq : [] ∉ q := fun hc => hp (hqp.subset hc)
  have hgq : s.root.get? q ≠ none := tot_ne_find ht
  have hok1 : ROK (WP.Inv P) (regAt P s.root q p c E) := regAt_ok h.ok hq ((h.inv _).add (by simp) E)
  have hw1 := fun r => regAt_watchAt (P := P) h.ok (p := p) hq hgq c E r
  have hg1 : (regAt P s.root q p c E).get? p ≠ none := regAt_get h.ok hq hg
  have hgq1 : (regAt P s.root q p c E).get? q ≠ none := regAt_get h.ok hq hgq
  have hinv1 : ∀ r, (watchAt (regAt P s.root q p c E) r).Inv P := fun r => ROK.watchAt hok1 (WP.inv_nil P) r
  have hone : ∀ r, [] ∉ r → watchAt (regAt P s.root q p c E) r ≠ [] → r ∈ p :: ps := by
    intro r hr hne
    rw [hw1] at hne
    split at hne
    · next hs =>
      unfold slot at hs
      split at hs
      · simp [hs]
      · exact absurd hs (not_inact hr)
    · exact List.mem_cons_of_mem _ (h.only r hr hne)
  have h1 : Owned P (p :: ps) (regAt P s.root q p c E) := ⟨hok1, hone⟩
  have h2 : Owned P (p :: ps) (addAt P (regAt P s.root q p c E) p c E) := by
    refine ⟨addAt_ok hok1 hp ((hinv1 _).add (by simp) E), fun r hr hne => ?_⟩
    rw [addAt_watchAt hg1] at hne
    split at hne
    · next hs => simp [hs]
    · exact hone r hr hne
  have h3 : ∀ D, Owned P (p :: ps) ((regAt P s.root q p c E).update q (fun nd => (watchDel P nd (.user c) D).1)) := by
    intro D
    refine ⟨?_, fun r hr hne => ?_⟩
    · refine Node.update_OK hok1 hq fun x hx hxo => ?_
      exact watchDel_OK hxo c _ (WP.inv_del hxo.watch.nodup (by simp) D)
        (WP.inv_del (inact_Q hxo (WP.inv_nil P)).nodup (by simp) D)
    · rw [delAt_watchAt hok1 hq hgq1, if_neg (not_inact (q := q) hr)] at hne
      split at hne
      · next hs =>
        subst hs
        refine hone r hr fun h0 => hne ?_
        rw [h0]; exact del_nil P c D
      · exact hone r hr hne
  rw [watchUnder_eq P O s q p isrec c E ht]
  split
  · refine ⟨?_, rfl⟩
    simp only
    split
    · exact h1
    · exact h2
  · split
    · exact ⟨h2, rfl⟩
    · exact ⟨h3 _, rfl⟩

theorem watchTop_owned (O : Oracle) {ps : List Path} {s : St} (h : Owned P ps s.root) {p : Path} (hp : [] ∉ p)
    (ht : tot P s.root p = 0) (hg : s.root.get? p ≠ none) (isrec : Bool) (c : Nat) (E : Event) :
    ((watchTop P O s p isrec c E).2 = true ∨ (∀ q ∈ ps, ¬ p <+: q) → Owned P (p :: ps) (watchTop P O s p isrec c E).1.root) ∧
    (E &^ P.internal ≠ 0 → (watchTop P O s p isrec c E).1.world.panicked = s.world.panicked) := by
  have hok1 : ROK (WP.Inv P) (addAt P s.root p c E) := addAt_ok h.ok hp ((h.inv _).add (by simp) E)
  have hw1 := fun r => addAt_watchAt (P := P) hg c E r
  have hg1 : (addAt P s.root p c E).get? p ≠ none := addAt_get hg
  have hinv1 : ∀ r, (watchAt (addAt P s.root p c E) r).Inv P := fun r => ROK.watchAt hok1 (WP.inv_nil P) r
  have h1 : Owned P (p :: ps) (addAt P s.root p c E) := by
    refine ⟨hok1, fun r hr hne => ?_⟩
    rw [hw1] at hne
    split at hne
    · next hs => simp [hs]
    · exact List.mem_cons_of_mem _ (h.only r hr hne)
  have h3 : ∀ D, Owned P (p :: ps) ((addAt P s.root p c E).update p (fun nd => (watchDel P nd (.user c) D).1)) := by
    intro D
    refine ⟨?_, fun r hr hne => ?_⟩
    · refine Node.update_OK hok1 hp fun x hx hxo => ?_
      exact watchDel_OK hxo c _ (WP.inv_del hxo.watch.nodup (by simp) D)
        (WP.inv_del (inact_Q hxo (WP.inv_nil P)).nodup (by simp) D)
    · rw [delAt_watchAt hok1 hp hg1, if_neg (not_inact (q := p) hr)] at hne
      split at hne
      · next hs => simp [hs]
      · exact h1.only r hr hne
  have hcopy := fun rs => copyAll_eff (P := P) hp rs (s := { s with root := addAt P s.root p c E }) hok1 hg1 (WP.inv_nil P)
    (fun _ _ _ _ _ h3 => Inv.copied h3)
  have h2 : ∀ rs, Owned P (p :: ps) (copyAll P p rs { s with root := addAt P s.root p c E }).root := by
    intro rs
    refine ⟨(hcopy rs).1, fun r hr hne => ?_⟩
    rw [(hcopy rs).2.2.1 r (not_inact hr)] at hne
    exact h1.only r hr hne
  have hpan : ∀ rs, (∀ r ∈ rs, r ∈ (nodeAt s.root p).tops) →
      (copyAll P p rs { s with root := addAt P s.root p c E }).world.panicked = s.world.panicked := by
    intro rs hrs
    refine copyAll_panicked hp rs (s := { s with root := addAt P s.root p c E }) hok1 hg1 (WP.inv_nil P)
      (fun _ _ _ _ _ h3 => Inv.copied h3) fun r hr => ?_
    obtain ⟨h4, h5, _⟩ := (mem_tops_at h.ok hp r).1 (hrs r hr)
    refine ⟨h4, Inv.users (hinv1 _) ?_⟩
    rw [hw1]
    split
    · exact add_ne_nil _ _ _
    · exact h5
  have hbelow : ∀ r ∈ (nodeAt s.root p).tops, ∃ q ∈ ps, p <+: q := by
    intro r hr
    obtain ⟨h4, h5, _⟩ := (mem_tops_at h.ok hp r).1 hr
    exact ⟨p ++ r, h.only _ (by simp [hp, h4]) h5, List.prefix_append _ _⟩
  have hdiff : (watchAdd P (nodeAt s.root p) (.user c) E).2 = diffOf 0 (E &^ P.internal) := by
    rw [watchAdd_diff, watchTotal_nodeAt, ht]
    congr 1
    generalize E &^ P.internal = x
    ebits
  unfold watchTop
  split
  · simp only [selfAt_eq]
    generalize (if isrec = true then Call.recWatch (watchAdd P (nodeAt s.root p) (Key.user c) E).1.name
      (watchAdd P (nodeAt s.root p) (Key.user c) E).2.2 else Call.watch
      (watchAdd P (nodeAt s.root p) (Key.user c) E).1.name (watchAdd P (nodeAt s.root p) (Key.user c) E).2.2) = call
    rw [hdiff]
    split
    · next h0 => exact ⟨fun _ => h1, fun hE => absurd (diffOf_none.1 h0).symm hE⟩
    · next h0 =>
      have hne : (0 : Event) ≠ E &^ P.internal := fun hc => h0 (diffOf_none.2 hc)
      rw [if_pos (by rw [diffOf_ne hne])]
      split
      · exact ⟨fun _ => h1, fun _ => rfl⟩
      · exact ⟨fun _ => h3 _, fun _ => rfl⟩
  · next r hr =>
    simp only
    have hb := hbelow r (by rw [hr]; simp)
    have hp1 := hpan [r] (by rw [hr]; simp)
    split
    · exact ⟨fun _ => h2 _, fun _ => hp1⟩
    · refine ⟨fun hx => ?_, fun _ => hp1⟩
      rcases hx with hx | hx
      · simp at hx
      · obtain ⟨q, h4, h5⟩ := hb
        exact absurd h5 (hx q h4)
  · next rs hr _ =>
    simp only
    have hp1 := hpan (nodeAt s.root p).tops (fun _ h => h)
    split
    · refine ⟨fun _ => h2 _, fun _ => ?_⟩
      simp only
      rw [unwatchAll_panicked]
      exact hp1
    · refine ⟨fun hx => ?_, fun _ => hp1⟩
      rcases hx with hx | hx
      · simp at hx
      · cases hl : (nodeAt s.root p).tops with
        | nil => exact absurd hl hr
        | cons r l =>
          obtain ⟨q, h4, h5⟩ := hbelow r (by rw [hl]; simp)
          exact absurd h5 (hx q h4)

theorem internal_or_rec (P : Platform) {e : Event} (isrec : Bool) (h : e &^ P.internal ≠ 0) :
    (if isrec then e ||| P.recursive else e) &^ P.internal ≠ 0 := by
  unfold Platform.internal at *
  cases isrec
  · exact h
  · simp only [if_true]
    intro h0
    apply h
    generalize P.recursive = x at *
    generalize P.omitted = y at *
    clear h
    ebits

theorem watchOp_owned (O : Oracle) {ps : List Path} {s : St} (h : Owned P ps s.root) {p : Path} (hp : [] ∉ p)
    (isrec : Bool) (c : Nat) (e : Event) :
    ((watchOp P O s p isrec c e).2 = true ∨ (∀ q ∈ ps, ¬ p <+: q) → Owned P (p :: ps) (watchOp P O s p isrec c e).1.root) ∧
    (e &^ P.internal ≠ 0 → (watchOp P O s p isrec c e).1.world.panicked = s.world.panicked) := by
  have hadd : ∀ r, watchAt (s.root.add p) r = watchAt s.root r := watchAt_add s.root p
  have htot : ∀ r, tot P (s.root.add p) r = tot P s.root r := fun r => by simp [tot, hadd]
  have hok : Owned P ps (s.root.add p) :=
    ⟨Node.add_OK h.ok (WP.inv_nil P) hp, fun r hr hne => h.only r hr (by rwa [hadd] at hne)⟩
  have hg := Node.add_get_ne_none s.root p
  unfold watchOp
  simp only
  cases hpar : parentOf P s.root p with
  | some q =>
    obtain ⟨h1, h2, h3⟩ := parentOf_some hpar
    have := watchUnder_owned O (s := { s with root := s.root.add p }) hok hp h1 (by rw [htot]; exact h2) hg isrec c
      (if isrec then e ||| P.recursive else e)
    exact ⟨fun _ => this.1, fun _ => this.2⟩
  | none =>
    have h1 := parentOf_none hpar p (List.prefix_refl _)
    have := watchTop_owned O (s := { s with root := s.root.add p }) hok hp (by rw [htot]; exact h1) hg isrec c
      (if isrec then e ||| P.recursive else e)
    exact ⟨this.1, fun he => this.2 (internal_or_rec P isrec he)⟩

/-- States after calls of Watch and Stop with any events and any outcome of the OS calls, `ps` being the
paths given to Watch, where a Watch that returned an error was for a path with no earlier Watch at or
below it.  A panic, if there was one, was recovered from. -/
inductive Calm (P : Platform) : List Path → St → Prop
  | init : Calm P [] init
  | watch {ps s} (O : Oracle) (p : Path) (isrec : Bool) (c : Nat) (e : Event) : Calm P ps s → GoodPath p →
      (watchOp P O s p isrec c e).2 = true ∨ (∀ q ∈ ps, ¬ p <+: q) → Calm P (p :: ps) (watchOp P O s p isrec c e).1
  | stop {ps s} (O : Oracle) (c : Nat) : Calm P ps s → Calm P ps (stop P O s c)
  | shuffle {ps s root'} : Calm P ps s → RShuffle s.root root' → Calm P ps { s with root := root' }

theorem Calm.owned {ps : List Path} {s : St} (h : Calm P ps s) : Owned P ps s.root := by
  induction h with
  | init =>
    refine ⟨rok_init _ (WP.inv_nil P), fun r hr hne => absurd ?_ hne⟩
    cases r <;> rfl
  | watch O p isrec c e _ hp hres ih => exact (watchOp_owned O ih hp.2 isrec c e).1 hres
  | @stop ps s O c _ ih =>
    have hg : ∀ w : WP, w.Inv P → (gone P w c).Inv P := fun w hw => WP.inv_del hw.nodup (by simp) _
    refine ⟨stopWalk_OK O (WP.inv_nil P) hg _ _ ih.ok, fun r hr hne => ih.only r hr fun h0 => hne ?_⟩
    rw [GoMap.eq_nil_iff_get?]
    intro k
    have := stopWalk_read O c (WP.inv_nil P) (fun _ hw => hw.nodup) hg r s.world ih.ok k
    rw [h0, show gone P [] c = [] from del_nil P c _] at this
    exact this
  | shuffle _ hs ih =>
    refine ⟨hs.ok ih.ok fun _ _ => Inv.ofGet, fun r hr hne => ih.only r hr fun h0 => hne ?_⟩
    rw [GoMap.eq_nil_iff_get?]
    intro k
    rw [hs.get, h0]; rfl

/-- C88 for the tree of watchers with native recursion: a Watch with a channel and at least one event
reaches no panic, whatever the OS calls return, if no earlier Watch failed for a path at or above the
path of a Watch before that one; Stop never panics, in any state.

What is missing: `C88_zero_refuted`, `C88_adopt_refuted` and `C88_retry_refuted` show that neither
condition can be dropped. -/
theorem C88_rec_partial (P : Platform) (O : Oracle) :
    (∀ {ps s}, Calm P ps s → ∀ {p isrec c es}, GoodPath p → joinevents P es &^ P.internal ≠ 0 →
      (apiWatch P O s (some (p, isrec)) (some c) es).1.world.panicked = s.world.panicked ∧
      (apiWatch P O s (some (p, isrec)) (some c) es).2 ≠ .panic) ∧
    (∀ s c, (stop P O s c).world.panicked = s.world.panicked) := by
  refine ⟨fun {ps s} h {p isrec c es} hp he => ?_, fun s c => stopWalk_panicked O c _ _⟩
  unfold apiWatch
  simp only
  split
  · exact ⟨rfl, by simp⟩
  · refine ⟨(watchOp_owned O h.owned hp.2 isrec c _).2 he, ?_⟩
    simp only
    split <;> simp

/-- A Watch for the empty event set panics on the fresh tree, for every path, recursive or not. -/
theorem C88_zero_refuted (P : Platform) (O : Oracle) {p : Path} (hp : GoodPath p) (isrec : Bool) (c : Nat) :
    (apiWatch P O init (some (p, isrec)) (some c) [0]).1.world.panicked = true := by
  have hj : joinevents P [0] = 0 := by simp [joinevents]
  have hz : ∀ E, E = (if isrec then 0 ||| P.recursive else 0) → E &^ P.internal = 0 := by
    rintro _ rfl
    unfold Platform.internal
    generalize P.recursive = x
    generalize P.omitted = y
    cases isrec
    · exact zero_andNot _
    · rw [if_pos rfl, show (0 : Event) ||| x = x from BitVec.zero_or]
      refine BitVec.eq_of_getLsbD_eq fun i hi => ?_
      simp only [BitVec.getLsbD_and, BitVec.getLsbD_not, BitVec.getLsbD_or]
      cases x.getLsbD i <;> simp
  have hw0 : ∀ r, watchAt init.root r = [] := by intro r; cases r <;> rfl
  have hw : ∀ r, watchAt (init.root.add p) r = [] := fun r => by rw [watchAt_add, hw0]
  have ht : ∀ r, tot P init.root r = 0 := by intro r; simp [tot, hw0, WP.total]
  have ht' : ∀ r, tot P (init.root.add p) r = 0 := by intro r; simp [tot, hw, WP.total]
  have hpar : parentOf P init.root p = none := by
    cases hp : parentOf P init.root p with
    | none => rfl
    | some q => exact absurd (ht q) (parentOf_some hp).2.1
  have hok : ROK (WP.Inv P) (init.root.add p) := Node.add_OK (rok_init _ (WP.inv_nil P)) (WP.inv_nil P) hp.2
  have htops : (nodeAt (init.root.add p) p).tops = [] := by
    cases hl : (nodeAt (init.root.add p) p).tops with
    | nil => rfl
    | cons r l =>
      have := (mem_tops_at hok hp.2 r).1 (by rw [hl]; simp)
      exact absurd (hw _) this.2.1
  have hd : ∀ E, E = (if isrec then 0 ||| P.recursive else 0) →
      (watchAdd P (nodeAt (init.root.add p) p) (.user c) E).2 = Diff.none := by
    intro E hE
    rw [watchAdd_diff, hz E hE, or_zero_event]
    exact diffOf_none.2 rfl
  simp only [apiWatch, hj, watchOp, hpar, watchTop, htops, hd _ rfl]
  simp [World.panic]

namespace PanicEx
abbrev F : Platform := Platform.fsevents
abbrev W : Event := F.write
abbrev a : Comp := ['a']
abbrev b : Comp := ['b']
abbrev c3 : Comp := ['c']
abbrev d3 : Comp := ['d']

/-- Only the second OS call fails. -/
def second : Oracle := fun l _ => !decide (l.length = 1)
/-- The first two OS calls fail. -/
def firstTwo : Oracle := fun l _ => decide (2 ≤ l.length)

/-- Channel 1 watches `/a/b/c`. -/
def u1 : St := (watchOp F second init [a, b, c3] false 1 W).1
/-- Channel 2 tries to watch `/a/b`; the OS call fails. -/
def u2 : St := (watchOp F second u1 [a, b] false 2 W).1
/-- Channel 3 watches `/a/b/d`. -/
def u3 : St := (watchOp F second u2 [a, b, d3] false 3 W).1

/-- Channel 1 tries to watch `/a/b/...`; the OS call fails. -/
def v1 : St := (watchOp F firstTwo init [a, b] true 1 W).1
/-- It tries again; the OS call fails. -/
def v2 : St := (watchOp F firstTwo v1 [a, b] true 1 W).1
/-- Channel 1 watches `/a/b/d`. -/
def v3 : St := (watchOp F firstTwo v2 [a, b, d3] false 1 W).1

end PanicEx

open PanicEx in
/-- After a failed Watch above an existing one, a Watch below the failed path returns nil without an OS
call, and then one above it panics with a write to a nil map. -/
theorem C88_adopt_refuted :
    (watchOp F second init [a, b, c3] false 1 W).2 = true ∧
    (watchOp F second u1 [a, b] false 2 W).2 = false ∧
    (watchOp F second u2 [a, b, d3] false 3 W).2 = true ∧ u3.world.log.length = 2 ∧ u3.world.panicked = false ∧
    (apiWatch F second u3 (some ([a], false)) (some 4) [W]).1.world.panicked = true := by
  decide

open PanicEx in
/-- The same after two failed attempts to watch one path, everything from one channel. -/
theorem C88_retry_refuted :
    (watchOp F firstTwo init [a, b] true 1 W).2 = false ∧
    (watchOp F firstTwo v1 [a, b] true 1 W).2 = false ∧
    (watchOp F firstTwo v2 [a, b, d3] false 1 W).2 = true ∧ v3.world.log.length = 2 ∧ v3.world.panicked = false ∧
    (apiWatch F firstTwo v3 (some ([a], false)) (some 1) [W]).1.world.panicked = true := by
  decide

/-! ### Examples -/

open PanicEx in
/-- `C88_rec_partial` applies after a Watch that failed, a Stop and a Watch with no events at all. -/
example : ∃ ps s, Calm F ps s ∧ s.root.child.keys ≠ [] ∧ (watchOp F second u1 [b] false 2 W).2 = false ∧
    ∀ O, (apiWatch F O s (some ([a], true)) (some 7) [W]).1.world.panicked = s.world.panicked := by
  have e1 : Calm F _ u1 := Calm.watch second [a, b, c3] false 1 W Calm.init (by simp [GoodPath]) (.inl (by decide))
  have e2 := Calm.watch second [b] false 2 W e1 (by simp [GoodPath]) (.inr (by simp [a, b]))
  have e3 := Calm.stop .ok 2 e2
  refine ⟨_, _, e3, by decide, by decide, fun O => ?_⟩
  exact ((C88_rec_partial F O).1 e3 (by simp [GoodPath]) (by decide)).1

open PanicEx in
example : (apiWatch F .ok init (some ([a], true)) (some 1) [0]).1.world.panicked = true :=
  C88_zero_refuted F .ok (by simp [GoodPath]) true 1

end Rec

namespace NonRec

/-- `C88_nonrec` for a failing Watch with odd events on Linux. -/
example : (apiWatch Platform.inotify (fun _ _ => false) .err init (some ([['a']], true)) (some 1) [0xffffffff]).2 = .error ∧
    (apiWatch Platform.inotify (fun _ _ => false) .err init (some ([['a']], true)) (some 1) [0xffffffff]).1.world.panicked =
      false :=
  ⟨by decide, ((C88_nonrec Platform.inotify (fun _ _ => false) .err init).1 _ 1 _).1⟩

end NonRec
end Verif
