/-
A Watch of a path that the OS watches makes a call only for new events, and only one (C132).
-/
import Verif.PropsNarrow2
import Verif.PropsRecSync

namespace Verif

namespace NonRec
variable {P : Platform}

/-- **C132, no native recursion.**  In a history in which the calls whose failure the code ignores succeed, whatever the OS answers now: a Watch
that is not recursive makes no call and succeeds if the OS watches the events on the path already, whoever asked for them; otherwise it makes
one call, which asks for these events and what is watched there, and succeeds if and only if the call does. -/
theorem C132_watch (hP : P.Facts) {ops : List Op} {s : St} (h : Hist P true ops s) (O : Oracle) (dt : DirTree) (p : Path) (c : Nat) {e : Event}
    (he : UserEvents P e) :
    (e ⊑ osOf s.world.log p → (watchOp P O dt s p false c e).2 = true ∧ (watchOp P O dt s p false c e).1.world = s.world) ∧
    (¬ e ⊑ osOf s.world.log p → ∃ x, (watchOp P O dt s p false c e).1.world.log = (x, (watchOp P O dt s p false c e).2) :: s.world.log ∧
      x = if osOf s.world.log p = 0 then .watch p e else .rewatch p (osOf s.world.log p) (osOf s.world.log p ||| e)) := by
  have hg := Hist.good hP h
  have hi : e &^ P.internal = e := by have := he.2; ebits
  have hd : ((watchAt (s.root.add p) p).add P (.user c) e).2 = diffOf (osOf s.world.log p) (osOf s.world.log p ||| e) := by
    rw [watchAt_add, add_diffOf P _ (k := .user c) nofun, total_add P _ (k := .user c) nofun, hi, ← hg.sync p]
  unfold watchOp
  simp only [Bool.false_eq_true, if_false]
  unfold NonRec.watch
  simp only [hd]
  constructor
  · intro hs
    rw [if_pos (diffOf_none.2 (Event.sub_iff_or.1 hs).symm)]
    exact ⟨rfl, rfl⟩
  · intro hs
    have hne : osOf s.world.log p ≠ osOf s.world.log p ||| e := fun hc => hs (Event.sub_iff_or.2 hc.symm)
    rw [diffOf_ne hne]
    have h0 : osOf s.world.log p ||| e ≠ 0 := by
      intro hc
      apply he.1
      generalize osOf s.world.log p = t at hc
      clear hs hne hd
      ebits
    rw [if_neg (by rw [← diffOf_ne hne, diffOf_none]; exact hne), if_neg h0]
    refine ⟨_, ?_, rfl⟩
    have hx : diffCall p (osOf s.world.log p, osOf s.world.log p ||| e) =
        if osOf s.world.log p = 0 then .watch p e else .rewatch p (osOf s.world.log p) (osOf s.world.log p ||| e) := by
      unfold diffCall
      simp only
      split
      · next h1 => simp [h1]
      · rfl
    rw [← hx]
    split
    · next h1 => simp only [World.exec] at h1 ⊢; rw [h1]
    · next h1 => simp only [World.exec] at h1 ⊢; simp only [Bool.not_eq_true] at h1; rw [h1]

/-- Non-trivial case: channel 1 watches `/a` for Write; a Watch of channel 2 for Write makes no call, one for Create and Write does. -/
example : ∃ s, Hist Ex.I true [.watch [Ex.a] false 1 Ex.W true] s ∧ Ex.W ⊑ osOf s.world.log [Ex.a] ∧ ¬ Ex.CW ⊑ osOf s.world.log [Ex.a] :=
  ⟨_, Steps.nil.snoc (Step.watch (O := .ok) (dt := .dir .nil) Ex.good_a Ex.uW (by simp [DirTree.Named, Entries.Named]) (fun _ h => by simp at h)),
    by decide, by decide⟩

end NonRec

namespace Rec
open GoMap NonRec

variable {P : Platform}

/-- **C132, native recursion (partial).**  After a harmless history, whatever the OS answers now: if the OS has a watch at `t`, at or above `p`, a
Watch of `p` makes no call and succeeds if this watch has the events already, whoever asked for them; otherwise it makes one call, which asks for
these events and what is watched there, and succeeds if and only if the call does.  Missing: histories that are not harmless. -/
theorem C132_native_partial (hP : P.Facts) {ops : List ROp} {s : St} (h : SafeHist P ops s) {p t : Path} (hp : GoodPath p) (ht : t <+: p)
    {T : Event} {f : Bool} (hT : osRec s.world.log t = some (T, f)) (isrec : Bool) (c : Nat) {e : Event} (he : UserEvents P e) (O : Oracle) :
    (e ⊑ T → (watchOp P O s p isrec c e).2 = true ∧ (watchOp P O s p isrec c e).1.world = s.world) ∧
    (¬ e ⊑ T → ∃ x, (watchOp P O s p isrec c e).1.world.log = (x, (watchOp P O s p isrec c e).2) :: s.world.log ∧
      (x = .rewatch t T (T ||| e) ∨ x = .recRewatch t t T (T ||| e))) := by
  have hs := h.sync hP
  have htop := (hs.top_iff t).1 (by rw [hT]; simp)
  have hpar : parentOf P s.root p = some t := by
    cases hq : parentOf P s.root p with
    | none => exact absurd (parentOf_none hq t ht) htop.2.1
    | some q =>
      obtain ⟨h4, h5, h6⟩ := parentOf_some hq
      have : Top P s.root q := ⟨fun hc => hp.2 (h4.subset hc), h5, h6⟩
      rw [this.unique htop h4 ht]
  have htot : T = tot P s.root t := by
    obtain ⟨f'', h4⟩ := hs.osTop t htop
    rw [hT] at h4
    simp only [Option.some.injEq, Prod.mk.injEq] at h4
    exact h4.1
  have hadd : tot P (s.root.add p) t = T := by
    rw [htot]; simp [tot, watchAt_add]
  have hset : setOf P isrec e &^ P.internal = e := by
    have h1 := he.2
    have h2 := recursive_internal P
    rw [setOf_eq]
    cases isrec <;> simp only [Bool.false_eq_true, if_true, if_false] <;> ebits
  have htn : [] ∉ t := fun hc => hp.2 (ht.subset hc)
  have hok : ROK (RN P) (s.root.add p) := Node.add_OK hs.book.ok (RN.nil P) hp.2
  have hname : (nodeAt (s.root.add p) t).name = t := nodeAt_name hok htn (tot_ne_find (P := P) (by rw [hadd, htot]; exact htop.2.1))
  rw [watchOp_eq, hpar]
  simp only
  rw [watchUnder_eq P O _ t p isrec c _ (by dsimp only; rw [hadd, htot]; exact htop.2.1)]
  dsimp only
  rw [hadd, hset]
  constructor
  · intro h1
    rw [if_pos h1]
    exact ⟨rfl, rfl⟩
  · intro h1
    rw [if_neg h1]
    have hx : underCall P (s.root.add p) t p isrec c (setOf P isrec e) = .rewatch t T (T ||| e) ∨
        underCall P (s.root.add p) t p isrec c (setOf P isrec e) = .recRewatch t t T (T ||| e) := by
      have hn : (regNode P (s.root.add p) t p c (setOf P isrec e)).name = t := by
        unfold regNode
        split
        · rw [watchAdd_name, hname]
        · rw [watchAddInactive_name, hname]
      unfold underCall
      dsimp only
      rw [hn, hadd, hset]
      split
      · exact .inr rfl
      · exact .inl rfl
    refine ⟨_, ?_, hx⟩
    split
    · next h2 => simp only [World.exec] at h2 ⊢; rw [h2]
    · next h2 => simp only [World.exec] at h2 ⊢; simp only [Bool.not_eq_true] at h2; rw [h2]

/-- Non-trivial case: `/a/b` is watched for Create and Write; below it Write is there already, Rename is not. -/
example : SafeHist Ex.F [.watch [Ex.a, Ex.b] false 2 Ex.CW true] Ex.s1 ∧ osRec Ex.s1.world.log [Ex.a, Ex.b] = some (Ex.CW, false) ∧
    [Ex.a, Ex.b] <+: [Ex.a, Ex.b, Ex.f] ∧ Ex.W ⊑ Ex.CW ∧ ¬ Ex.F.rename ⊑ Ex.CW :=
  ⟨(watchOnly_safe Ex.hF Ex.hist1 (by simp [ROp.isWatch])).1, by decide, ⟨[Ex.f], rfl⟩, by decide, by decide⟩

/-- **C132, native recursion, the first Watch (partial).**  After a harmless history, whatever the OS answers now: if the OS has no watch at, above or
below `p`, a Watch of `p` makes one call, for its path and its events and recursive if and only if the Watch is, and succeeds if and only if the
call does.  Missing: histories that are not harmless. -/
theorem C132_first_partial (hP : P.Facts) {ops : List ROp} {s : St} (h : SafeHist P ops s) {p : Path} (hp : GoodPath p)
    (hno : ∀ x, (x <+: p ∨ p <+: x) → osRec s.world.log x = none) (isrec : Bool) (c : Nat) {e : Event} (he : UserEvents P e) (O : Oracle) :
    (watchOp P O s p isrec c e).1.world.log =
      ((if isrec then .recWatch p e else .watch p e), (watchOp P O s p isrec c e).2) :: s.world.log := by
  have hs := h.sync hP
  have hnT : ∀ x, (x <+: p ∨ p <+: x) → ¬ Top P s.root x := fun x hx hT => (hs.top_iff x).2 hT (hno x hx)
  have hnone : ∀ t, t <+: p → tot P s.root t = 0 := by
    intro t ht
    by_contra hc
    obtain ⟨y, h1, h2⟩ := exists_top (fun hx => hp.2 (ht.subset hx)) hc
    exact hnT y (.inl (h1.trans ht)) h2
  have hadd : ∀ r, watchAt (s.root.add p) r = watchAt s.root r := watchAt_add s.root p
  have htot : ∀ r, tot P (s.root.add p) r = tot P s.root r := fun r => by simp [tot, hadd]
  have hTop : ∀ r, Top P (s.root.add p) r ↔ Top P s.root r := fun r => by simp [Top, htot]
  have hok : ROK (RN P) (s.root.add p) := Node.add_OK hs.book.ok (RN.nil P) hp.2
  have hg := Node.add_get_ne_none s.root p
  have htops : (nodeAt (s.root.add p) p).tops = [] := by
    rw [List.eq_nil_iff_forall_not_mem]
    intro r hr
    rw [(hs.book.congr hok (fun r d => by simp [uset, hadd])).1.tops_iff hP hp.2 (fun t ht => by rw [htot]; exact hnone t ht)
      (fun x hx hT => absurd ((hTop x).1 hT) (hnT x (.inr hx))), hTop] at hr
    exact hnT _ (.inr (List.prefix_append _ _)) hr
  have hpar : parentOf P s.root p = none := by
    cases hq : parentOf P s.root p with
    | none => rfl
    | some q => exact absurd (hnone q (parentOf_some hq).1) (parentOf_some hq).2.1
  have hnm : (watchAdd P (nodeAt (s.root.add p) p) (.user c) (setOf P isrec e)).1.name = p := by
    rw [watchAdd_name]; exact nodeAt_name hok hp.2 hg
  have hset : setOf P isrec e &^ P.internal = e := by
    have h1 := he.2
    have h2 := recursive_internal P
    rw [setOf_eq]
    cases isrec <;> simp only [Bool.false_eq_true, if_true, if_false] <;> ebits
  have hdiff : (watchAdd P (nodeAt (s.root.add p) p) (.user c) (setOf P isrec e)).2 = (0, e) := by
    rw [watchAdd_diff, watchTotal_nodeAt, htot, hnone p (List.prefix_refl _), hset]
    have h0 : (0 : Event) ||| e = e := BitVec.zero_or
    rw [h0]
    exact diffOf_ne (Ne.symm he.1)
  have hdn : ¬ ((0, e) = Diff.none) := fun hc => he.1 (congrArg Prod.snd hc)
  rw [watchOp_eq, hpar]
  simp only
  unfold watchTop
  simp only [htops, hdiff, hnm]
  rw [if_neg hdn]
  simp only [if_true]
  generalize (if isrec = true then Call.recWatch p e else Call.watch p e) = x
  split
  · next h2 => simp only [World.exec] at h2 ⊢; rw [h2]
  · next h2 => simp only [World.exec] at h2 ⊢; simp only [Bool.not_eq_true] at h2; rw [h2]

/-- Non-trivial case: `/a/b` is watched, and nothing at, above or below `/a/f`. -/
example : SafeHist Ex.F [.watch [Ex.a, Ex.b] false 2 Ex.CW true] Ex.s1 ∧ osRec Ex.s1.world.log [Ex.a, Ex.b] ≠ none ∧
    ∀ x, (x <+: [Ex.a, Ex.f] ∨ [Ex.a, Ex.f] <+: x) → osRec Ex.s1.world.log x = none := by
  refine ⟨(watchOnly_safe Ex.hF Ex.hist1 (by simp [ROp.isWatch])).1, by decide, fun x hx => ?_⟩
  have hne : x ≠ [Ex.a, Ex.b] := by
    rintro rfl
    revert hx
    decide
  have hl : Ex.s1.world.log = [(.watch [Ex.a, Ex.b] Ex.CW, true)] := by decide
  rw [hl]
  simp [osRec, hne]

end Rec
end Verif
