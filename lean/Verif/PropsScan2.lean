/-
C92: no directory is missed, whatever else is watched, stopped or handled meanwhile.
-/
import Verif.PropsScan
import Verif.ScanOps

namespace Verif
namespace NonRec
open GoMap Spec

variable {P : Platform}

/-! ### What operations do to the internal sets -/

theorem plain_rec (O : Oracle) (s : St) (dt : DirTree) (p : Path) (c : Nat) (e : Event) (q : Path) :
    recAt (watchOp P O dt s p false c e).1.root q = recAt s.root q := by
  rw [← recAt_add s.root p q]
  have hg := Node.add_get_ne_none s.root p
  have hset : ∀ (nd : Node) (w : WP), nd.get? p ≠ none → GoMap.get? w .recCh = recAt nd p →
      recAt (nd.update p (Node.setWatch w)) q = recAt nd q := by
    intro nd w hg hw
    rw [recAt_setWatch hg]; split
    · next hq => rw [hw, hq]
    · rfl
  have hadd : GoMap.get? ((watchAt (s.root.add p) p).add P (.user c) e).1 .recCh = recAt (s.root.add p) p := by
    rw [WP.get?_add P _ (by simp)]; simp [recAt]
  unfold watchOp NonRec.watch
  simp only [Bool.false_eq_true, if_false]
  split
  · exact hset _ _ hg hadd
  split
  · exact hset _ _ hg hadd
  split
  · exact hset _ _ hg hadd
  · rw [hset _ _ (get_setWatch_ne hg _) ?_, hset _ _ hg hadd]
    rw [WP.get?_del_ne_nil P _ (by simp) _ (by simp), recAt_setWatch hg]
    simp

/-- A recursive Watch, whatever comes of it, leaves the internal sets that are not below its path. -/
theorem watchrec_rec_other (O : Oracle) (s : St) (dt : DirTree) (p : Path) (c : Nat) (e : Event) {q : Path} (hq : ¬ p <+: q) :
    recAt (watchOp P O dt s p true c e).1.root q = recAt s.root q := by
  rw [← recAt_add s.root p q]
  have hne : q ≠ p := fun h => hq (h ▸ List.prefix_rfl)
  have hg := Node.add_get_ne_none s.root p
  unfold watchOp NonRec.watchrec
  simp only [if_true]
  split
  · rw [recAt_setWatch hg, if_neg hne]
  split
  · rfl
  obtain ⟨nd, hnd⟩ := Option.ne_none_iff_exists'.1 hg
  simp only [hnd]
  generalize (if _ = (0 : Event) then _ else _ : World × Node × Bool) = r
  split
  · rw [recAt_setWatch (get_put_ne hg _), if_neg hne]
    unfold recAt; rw [watchAt_put_other _ _ hq]
  · unfold recAt; rw [watchAt_put_other _ _ hq]

/-- Handling an event leaves the internal sets that are not below its path. -/
theorem internal_rec_other {s : St} (h : Good P s) (dt : DirTree) {ei : EventInfo} {q : Path}
    (hq : ¬ ei.path <+: q) : recAt (internal P .ok dt s ei).root q = recAt s.root q := by
  unfold internal
  split
  · split
    · rfl
    · next nd hnd =>
      dsimp only
      cases hd : s.root.del ei.path with
      | none => rfl
      | some r =>
        simp only [Option.getD_some]
        unfold recAt
        rw [h.del_watchAt hd, if_neg hq]
  · dsimp only
    split
    · rfl
    · split
      · rfl
      · dsimp only
        unfold recAt
        rw [watchAt_put_other _ _ hq, watchAt_add]

section
variable {s : St} (hs : Shape P s.root)
include hs

theorem stop_rec (O : Oracle) (c : Nat) {q : Path} {b : Comp} {v : Event} (hv : recAt s.root (q ++ [b]) = some v) :
    recAt (stop P O s c).root (q ++ [b]) =
      GoMap.get? (watchDelMin P ((watchAt (stop P O s c).root q).val .recCh) (watchAt s.root (q ++ [b])) (.user c) allEvents).1 .recCh := by
  conv_lhs => unfold recAt
  rw [stop_watchAt O hs, if_pos ?_]
  · rfl
  · intro hl
    have := List.length_eq_zero_iff.1 hl
    unfold recAt at hv; rw [this] at hv; simp at hv

theorem stop_back (hP : P.Facts) (O : Oracle) (c : Nat) {q : Path} {v : Event} (hv : recAt (stop P O s c).root q = some v) :
    ∃ u, recAt s.root q = some u := by
  have hs' := (stop_effect hP O hs c).1
  rcases path_cases q with rfl | ⟨r, b, rfl⟩
  · rw [recAt_top hs'] at hv; simp at hv
  · unfold recAt at hv
    rw [stop_watchAt O hs] at hv
    split at hv
    · by_contra hn
      have hn' : (watchAt s.root (r ++ [b])).get? .recCh = none := by
        cases hr : (watchAt s.root (r ++ [b])).get? .recCh with
        | none => rfl
        | some u => exact absurd ⟨u, hr⟩ hn
      have := (watchDelMin_spec hP (hs.nr (r ++ [b])) (hs'.nr r).minOK c).2.2.2.2.2 (Or.inl hn')
      change GoMap.get? (watchDelMin P ((watchAt (stop P O s c).root r).val .recCh) _ _ _).1 _ = _ at hv
      rw [this] at hv; simp at hv
    · simp at hv

/-- After Stop an internal set still contains that of the directory above. -/
theorem stop_mono (hP : P.Facts) (O : Oracle) (c : Nat) {q : Path} {b : Comp} {v u : Event}
    (hv : recAt (stop P O s c).root q = some v) (hu : recAt s.root (q ++ [b]) = some u) :
    ∃ v', recAt (stop P O s c).root (q ++ [b]) = some v' ∧ v ⊑ v' := by
  have hs' := (stop_effect hP O hs c).1
  have hspec := watchDelMin_spec hP (hs.nr (q ++ [b])) (hs'.nr q).minOK c
  have hmin : (watchAt (stop P O s c).root q).val .recCh = v := val_of_some hv
  have hv0 : v ≠ 0 := by
    have := (hs'.nr q).recv v hv
    have := hP.create_ne
    ebits
  have hne : recAt (stop P O s c).root (q ++ [b]) ≠ none := by
    rw [stop_rec hs O c hu]
    intro hn
    rcases hspec.2.2.2.2.1 hn with h1 | h1
    · change recAt s.root (q ++ [b]) = none at h1
      rw [hu] at h1; simp at h1
    · rw [hmin] at h1; exact hv0 h1.1
  obtain ⟨v', hv'⟩ := Option.ne_none_iff_exists'.1 hne
  refine ⟨v', hv', ?_⟩
  intro i hi
  rw [stop_rec hs O c hu] at hv' hne
  have := (hspec.2.2.2.1 i).2 ⟨by
    change recAt s.root (q ++ [b]) ≠ none
    rw [hu]; simp, hne, Or.inl (by rw [hmin]; exact hi)⟩
  rwa [val_of_some hv'] at this

/-- Stop of a channel leaves in an internal set what another channel asked for there. -/
theorem stop_keep (hP : P.Facts) (O : Oracle) {c d : Nat} (hdc : d ≠ c) {q : Path} {e v u : Event} (he : UserEvents P e)
    (hv : entry s.root d q = some v) (hvs : e ⊑ v) (hu : recAt s.root q = some u) (hus : e ⊑ u) :
    ∃ v', recAt (stop P O s c).root q = some v' ∧ e ⊑ v' := by
  have hs' := (stop_effect hP O hs c).1
  rcases path_cases q with rfl | ⟨r, b, rfl⟩
  · rw [recAt_top hs] at hu; simp at hu
  have hspec := watchDelMin_spec hP (hs.nr (r ++ [b])) (hs'.nr r).minOK c
  have hval : (watchAt s.root (r ++ [b])).val .recCh = u := val_of_some hu
  have hne' : recAt (stop P O s c).root (r ++ [b]) ≠ none := by
    rw [stop_rec hs O c hu]
    intro hn
    rcases hspec.2.2.2.2.1 hn with h1 | h1
    · change recAt s.root (r ++ [b]) = none at h1
      rw [hu] at h1; simp at h1
    · obtain ⟨i, hbi⟩ := Event.ne_zero_iff.1 he.1
      rcases h1.2 d v i hdc hv (hvs i hbi) with h2 | h2
      · have : BitVec.getLsbD (e &&& P.internal) i = true := by simp [hbi, h2]
        rw [he.2] at this; simp at this
      · rw [hval, hus i hbi] at h2; simp at h2
  obtain ⟨v', hv'⟩ := Option.ne_none_iff_exists'.1 hne'
  refine ⟨v', hv', ?_⟩
  intro i hbi
  rw [stop_rec hs O c hu] at hv' hne'
  have := (hspec.2.2.2.1 i).2 ⟨by
    change recAt s.root (r ++ [b]) ≠ none
    rw [hu]; simp, hne', Or.inr (Or.inr ⟨by rw [hval]; exact hus i hbi, d, v, hdc, hv, hvs i hbi⟩)⟩
  rwa [val_of_some hv'] at this

end

/-- Internal sets come from recursive Watches. -/
theorem Hist.rec_origin (hP : P.Facts) {ops : List Op} {s : St} (h : Hist P true ops s) {a : Path} (ha : recAt s.root a ≠ none) :
    ∃ q c e res, Op.watch q true c e res ∈ ops ∧ q <+: a := by
  induction h generalizing a with
  | nil => exact absurd (by cases a <;> rfl) ha
  | @snoc ops s op s' h' hst ih =>
    have old : ∀ {a}, recAt s.root a ≠ none → ∃ q c e res, Op.watch q true c e res ∈ ops ++ [op] ∧ q <+: a := by
      intro a ha
      obtain ⟨q, c, e, res, h1, h2⟩ := ih ha
      exact ⟨q, c, e, res, List.mem_append_left _ h1, h2⟩
    have hg := Hist.good hP h'
    cases hst with
    | @watch p isrec c e O dt hp he hd hO =>
      cases isrec with
      | false => rw [plain_rec] at ha; exact old ha
      | true =>
        by_cases hpa : p <+: a
        · exact ⟨p, c, e, _, List.mem_append_right _ (List.mem_singleton.2 rfl), hpa⟩
        · rw [watchrec_rec_other _ _ _ _ _ _ hpa] at ha; exact old ha
    | stop hO =>
      obtain ⟨v, hv⟩ := Option.ne_none_iff_exists'.1 ha
      obtain ⟨u, hu⟩ := stop_back hg.shape hP _ _ hv
      exact old (by rw [hu]; simp)
    | @internal ei O dt hp hd hO =>
      obtain rfl := hO rfl
      by_cases hpa : ei.path <+: a
      · by_cases hev : ei.event = P.remove
        · have h2 := ha
          unfold NonRec.internal at h2
          rw [if_pos hev] at h2
          split at h2
          · exact old h2
          · dsimp only at h2
            cases hd : s.root.del ei.path with
            | none => rw [hd] at h2; exact old h2
            | some r =>
              rw [hd, Option.getD_some] at h2
              unfold recAt at h2
              rw [hg.del_watchAt hd, if_pos hpa] at h2
              simp at h2
        · rcases pickSet_ge P ((onPath s.root ei.path).map Node.watch) P.internal with h1 | ⟨w, hw, h0, _⟩
          · have h2 : NonRec.internal P .ok dt s ei = s := by
              unfold NonRec.internal
              rw [if_neg hev]
              simp only [show pickSet P ((onPath s.root ei.path).map Node.watch) = P.internal from h1, if_true]
            rw [h2] at ha
            exact old ha
          · obtain ⟨x, hx, rfl⟩ := List.mem_map.1 hw
            obtain ⟨y, hy, hgy⟩ := mem_onPath hx
            have hwr : watchAt s.root y = x.watch := by simp [watchAt, Node.find, hgy]
            rw [← hwr] at h0
            obtain ⟨q, c, e, res, h3, h4⟩ := old (a := y) (fun hn => h0 (WP.val_eq_zero_of_none hn))
            exact ⟨q, c, e, res, h3, (h4.trans hy).trans hpa⟩
      · rw [internal_rec_other hg dt hpa] at ha; exact old ha
    | shuffle hsh =>
      refine old ?_
      unfold recAt at ha ⊢
      rwa [hsh.get] at ha

/-! ### The invariant -/

/-- All directories from `p` to `q` have an internal set. -/
def Conn (root : Node) (p q : Path) : Prop := p <+: q ∧ ∀ a, p <+: a → a <+: q → recAt root a ≠ none

theorem Conn.rec {root : Node} {p q : Path} (h : Conn root p q) : recAt root q ≠ none := h.2 q h.1 List.prefix_rfl

theorem Conn.up {root : Node} {p q a : Path} (h : Conn root p q) (h1 : p <+: a) (h2 : a <+: q) : Conn root p a :=
  ⟨h1, fun b h3 h4 => h.2 b h3 (h4.trans h2)⟩

theorem Conn.snoc {root : Node} {p q : Path} {b : Comp} (h : Conn root p q) (hr : recAt root (q ++ [b]) ≠ none) :
    Conn root p (q ++ [b]) := by
  refine ⟨h.1.trans (List.prefix_append _ _), fun a h1 h2 => ?_⟩
  rcases List.prefix_concat_iff.1 h2 with rfl | h2
  · exact hr
  · exact h.2 a h1 h2


/-- The part of the invariant that is about the tree, for the recursive watch of `e` on `p` by `c`. -/
structure Stat (P : Platform) (c : Nat) (p : Path) (e : Event) (st : St) : Prop where
  good : Good P st
  top : ∀ a, a <+: p → a ≠ p → recAt st.root a = none
  user : ∃ v, entry st.root c p = some v ∧ e ||| P.recursive ⊑ v
  base : ∃ v, recAt st.root p = some v ∧ e ⊑ v
  sets : ∀ q b v, Conn st.root p q → recAt st.root (q ++ [b]) = some v → e ⊑ v

/-- The part about the directories: one in a directory that is connected has a set, or its creation event is pending. -/
structure Dyn (p : Path) (root : Node) (fs pend : Path → Prop) : Prop where
  edge : ∀ q b, Conn root p q → fs (q ++ [b]) → recAt root (q ++ [b]) ≠ none ∨ pend (q ++ [b])
  real : ∀ q, p <+: q → recAt root q ≠ none → fs q
  tree : ∀ q b, fs (q ++ [b]) → fs q

/-- What holds at every instant between two steps. -/
structure XCov (P : Platform) (c : Nat) (p : Path) (e : Event) (k : Cfg) : Prop where
  stat : Stat P c p e k.st
  dyn : Dyn p k.st.root k.fs (fun x => x ∈ k.ev ∨ x ∈ k.rq)
  evs : ∀ x ∈ k.ev, GoodPath x ∧ (p <+: x → k.fs x)
  rqs : ∀ x ∈ k.rq, GoodPath x ∧ (p <+: x → k.fs x)

section
variable {c : Nat} {p : Path} {e : Event} {st : St}

theorem Stat.set (h : Stat P c p e st) {q : Path} (hq : Conn st.root p q) : ∃ v, recAt st.root q = some v ∧ e ⊑ v := by
  rcases path_cases q with rfl | ⟨r, b, rfl⟩
  · have : p = [] := List.prefix_nil.1 hq.1
    exact this ▸ h.base
  · rcases List.prefix_concat_iff.1 hq.1 with h1 | h1
    · rw [← h1]; exact h.base
    · obtain ⟨v, hv⟩ := Option.ne_none_iff_exists'.1 hq.rec
      exact ⟨v, hv, h.sets r b v (hq.up h1 (List.prefix_append _ _)) hv⟩

theorem Good.hears (hP : P.Facts) {s : St} (h : Good P s) {q : Path} (hr : recAt s.root q ≠ none) : Hears P s.world q := by
  obtain ⟨v, hv⟩ := Option.ne_none_iff_exists'.1 hr
  have h1 := h.rec_os hv
  have h2 := (h.shape.nr q).recv v hv
  have h3 := hP.create_rec
  have h4 := hP.create_omit
  unfold Hears
  generalize osOf s.world.log q = x at *
  clear hv
  ebits

/-- Nothing is picked above `p`. -/
theorem Stat.pick_above (h : Stat P c p e st) {x : Path} (hx : x <+: p) (hne : x ≠ p) : picked P st.root x = P.internal := by
  rcases pickSet_ge P ((onPath st.root x).map Node.watch) P.internal with h1 | ⟨w, hw, h0, _⟩
  · exact h1
  · exfalso
    obtain ⟨n, hn, rfl⟩ := List.mem_map.1 hw
    obtain ⟨y, hy, hg⟩ := mem_onPath hn
    have hyne : y ≠ p := by
      rintro rfl
      exact hne (hx.eq_of_length (Nat.le_antisymm hx.length_le hy.length_le))
    have hwr : watchAt st.root y = n.watch := by simp [watchAt, Node.find, hg]
    rw [← hwr] at h0
    exact h0 (WP.val_eq_zero_of_none (h.top y (hy.trans hx) hyne))

/-- `x` is `p`, or in a directory that is connected with `p`. -/
def Attached (root : Node) (p x : Path) : Prop := x = p ∨ ∃ q b, Conn root p q ∧ x = q ++ [b]

/-- What is picked for such a path has the events. -/
theorem Stat.pick (hP : P.Facts) (h : Stat P c p e st) {x : Path} (hx : Attached st.root p x) :
    picked P st.root x ≠ P.internal ∧ e ⊑ picked P st.root x := by
  have hpx : p <+: x := by
    rcases hx with rfl | ⟨q, b, hq, rfl⟩
    · exact List.prefix_rfl
    · exact hq.1.trans (List.prefix_append _ _)
  obtain ⟨v, hv, hsv⟩ := h.base
  have hmax := pickSet_max P ((onPath st.root x).map Node.watch) P.internal
  have hin : picked P st.root x ≠ P.internal := by
    intro heq
    obtain ⟨n, hn⟩ := get_of_find_ne (find_of_recAt hv)
    have hnw : n.watch.val .recCh = v := by
      have : watchAt st.root p = n.watch := by simp [watchAt, Node.find, hn]
      rw [← this]; exact val_of_some hv
    have hmem : n ∈ onPath st.root x := by
      by_cases hpe : p = x
      · subst hpe
        have hne : p ≠ [] := by
          rintro rfl
          rw [recAt_top h.good.shape] at hv; simp at hv
        simp only [onPath, List.mem_append]
        right
        rw [Node.walkPath_base _ hne, hn]; simp
      · exact onPath_of_prefix hpx hpe hn
    have h1 := hmax.2 _ (List.mem_map.2 ⟨n, hmem, rfl⟩)
    change _ ≤ picked P st.root x at h1
    rw [heq, hnw] at h1
    have hrv := (h.good.shape.nr p).recv v hv
    have h2 := BitVec.le_antisymm h1 (Event.Sub.le (Event.Sub.trans (Event.sub_or_right _ _) hrv))
    have h3 := hP.create_ne
    have h4 := hP.create_rec
    have h5 := hP.create_omit
    subst h2
    clear hv hsv hmax h1 heq hnw
    ebits
  refine ⟨hin, ?_⟩
  rcases pickSet_ge P ((onPath st.root x).map Node.watch) P.internal with h1 | ⟨w, hw, h0, h1⟩
  · exact absurd h1 hin
  · change picked P st.root x = _ at h1
    rw [h1]
    obtain ⟨n, hn, rfl⟩ := List.mem_map.1 hw
    obtain ⟨r, hr, hg⟩ := mem_onPath hn
    have hwr : watchAt st.root r = n.watch := by simp [watchAt, Node.find, hg]
    rw [← hwr] at h0 ⊢
    cases h2 : recAt st.root r with
    | none => exact absurd (WP.val_eq_zero_of_none h2) h0
    | some u =>
      rw [val_of_some h2]
      have hpr : p <+: r := by
        rcases List.prefix_or_prefix_of_prefix hpx hr with h3 | h3
        · exact h3
        · by_cases h4 : r = p
          · rw [h4]; exact List.prefix_rfl
          · rw [h.top r h3 h4] at h2; simp at h2
      have fin : ∀ v, recAt st.root r = some v ∧ e ⊑ v → e ⊑ u := by
        rintro v ⟨h5, h6⟩
        rw [h2] at h5
        exact (Option.some.inj h5) ▸ h6
      rcases hx with rfl | ⟨q, b, hq, rfl⟩
      · have : r = x := hr.eq_of_length (Nat.le_antisymm hr.length_le hpr.length_le)
        subst this
        obtain ⟨v', hv'⟩ := h.base
        exact fin v' hv'
      · rcases List.prefix_concat_iff.1 hr with rfl | hr
        · exact h.sets q b u hq h2
        · obtain ⟨v', hv'⟩ := h.set (hq.up hpr hr)
          exact fin v' hv'

end

/-- The creation of a directory in one with an internal set is handed to the internal goroutine. -/
theorem handed_of (hP : P.Facts) {root : Node} (hs : Shape P root) {q : Path} {b : Comp} (hr : recAt root q ≠ none) :
    toInternal P root (mkEvent P (q ++ [b])) = true := by
  obtain ⟨v, hv⟩ := Option.ne_none_iff_exists'.1 hr
  have hq : q ≠ [] := by
    rintro rfl
    rw [recAt_top hs] at hv; simp at hv
  obtain ⟨nd, hnd⟩ := get_of_find_ne (find_of_recAt hv)
  have hrec : nd.watch.isRecursive P = true := by
    have hw : watchAt root q = nd.watch := by simp [watchAt, Node.find, hnd]
    have hnr := hs.nr q
    have hrv := hnr.recv _ hv
    obtain ⟨i, hi⟩ := Event.ne_zero_iff.1 hP.recursive_ne
    have hoi : BitVec.getLsbD P.omitted i = false := by
      have := hP.rec_omit
      clear hv
      ebits
    have := (hnr.inv.total_bit i).2 ⟨hoi, .recCh, _, nofun, hv, hrv i (by simp [Platform.internal, hi])⟩
    rw [hw] at this
    simp only [WP.isRecursive, decide_eq_true_eq]
    rw [Event.ne_zero_iff]
    exact ⟨i, by simp only [BitVec.getLsbD_and, hi, Bool.and_true]; exact this⟩
  have hcne := hP.create_ne
  have : P.create &&& (P.create ||| P.remove) ≠ 0 := by
    clear hv
    ebits
  unfold toInternal mkEvent
  simp only [List.dropLast_concat, Node.walkPath_base _ hq, hnd, hrec]
  simp
  exact this

/-- More directories. -/
theorem Dyn.grow {p : Path} {root : Node} {fs fs' pend pend' : Path → Prop} (h : Dyn p root fs pend) (hsub : ∀ q, p <+: q → fs q → fs' q)
    (htree : ∀ q b, fs' (q ++ [b]) → fs' q) (hkeep : ∀ q b, pend (q ++ [b]) → pend' (q ++ [b]))
    (hnew : ∀ q b, Conn root p q → ¬ fs (q ++ [b]) → fs' (q ++ [b]) → pend' (q ++ [b])) : Dyn p root fs' pend' where
  edge := by
    intro q b hq hf
    by_cases hfs : fs (q ++ [b])
    · exact (h.edge q b hq hfs).imp_right (hkeep q b)
    · exact .inr (hnew q b hq hfs hf)
  real := fun q h1 h2 => hsub q h1 (h.real q h1 h2)
  tree := htree

/-- The internal goroutine handles an event that is not a removal: the scan of `x` with the listings `dt`. -/
theorem Stat.scan (hP : P.Facts) {c : Nat} {p : Path} {e : Event} {st : St} (h : Stat P c p e st) {fs pend pend' : Path → Prop}
    (hdyn : Dyn p st.root fs pend) {ei : EventInfo} (hev : ei.event ≠ P.remove) {x : Path} (hpath : ei.path = x) (hx : GoodPath x)
    (hpick : picked P st.root x ≠ P.internal) {dt : DirTree} (hd : dt.Named) (hne : dt.NoErr)
    (hold : ∀ r, p <+: x ++ r → recAt st.root (x ++ r) ≠ none → r ∈ dt.dirs)
    (hinside : ∀ r ∈ dt.dirs, ∀ b, fs (x ++ r ++ [b]) → r ++ [b] ∈ dt.dirs ∨ pend' (x ++ r ++ [b]))
    (hreal : ∀ r ∈ dt.dirs, p <+: x ++ r → fs (x ++ r))
    (hpend : ∀ q b, pend (q ++ [b]) → q ++ [b] = x ∨ pend' (q ++ [b])) :
    Stat P c p e (internal P .ok dt st ei) ∧ Dyn p (internal P .ok dt st ei).root fs pend' := by
  subst hpath
  set x := ei.path with hxdef
  obtain ⟨hin, hout⟩ := internal_region (P := P) .ok h.good.shape (ei := ei) hev hx hd hne hpick
  change ∀ q, (∃ r ∈ dt.dirs, q = x ++ r) → recAt _ q = some (_ ||| rset P (picked P st.root x)) at hin
  change ∀ q, (¬ ∃ r ∈ dt.dirs, q = x ++ r) → _ at hout
  have hent := (internal_effect (P := P) .ok h.good.shape (ei := ei) hx hd).2
  have hgood := h.good.internal hP hx hd
  set root' := (internal P .ok dt st ei).root with hroot
  have hmono : ∀ q, recAt st.root q ≠ none → recAt root' q ≠ none := by
    intro q hq
    by_cases hT : ∃ r ∈ dt.dirs, q = x ++ r
    · rw [hin q hT]; simp
    · rw [hout q hT]; exact hq
  -- `x` is not above `p`
  have hnotabove : x <+: p → x = p := fun hxp => by
    by_contra hne'
    exact hpick (h.pick_above hxp hne')
  -- what has a set below `x` is listed
  have hold' : ∀ q, x <+: q → p <+: q → recAt st.root q ≠ none → ∃ r ∈ dt.dirs, q = x ++ r := by
    rintro q ⟨r, rfl⟩ hp hf
    exact ⟨r, hold r hp hf, rfl⟩
  have hup : ∀ {q}, (∃ r ∈ dt.dirs, q = x ++ r) → x <+: q := by
    rintro q ⟨r, _, rfl⟩; exact List.prefix_append _ _
  -- connected after the scan
  have hconn : ∀ q, Conn root' p q → Conn st.root p q ∨ (Attached st.root p x ∧ ∃ r ∈ dt.dirs, q = x ++ r) := by
    intro q hq
    by_cases hall : ∀ a, p <+: a → a <+: q → recAt st.root a ≠ none
    · exact .inl ⟨hq.1, hall⟩
    right
    push Not at hall
    obtain ⟨a, ha1, ha2, ha3⟩ := hall
    have haT : ∃ r ∈ dt.dirs, a = x ++ r := by
      by_contra hT
      exact hq.2 a ha1 ha2 (by rw [hout a hT]; exact ha3)
    have hxq : x <+: q := (hup haT).trans ha2
    refine ⟨?_, ?_⟩
    · rcases List.prefix_or_prefix_of_prefix hxq hq.1 with h1 | h1
      · exact .inl (hnotabove h1)
      · rcases path_cases x with h2 | ⟨q₀, b₀, hxe⟩
        · exact absurd h2 hx.1
        · rw [hxe] at h1
          rcases List.prefix_concat_iff.1 h1 with h2 | h2
          · exact .inl (hxe.trans h2.symm)
          · refine .inr ⟨q₀, b₀, ⟨h2, fun y hy1 hy2 => ?_⟩, hxe⟩
            have h3 := hq.2 y hy1 ((hy2.trans (List.prefix_append _ [b₀])).trans (hxe ▸ hxq))
            rwa [hout y ?_] at h3
            intro hT
            have := (hup hT).length_le
            have := hy2.length_le
            rw [hxe] at *
            simp at *
            omega
    · by_contra hT
      have h3 := hq.rec
      rw [hout q hT] at h3
      exact hT (hold' q hxq hq.1 h3)
  refine ⟨⟨hgood, ?_, ?_, ?_, ?_⟩, ⟨?_, ?_, hdyn.tree⟩⟩
  · intro a ha hap
    rw [hout a ?_]
    · exact h.top a ha hap
    · intro hT
      have hxp := hnotabove ((hup hT).trans ha)
      exact hap (ha.eq_of_length (Nat.le_antisymm ha.length_le (hxp ▸ (hup hT)).length_le))
  · obtain ⟨v, hv, hs⟩ := h.user
    exact ⟨v, by rw [hent, if_neg (by rintro ⟨h1, _⟩; exact hev h1)]; exact hv, hs⟩
  · obtain ⟨v, hv, hs⟩ := h.base
    by_cases hT : ∃ r ∈ dt.dirs, p = x ++ r
    · refine ⟨_, hin p hT, ?_⟩
      rw [hv]
      exact hs.trans (Event.sub_or_left _ _)
    · exact ⟨v, by rw [hout p hT]; exact hv, hs⟩
  · intro q b v hq hv
    by_cases hT : ∃ r ∈ dt.dirs, q ++ [b] = x ++ r
    · have hatt : Attached st.root p x := by
        rcases hconn q hq with h1 | h1
        · rcases List.prefix_concat_iff.1 (hup hT) with h2 | h2
          · exact .inr ⟨q, b, h1, h2⟩
          · rcases List.prefix_or_prefix_of_prefix h2 h1.1 with h3 | h3
            · exact .inl (hnotabove h3)
            · rcases path_cases x with h4 | ⟨q₀, b₀, hxe⟩
              · exact absurd h4 hx.1
              · rw [hxe] at h3 h2
                rcases List.prefix_concat_iff.1 h3 with h5 | h5
                · exact .inl (hxe.trans h5.symm)
                · exact .inr ⟨q₀, b₀, h1.up h5 ((List.prefix_append _ _).trans h2), hxe⟩
        · exact h1.1
      rw [hin _ hT] at hv
      obtain rfl := Option.some.inj hv
      refine ((h.pick hP hatt).2).trans (Event.Sub.trans ?_ (Event.sub_or_right _ _))
      unfold rset
      rw [BitVec.or_assoc]; exact Event.sub_or_left _ _
    · rw [hout _ hT] at hv
      rcases hconn q hq with h1 | ⟨_, h1⟩
      · exact h.sets q b v h1 hv
      · exact absurd (hold' _ ((hup h1).trans (List.prefix_append _ _)) (hq.1.trans (List.prefix_append _ _)) (by rw [hv]; simp)) hT
  · intro q b hq hf
    by_cases hT : ∃ r ∈ dt.dirs, q = x ++ r
    · obtain ⟨r, hrd, rfl⟩ := hT
      rcases hinside r hrd b hf with h1 | h1
      · left
        rw [hin _ ⟨r ++ [b], h1, by simp⟩]; simp
      · exact .inr h1
    · have hq' : Conn st.root p q := (hconn q hq).resolve_right fun h1 => hT h1.2
      rcases hdyn.edge q b hq' hf with h2 | h2
      · exact .inl (hmono _ h2)
      · rcases hpend q b h2 with h3 | h3
        · left
          rw [hin _ ⟨[], dt.nil_mem_dirs, by simp [h3]⟩]; simp
        · exact .inr h3
  · intro q hpq hq
    by_cases hT : ∃ r ∈ dt.dirs, q = x ++ r
    · obtain ⟨r, hrd, rfl⟩ := hT
      exact hreal r hrd hpq
    · rw [hout q hT] at hq
      exact hdyn.real q hpq hq

/-- No set is picked: nothing happens. -/
theorem internal_skip {st : St} {ei : EventInfo} (hev : ei.event ≠ P.remove) (hpick : picked P st.root ei.path = P.internal) (dt : DirTree) :
    internal P .ok dt st ei = st := by
  unfold internal
  rw [if_neg hev]
  have : pickSet P ((onPath st.root ei.path).map Node.watch) = P.internal := hpick
  simp only [this, if_true]

theorem XCov.core (hP : P.Facts) (hcr : P.create ≠ P.remove) {c : Nat} {p : Path} {e : Event} {k k' : Cfg}
    (h : XCov P c p e k) (hs : CStep P k k') (hreal : Real p k') : XCov P c p e k' := by
  cases hs with
  | @create q b new hq hnq hnew hgood =>
    refine ⟨h.stat, h.dyn.grow (fun q _ hf => .inl hf) ?_ ?_ ?_, ?_, ?_⟩
    · rintro q' b' (hf | hf)
      · exact Or.inl (h.dyn.tree _ _ hf)
      · have : q' = q := (List.append_inj' hf rfl).1
        subst this; exact Or.inl hq
    · rintro q' b' (h1 | h1)
      · exact .inl (List.mem_append_left _ h1)
      · exact .inr h1
    · rintro q' b' hc hn (hf | hf)
      · exact absurd hf hn
      · have : q' = q := (List.append_inj' hf rfl).1
        subst this
        rw [hf]
        exact .inl (List.mem_append_right _ (hnew (h.stat.good.hears hP hc.rec)))
    · intro x hx
      refine ⟨?_, hreal x hx⟩
      rcases List.mem_append.1 hx with hx | hx
      · exact (h.evs x hx).1
      · exact hgood x hx
    · exact fun x hx => ⟨(h.rqs x hx).1, fun hp => Or.inl ((h.rqs x hx).2 hp)⟩
  | @dispatch x l₁ l₂ hev =>
    have hx := h.evs x (by rw [hev]; simp)
    refine ⟨h.stat, ⟨?_, h.dyn.real, h.dyn.tree⟩, ?_, ?_⟩
    · intro q b hc hf
      rcases h.dyn.edge q b hc hf with h1 | h1 | h1
      · exact Or.inl h1
      · rw [hev] at h1
        rcases mem_del h1 with h2 | h2
        · right; right
          rw [← h2, if_pos (handed_of hP h.stat.good.shape hc.rec)]
          simp
        · exact Or.inr (Or.inl h2)
      · right; right
        dsimp only
        split
        · exact List.mem_append_left _ h1
        · exact h1
    · intro y hy; exact h.evs y (by rw [hev]; exact mem_of_del hy)
    · intro y hy
      dsimp only at hy
      split at hy
      · rcases List.mem_append.1 hy with hy | hy
        · exact h.rqs y hy
        · rw [List.mem_singleton.1 hy]; exact hx
      · exact h.rqs y hy
  | @skip x l₁ l₂ dt hrq hpick =>
    rw [internal_skip (ei := mkEvent P x) hcr hpick]
    refine ⟨h.stat, ⟨?_, h.dyn.real, h.dyn.tree⟩, h.evs, ?_⟩
    · intro q b hc hf
      rcases h.dyn.edge q b hc hf with h1 | h1 | h1
      · exact Or.inl h1
      · exact Or.inr (Or.inl h1)
      · rw [hrq] at h1
        rcases mem_del h1 with h2 | h2
        · exact absurd (h2 ▸ hpick) (h.stat.pick hP (.inr ⟨q, b, hc, rfl⟩)).1
        · exact Or.inr (Or.inr h2)
    · intro y hy; exact h.rqs y (by rw [hrq]; exact mem_of_del hy)
  | @scan x l₁ l₂ dt fs' new n F w l hrq hpick hd hne hgood hsc =>
    obtain ⟨hx, hxfs⟩ := h.rqs x (by rw [hrq]; simp)
    have hdyn : Dyn p k.st.root fs' (fun y => y ∈ k.ev ++ new ∨ y ∈ k.rq) := by
      refine h.dyn.grow (fun q _ hf => hsc.sub hf) ?_ ?_ ?_
      · intro q b hf
        rw [← hsc.last] at hf ⊢
        exact hsc.tree _ _ _ hf
      · rintro q b (h1 | h1)
        · exact .inl (List.mem_append_left _ h1)
        · exact .inr h1
      · intro q b hc hn hf
        exact .inl (List.mem_append_right _ ((hsc.outside (h.stat.good.hears hP hc.rec) hf).resolve_left hn))
    obtain ⟨h1, h2⟩ := h.stat.scan hP hdyn (ei := mkEvent P x) hcr rfl hx hpick hd hne (pend' := fun y => y ∈ k.ev ++ new ∨ y ∈ l₁ ++ l₂)
      (fun r hp hr => hsc.old r (h.dyn.real _ hp hr))
      (fun r hr b hf => (hsc.inside hr hf).imp_right fun h1 => .inl (List.mem_append_right _ h1))
      (by
        intro r hrd hpq
        rcases path_cases r with rfl | ⟨r', b, rfl⟩
        · rw [List.append_nil] at hpq ⊢
          exact hsc.sub (hxfs hpq)
        · have h1 := dt.dirs_prefix hrd (List.prefix_append r' [b])
          have h2 := (hsc.list r' h1 b).1 hrd
          rw [← List.append_assoc, ← hsc.last]
          exact hsc.mono (hsc.order r' h1).2 h2)
      (by
        rintro q b (h1 | h1)
        · exact .inr (.inl h1)
        · rw [hrq] at h1
          rcases mem_del h1 with h2 | h2
          · exact .inl h2
          · exact .inr (.inr h2))
    refine ⟨h1, h2, ?_, ?_⟩
    · intro y hy
      refine ⟨?_, hreal y hy⟩
      rcases List.mem_append.1 hy with hy | hy
      · exact (h.evs y hy).1
      · exact hgood y hy
    · intro y hy
      have := h.rqs y (by rw [hrq]; exact mem_of_del hy)
      exact ⟨this.1, fun hp => hsc.sub (this.2 hp)⟩

/-- `p` is watched after an operation as before: the same directories are connected, and those in them have sets as before. -/
def Kept (P : Platform) (c : Nat) (p : Path) (e : Event) (st st' : St) : Prop :=
  Stat P c p e st' ∧ (∀ q, p <+: q → recAt st'.root q ≠ none → recAt st.root q ≠ none) ∧
    (∀ q, Conn st.root p q → Conn st'.root p q) ∧
    ∀ q b, Conn st'.root p q → recAt st.root (q ++ [b]) ≠ none → recAt st'.root (q ++ [b]) ≠ none

/-- An operation of another channel, or elsewhere. -/
theorem Stat.other (hP : P.Facts) {c : Nat} {p : Path} {e : Event} (he : UserEvents P e) {st st' : St} (h : Stat P c p e st) {op : Op}
    (hst : Step P true st op st') (hap : Apart c p op) :
    Kept P c p e st st' := by
  have hgood := Step.good hP h.good hst
  -- all but the sets
  have key : (∀ q, q <+: p ∨ p <+: q → recAt st'.root q ≠ none → recAt st.root q ≠ none) →
      (∃ v, entry st'.root c p = some v ∧ e ||| P.recursive ⊑ v) → (∃ v, recAt st'.root p = some v ∧ e ⊑ v) →
      (∀ q b v, Conn st'.root p q → recAt st'.root (q ++ [b]) = some v → e ⊑ v) →
      (∀ q b, Conn st'.root p q → recAt st.root (q ++ [b]) ≠ none → recAt st'.root (q ++ [b]) ≠ none) →
      Kept P c p e st st' := by
    intro hback huser hbase hsets hkeep
    refine ⟨⟨hgood, ?_, huser, hbase, hsets⟩, fun q hq => hback q (.inr hq), ?_, hkeep⟩
    · intro a ha hne
      by_contra hc
      exact hback a (.inl ha) hc (h.top a ha hne)
    · have hb : Conn st'.root p p := by
        refine ⟨List.prefix_rfl, fun a h1 h2 => ?_⟩
        obtain ⟨v, hv, _⟩ := hbase
        rw [h2.eq_of_length (Nat.le_antisymm h2.length_le h1.length_le), hv]; simp
      rintro q ⟨⟨r, rfl⟩, hq⟩
      have : ∀ m r', r'.length = m → r' <+: r → Conn st'.root p (p ++ r') := by
        intro m
        induction m with
        | zero => intro r' hr' _; rw [List.length_eq_zero_iff.1 hr', List.append_nil]; exact hb
        | succ m ih =>
          intro r' hr' hpre
          rcases path_cases r' with rfl | ⟨r'', b, rfl⟩
          · simp at hr'
          · have h1 := ih r'' (by simpa using hr') ((List.prefix_append _ _).trans hpre)
            rw [← List.append_assoc]
            refine h1.snoc (hkeep _ _ h1 ?_)
            rw [List.append_assoc]
            exact hq _ (List.prefix_append _ _) ((List.prefix_append_right_inj p).2 hpre)
      exact this _ r rfl List.prefix_rfl
  -- all but Stop leave the sets
  have same : (∀ q, q <+: p ∨ p <+: q → recAt st'.root q = recAt st.root q) →
      (∃ v, entry st'.root c p = some v ∧ e ||| P.recursive ⊑ v) → Kept P c p e st st' := by
    intro hrec huser
    refine key (fun q hq => by rw [hrec q hq]; exact id) huser (by rw [hrec p (.inl List.prefix_rfl)]; exact h.base) ?_ ?_
    · intro q b v hq hv
      rw [hrec _ (.inr (hq.1.trans (List.prefix_append _ _)))] at hv
      exact h.sets q b v ⟨hq.1, fun a h1 h2 => by rw [← hrec a (.inr h1)]; exact hq.2 a h1 h2⟩ hv
    · intro q b hq hr
      rwa [hrec _ (.inr (hq.1.trans (List.prefix_append _ _)))]
  obtain ⟨v, hv, hsv⟩ := h.user
  cases hst with
  | @watch q isrec d e' O dt hp he' hd hO =>
    have heff := (watchOp_effect hP O h.good.shape hp isrec d he' hd).2
    refine same (fun a ha => ?_) ?_
    · cases isrec with
      | false => exact plain_rec ..
      | true =>
        refine watchrec_rec_other _ _ _ _ _ _ fun hqa => ?_
        rcases ha with ha | ha
        · exact hap.1 (hqa.trans ha)
        · rcases List.prefix_or_prefix_of_prefix hqa ha with h1 | h1
          · exact hap.1 h1
          · exact hap.2 h1
    · rw [heff]
      split
      · next hcd =>
        obtain ⟨rfl, rfl⟩ := hcd
        have hval : (watchAt st.root p).val (.user c) = v := val_of_some hv
        split
        · refine ⟨_, rfl, hsv.trans ?_⟩
          rw [hval, BitVec.or_assoc]; exact Event.sub_or_left _ _
        · split
          · exact ⟨v, hv, hsv⟩
          · obtain ⟨v', h1, h2⟩ := rolledBack_ge (h.good.shape.nr p) c he' hv
            exact ⟨v', h1, hsv.trans h2⟩
      · exact ⟨v, hv, hsv⟩
  | @stop d O hO =>
    have hdc : c ≠ d := fun hx => hap hx.symm
    have hsh := h.good.shape
    obtain ⟨u, hu, hsu⟩ := h.base
    have hbase := stop_keep hsh hP O hdc he hv ((Event.sub_or_left _ _).trans hsv) hu hsu
    have hback : ∀ q, recAt (NonRec.stop P O st d).root q ≠ none → recAt st.root q ≠ none := by
      intro q hq
      obtain ⟨v, hv⟩ := Option.ne_none_iff_exists'.1 hq
      obtain ⟨u, hu⟩ := stop_back hsh hP O d hv
      rw [hu]; simp
    have hset : ∀ m q, q.length = m → Conn (NonRec.stop P O st d).root p q →
        ∃ v, recAt (NonRec.stop P O st d).root q = some v ∧ e ⊑ v := by
      intro m
      induction m with
      | zero =>
        intro q hq hc
        rw [List.length_eq_zero_iff.1 hq] at hc ⊢
        have : p = [] := List.prefix_nil.1 hc.1
        exact this ▸ hbase
      | succ m ih =>
        intro q hq hc
        rcases path_cases q with rfl | ⟨r, b, rfl⟩
        · simp at hq
        · rcases List.prefix_concat_iff.1 hc.1 with h1 | h1
          · rw [← h1]; exact hbase
          · obtain ⟨v, hv, hsv⟩ := ih r (by simpa using hq) (hc.up h1 (List.prefix_append _ _))
            obtain ⟨u, hu⟩ := Option.ne_none_iff_exists'.1 (hback _ hc.rec)
            obtain ⟨v', hv', hvv⟩ := stop_mono hsh hP O d hv hu
            exact ⟨v', hv', hsv.trans hvv⟩
    refine key (fun q _ => hback q) ?_ hbase ?_ ?_
    · rw [(stop_effect hP O hsh d).2, if_neg hdc]
      exact ⟨v, hv, hsv⟩
    · intro q b w hq hw
      obtain ⟨v, hv, hsv⟩ := hset _ _ rfl (hq.snoc (by rw [hw]; simp))
      rw [hw] at hv
      exact Option.some.inj hv ▸ hsv
    · intro q b hq hr
      obtain ⟨v, hv⟩ := Option.ne_none_iff_exists'.1 hq.rec
      obtain ⟨u, hu⟩ := Option.ne_none_iff_exists'.1 hr
      obtain ⟨v', hv', _⟩ := stop_mono hsh hP O d hv hu
      rw [hv']; simp
  | @internal ei O dt hp hd hO =>
    obtain rfl := hO rfl
    refine same (fun a ha => ?_) ?_
    · refine internal_rec_other h.good dt fun hqa => ?_
      rcases ha with ha | ha
      · exact hap.1 (hqa.trans ha)
      · rcases List.prefix_or_prefix_of_prefix hqa ha with h1 | h1
        · exact hap.1 h1
        · exact hap.2 h1
    · rw [(internal_effect (P := P) .ok h.good.shape hp hd).2, if_neg (fun hx => hap.1 hx.2)]
      exact ⟨v, hv, hsv⟩
  | shuffle hsh =>
    refine same (fun a _ => hsh.get a _) ⟨v, ?_, hsv⟩
    unfold entry at hv ⊢
    rw [hsh.get]; exact hv

/-- The directories after such an operation. -/
theorem Dyn.other {p : Path} {root root' : Node} {fs pend pend' : Path → Prop} (h : Dyn p root fs pend)
    (hback : ∀ q, p <+: q → recAt root' q ≠ none → recAt root q ≠ none)
    (hkeep : ∀ q b, Conn root' p q → recAt root (q ++ [b]) ≠ none → recAt root' (q ++ [b]) ≠ none)
    (hpend : ∀ q b, p <+: q → pend (q ++ [b]) → pend' (q ++ [b])) : Dyn p root' fs pend' where
  edge := by
    intro q b hq hf
    have hq' : Conn root p q := ⟨hq.1, fun a h1 h2 => hback a h1 (hq.2 a h1 h2)⟩
    rcases h.edge q b hq' hf with h1 | h1
    · exact .inl (hkeep q b hq h1)
    · exact .inr (hpend q b hq.1 h1)
  real := fun q h1 h2 => h.real q h1 (hback q h1 h2)
  tree := h.tree

theorem XCov.other (hP : P.Facts) {c : Nat} {p : Path} {e : Event} (he : UserEvents P e) {k : Cfg} (h : XCov P c p e k) {op : Op}
    {st' : St} {fs' : Path → Prop} {new : List Path} (hst : Step P true k.st op st') (hap : Apart c p op)
    (hgrow : ∀ q, p <+: q → k.fs q → fs' q) (htree : ∀ q b, fs' (q ++ [b]) → fs' q)
    (htold : ∀ q b, p <+: q → ¬ k.fs (q ++ [b]) → fs' (q ++ [b]) → Hears P k.st.world q → Hears P st'.world q → q ++ [b] ∈ new)
    (hnew : ∀ x ∈ new, GoodPath x ∧ (p <+: x → fs' x)) :
    XCov P c p e { st := st', fs := fs', ev := k.ev ++ new, rq := k.rq } := by
  obtain ⟨h1, hback, _, hkeep⟩ := h.stat.other hP he hst hap
  refine ⟨h1, (h.dyn.other hback hkeep (pend' := fun x => x ∈ k.ev ∨ x ∈ k.rq) fun _ _ _ h => h).grow hgrow htree ?_ ?_, ?_, ?_⟩
  · rintro q b (h1 | h1)
    · exact .inl (List.mem_append_left _ h1)
    · exact .inr h1
  · intro q b hq hn hf
    exact .inl (List.mem_append_right _ (htold q b hq.1 hn hf (h.stat.good.hears hP (hback q hq.1 hq.rec)) (h1.good.hears hP hq.rec)))
  · intro x hx
    rcases List.mem_append.1 hx with hx | hx
    · exact ⟨(h.evs x hx).1, fun hp => hgrow x hp ((h.evs x hx).2 hp)⟩
    · exact hnew x hx
  · exact fun x hx => ⟨(h.rqs x hx).1, fun hp => hgrow x hp ((h.rqs x hx).2 hp)⟩

/-- The recursive Watch. -/
theorem Stat.start (hP : P.Facts) {st : St} (hg : Good P st) {p : Path} {c : Nat} {e : Event} (hp : GoodPath p)
    (he : UserEvents P e) (htop : ∀ a, a <+: p ∨ p <+: a → recAt st.root a = none)
    {dt : DirTree} (hd : dt.Named) (hne : dt.NoErr) {fs pend : Path → Prop}
    (hinside : ∀ r ∈ dt.dirs, ∀ b, fs (p ++ r ++ [b]) → r ++ [b] ∈ dt.dirs ∨ pend (p ++ r ++ [b]))
    (hreal : ∀ r ∈ dt.dirs, fs (p ++ r)) (htree : ∀ q b, fs (q ++ [b]) → fs q) :
    Stat P c p e (watchOp P .ok dt st p true c e).1 ∧ Dyn p (watchOp P .ok dt st p true c e).1.root fs pend ∧
      ∀ r ∈ dt.dirs, recAt (watchOp P .ok dt st p true c e).1.root (p ++ r) ≠ none := by
  have hgood := hg.watchOp hP hp true (O := .ok) (fun _ => rfl) c he.1 he.2 hd
  have hga := Node.add_get_ne_none st.root p
  have hok : (NonRec.watchrec P .ok dt { st with root := st.root.add p } p c (e ||| P.recursive)).2 = true :=
    watchrec_ok .ok _ hga c _ hne
  have hent := (watchOp_effect hP .ok hg.shape hp true c he hd).2 c p
  rw [if_pos ⟨rfl, rfl⟩, if_pos (by unfold NonRec.watchOp; simpa using hok)] at hent
  have hrr := watchrec_rec hP .ok (s := { st with root := st.root.add p }) (hg.shape.add hp) hp hga c
    (recSet_of hP he.1 he.2) hd hok
  have hno : recAt (st.root.add p) p = none := by rw [recAt_add]; exact htop p (.inl List.prefix_rfl)
  have hR : Region (st.root.add p) (watchOp P .ok dt st p true c e).1.root
      (fun q => ∃ r ∈ dt.dirs, q = p ++ r) (rset P (e ||| P.recursive)) := by
    rcases hrr with ⟨⟨v, hv, _⟩, _⟩ | ⟨_, h1⟩ | ⟨⟨v, hv⟩, _⟩
    · exact absurd hv (by simp only [hno]; simp)
    · unfold watchOp; simpa using h1
    · exact absurd hv (by simp only [hno]; simp)
  have hin := hR.inside
  have hout := hR.outside
  simp only [recAt_add] at hin hout
  have hset : ∀ q v, p <+: q → recAt (watchOp P .ok dt st p true c e).1.root q = some v →
      (∃ r ∈ dt.dirs, q = p ++ r) ∧ e ⊑ v := by
    intro q v hpq hv
    by_cases hT : ∃ r ∈ dt.dirs, q = p ++ r
    · refine ⟨hT, ?_⟩
      rw [hin q hT] at hv
      obtain rfl := Option.some.inj hv
      unfold rset
      generalize (recAt st.root q).getD 0 = x
      clear hT hin hout hR hrr hno hok hent
      ebits
    · exfalso
      rw [hout q hT, htop q (.inr hpq)] at hv
      simp at hv
  refine ⟨⟨hgood, ?_, ⟨_, hent, ?_⟩, ?_, ?_⟩, ⟨?_, ?_, htree⟩, fun r hr => by rw [hin _ ⟨r, hr, rfl⟩]; simp⟩
  · intro a ha hap
    rw [hout a ?_]
    · exact htop a (.inl ha)
    · rintro ⟨r, _, rfl⟩
      apply hap
      exact ha.eq_of_length (Nat.le_antisymm ha.length_le (by simp))
  · rw [if_pos rfl]
    clear hent hin hout hR hrr hset
    ebits
  · have h1 := hin p ⟨[], dt.nil_mem_dirs, by simp⟩
    exact ⟨_, h1, (hset p _ List.prefix_rfl h1).2⟩
  · exact fun q b v hq hv => (hset _ v (hq.1.trans (List.prefix_append _ _)) hv).2
  · intro q b hq hf
    obtain ⟨v, hv⟩ := Option.ne_none_iff_exists'.1 hq.rec
    obtain ⟨r, hrd, rfl⟩ := (hset q v hq.1 hv).1
    rcases hinside r hrd b hf with h1 | h1
    · left
      rw [hin _ ⟨r ++ [b], h1, by simp⟩]; simp
    · exact .inr h1
  · intro q hpq hq
    obtain ⟨v, hv⟩ := Option.ne_none_iff_exists'.1 hq
    obtain ⟨r, hrd, rfl⟩ := (hset q v hpq hv).1
    exact hreal r hrd

theorem XCov.start (hP : P.Facts) {k₀ : Cfg} (hg : Good P k₀.st) {p : Path} {c : Nat} {e : Event} (hp : GoodPath p)
    (he : UserEvents P e) (htop : ∀ a, a <+: p ∨ p <+: a → recAt k₀.st.root a = none)
    (hev : ∀ x ∈ k₀.ev ++ k₀.rq, GoodPath x ∧ (p <+: x → k₀.fs x)) (hfs : k₀.fs p)
    {dt : DirTree} {fs : Path → Prop} {new : List Path} {n : Nat} {F : Nat → Path → Prop} {w l : Path → Nat}
    (hd : dt.Named) (hne : dt.NoErr) (hnew : ∀ y ∈ new, GoodPath y ∧ (p <+: y → fs y))
    (hsc : Scanned (Hears P k₀.st.world) p dt k₀.fs fs new n F w l) :
    XCov P c p e { st := (watchOp P .ok dt k₀.st p true c e).1, fs := fs, ev := k₀.ev ++ new, rq := k₀.rq } := by
  obtain ⟨h1, h2, _⟩ := Stat.start (c := c) hP hg hp he htop hd hne (fs := fs) (pend := fun x => x ∈ k₀.ev ++ new ∨ x ∈ k₀.rq)
    (fun r hr b hf => (hsc.inside hr hf).imp_right fun h1 => .inl (List.mem_append_right _ h1))
    (by
      intro r hrd
      rcases path_cases r with rfl | ⟨r', b, rfl⟩
      · rw [List.append_nil]
        exact hsc.sub hfs
      · have h1 := dt.dirs_prefix hrd (List.prefix_append r' [b])
        have h2 := (hsc.list r' h1 b).1 hrd
        rw [← List.append_assoc, ← hsc.last]
        exact hsc.mono (hsc.order r' h1).2 h2)
    (by
      intro q b hf
      rw [← hsc.last] at hf ⊢
      exact hsc.tree _ _ _ hf)
  refine ⟨h1, h2, ?_, ?_⟩
  · intro x hx
    rcases List.mem_append.1 hx with hx | hx
    · have := hev x (List.mem_append_left _ hx)
      exact ⟨this.1, fun h => hsc.sub (this.2 h)⟩
    · exact hnew x hx
  · intro x hx
    have := hev x (List.mem_append_right _ hx)
    exact ⟨this.1, fun h => hsc.sub (this.2 h)⟩

/-- When nothing is pending, all directories are connected. -/
theorem Dyn.conn {p : Path} {root : Node} {fs pend : Path → Prop} (h : Dyn p root fs pend) (hbase : recAt root p ≠ none)
    (hno : ∀ x, ¬ pend x) {q : Path} (hpq : p <+: q) (hq : fs q) : Conn root p q := by
  obtain ⟨r, rfl⟩ := hpq
  have key : ∀ m r, r.length = m → fs (p ++ r) → Conn root p (p ++ r) := by
    intro m
    induction m with
    | zero =>
      intro r hr _
      rw [List.length_eq_zero_iff.1 hr, List.append_nil]
      refine ⟨List.prefix_rfl, fun a h1 h2 => ?_⟩
      rw [h2.eq_of_length (Nat.le_antisymm h2.length_le h1.length_le)]; exact hbase
    | succ m ih =>
      intro r hr hf
      rcases path_cases r with rfl | ⟨r', b, rfl⟩
      · simp at hr
      · rw [← List.append_assoc] at hf ⊢
        have h1 := ih r' (by simpa using hr) (h.tree _ _ hf)
        exact h1.snoc ((h.edge _ _ h1 hf).resolve_right (hno _))
  exact key _ r rfl hq

/-- **C92**.  A channel asks for everything below `p`, an existing directory, after any history in which no recursive Watch concerns
`p` or a path above or below it.  Then directories are created, events are dispatched and handled in any order, other channels are
stopped, channels (the same one too) watch any path, `p` and paths below it included, or watch recursively elsewhere, Watches fail,
and directories appear while all that happens.  Whenever no event is pending and none is being handled, every directory at or below
`p` has an OS watch with the requested events and Create. -/
theorem C92_no_directory_missed_meanwhile (hP : P.Facts) (hcr : P.create ≠ P.remove) {ops : List Op} {k₀ : Cfg}
    (h₀ : Hist P true ops k₀.st) {p : Path} {c : Nat} {e : Event} (hp : GoodPath p) (he : UserEvents P e)
    (hops : ∀ q d v res, Op.watch q true d v res ∈ ops → ¬ q <+: p ∧ ¬ p <+: q) (hfs : k₀.fs p)
    (hpend : ∀ x ∈ k₀.ev ++ k₀.rq, GoodPath x ∧ (p <+: x → k₀.fs x))
    {k : Cfg} (hk : XReached P k₀ p c e k) (hev : k.ev = []) (hrq : k.rq = []) {q : Path}
    (hpq : p <+: q) (hq : k.fs q) : e ||| P.create ⊑ osOf k.st.world.log q := by
  have htop : ∀ a, a <+: p ∨ p <+: a → recAt k₀.st.root a = none := by
    intro a ha
    by_contra hc
    obtain ⟨q, d, v, res, h1, h2⟩ := h₀.rec_origin hP hc
    have := hops q d v res h1
    rcases ha with ha | ha
    · exact this.1 (h2.trans ha)
    · rcases List.prefix_or_prefix_of_prefix h2 ha with h3 | h3
      · exact this.1 h3
      · exact this.2 h3
  have hc : XCov P c p e k := by
    clear hev hrq hpq hq
    induction hk with
    | watch hd hne hnew hsc => exact XCov.start hP (Hist.good hP h₀) hp he htop hpend hfs hd hne hnew hsc
    | step _ hs ih =>
      cases hs with
      | core hs hr => exact ih.core hP hcr hs hr
      | other h1 h2 h3 h4 h5 h6 => exact ih.other hP he h1 h2 h3 h4 h5 h6
  have hconn : Conn k.st.root p q := hc.dyn.conn (by obtain ⟨v, hv, _⟩ := hc.stat.base; rw [hv]; simp) (by simp [hev, hrq]) hpq hq
  obtain ⟨v, hv, h2⟩ := hc.stat.set hconn
  have h1 := hc.stat.good.rec_os hv
  have h6 := (hc.stat.good.shape.nr q).recv v hv
  have h3 := hP.create_rec
  have h4 := hP.create_omit
  have h5 := he.2
  generalize osOf k.st.world.log q = x at *
  clear hv hev hrq hc hops hpend hk
  ebits

namespace MeanEx
open Ex

def k0 : Cfg := { st := init, fs := F5 0, ev := [], rq := [] }
/-- Channel 2 watches `/a/b` while the events for `/a/b` and `/a/b/c` wait to be handled. -/
def m2 : Cfg := { st := (watchOp I .ok .err s1 [a, b] false 2 I.rename).1, fs := F5 5, ev := [], rq := [[a, b], [a, b, ['c']]] }
def m3 : Cfg := { st := internal I .ok bList m2.st (mkEvent I [a, b]), fs := F5 5, ev := [], rq := [[a, b, ['c']]] }
/-- Channel 2 is stopped. -/
def m4 : Cfg := { st := stop I .ok m3.st 2, fs := F5 5, ev := [], rq := [[a, b, ['c']]] }
def m5 : Cfg := { st := internal I .ok (.dir .nil) m4.st (mkEvent I [a, b, ['c']]), fs := F5 5, ev := [], rq := [] }

theorem reached : XReached I k0 [a] 1 W m5 := by
  have no : ∀ {k : Cfg}, k.ev = [] → Real [a] k := by
    intro k h x hx; rw [h] at hx; simp at hx
  have h0 : XReached I k0 [a] 1 W c0 :=
    XReached.watch (dt := list) list_named (by simp [list, DirTree.NoErr, Entries.NoErr])
      (by simp [GoodPath, F5]) scanned5
  have h1 : XReached I k0 [a] 1 W c1 := by
    have := h0.step (.core (CStep.dispatch (l₁ := []) rfl) (by simp [Real, F5, c0]))
    rwa [if_pos (by decide)] at this
  have h2 : XReached I k0 [a] 1 W c2 := by
    have := h1.step (.core (CStep.dispatch (l₁ := []) rfl) (by simp [Real]))
    rwa [if_pos (by decide)] at this
  have h2' : XReached I k0 [a] 1 W m2 :=
    h2.step (.other (new := []) (Step.watch (p := [a, b]) (isrec := false) (c := 2) (e := I.rename) (O := .ok) (dt := .err)
      (by simp [GoodPath]) ⟨by decide, by decide⟩ (by simp [DirTree.Named]) (fun _ _ => rfl)) trivial (fun _ _ h => h) F5_tree
      (fun _ _ _ h h' => absurd h' h) (by simp))
  have h3 : XReached I k0 [a] 1 W m3 := by
    refine h2'.step (.core (CStep.scan (l₁ := []) (dt := bList) (new := []) rfl (by decide)
      (by simp [bList, DirTree.Named, Entries.Named]) (by simp [bList, DirTree.NoErr, Entries.NoErr])
      (by simp) (scanned_still F5_tree ?_)) (no rfl))
    intro r hr x
    simp only [bList, DirTree.dirs, Entries.dirs] at hr ⊢
    simp at hr
    rcases hr with rfl | rfl <;> simp [m2, F5]
  have h4 : XReached I k0 [a] 1 W m4 :=
    h3.step (.other (new := []) (Step.stop (c := 2) (O := .ok) (fun _ => rfl)) (by simp [Apart]) (fun _ _ h => h) F5_tree
      (fun _ _ _ h h' => absurd h' h) (by simp))
  refine h4.step (.core (CStep.scan (l₁ := []) (dt := .dir .nil) (new := []) rfl (by decide)
    (by simp [DirTree.Named, Entries.Named]) (by simp [DirTree.NoErr, Entries.NoErr])
    (by simp) (scanned_still F5_tree ?_)) (no rfl))
  intro r hr x
  simp only [DirTree.dirs, Entries.dirs] at hr ⊢
  simp at hr
  subst hr
  simp [m4, F5]

end MeanEx

example : Hist Ex.I true [] MeanEx.k0.st ∧ MeanEx.k0.fs [Ex.a] ∧ XReached Ex.I MeanEx.k0 [Ex.a] 1 Ex.W MeanEx.m5 ∧
    MeanEx.m5.ev = [] ∧ MeanEx.m5.rq = [] ∧ MeanEx.m5.fs [Ex.a, Ex.b, ['c']] ∧
    osOf MeanEx.m2.st.world.log [Ex.a, Ex.b] = Ex.CW ||| Ex.I.rename ∧ osOf MeanEx.m5.st.world.log [Ex.a, Ex.b] = Ex.CW ∧
    osOf MeanEx.m5.st.world.log [Ex.a, Ex.b, ['c']] = Ex.CW :=
  ⟨Steps.nil, by simp [MeanEx.k0, Ex.F5], MeanEx.reached, rfl, rfl, by simp [MeanEx.m5, Ex.F5], by decide, by decide, by decide⟩

end NonRec
end Verif
