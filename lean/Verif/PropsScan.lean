/-
C18: no directory is missed, however creation interleaves with the recursive scan.
-/
import Verif.Scan

namespace Verif
namespace NonRec
open GoMap Spec

variable {P : Platform}

/-- If something becomes true between `a` and `n`, there is an instant at which it does. -/
theorem first_time (F : Nat → Prop) {a n : Nat} (han : a ≤ n) (ha : ¬ F a) (hn : F n) :
    ∃ t, a ≤ t ∧ t < n ∧ ¬ F t ∧ F (t + 1) := by
  induction n with
  | zero =>
    have : a = 0 := by omega
    subst this; exact absurd hn ha
  | succ n ih =>
    by_cases hf : F n
    · by_cases hle : a ≤ n
      · obtain ⟨t, h1, h2, h3, h4⟩ := ih hle hf
        exact ⟨t, h1, by omega, h3, h4⟩
      · have : a = n + 1 := by omega
        subst this; exact absurd hn ha
    · by_cases hle : a ≤ n
      · exact ⟨n, hle, by omega, hf, hn⟩
      · have : a = n + 1 := by omega
        subst this; exact absurd hn ha

section
variable {hears : Path → Prop} {p : Path} {dt : DirTree} {fs fs' : Path → Prop} {new : List Path}
    {n : Nat} {F : Nat → Path → Prop} {w l : Path → Nat}

theorem Scanned.mono (h : Scanned hears p dt fs fs' new n F w l) {a b : Nat} (hab : a ≤ b) {q : Path}
    (hq : F a q) : F b q := by
  induction b with
  | zero => have : a = 0 := by omega
            subst this; exact hq
  | succ b ih =>
    by_cases hle : a ≤ b
    · exact h.grow _ _ (ih hle)
    · have : a = b + 1 := by omega
      subst this; exact hq

theorem Scanned.sub (h : Scanned hears p dt fs fs' new n F w l) {q : Path} (hq : fs q) : fs' q := by
  rw [← h.first] at hq; rw [← h.last]
  exact h.mono (Nat.zero_le _) hq

/-- A directory in a scanned directory is in the listing or is reported. -/
theorem Scanned.inside (h : Scanned hears p dt fs fs' new n F w l) {r : Path} (hr : r ∈ dt.dirs) {b : Comp}
    (hq : fs' (p ++ r ++ [b])) : r ++ [b] ∈ dt.dirs ∨ p ++ r ++ [b] ∈ new := by
  obtain ⟨ho, hn⟩ := h.order r hr
  by_cases hF : F (l (p ++ r)) (p ++ r ++ [b])
  · exact Or.inl ((h.list r hr b).2 hF)
  · rw [← h.last] at hq
    obtain ⟨t, h1, h2, h3, h4⟩ := first_time (fun t => F t (p ++ r ++ [b])) hn hF hq
    exact Or.inr (h.told t h2 _ _ h3 h4 (Or.inr ⟨r, hr, rfl, by omega⟩))

/-- A directory in a directory that was watched before the scan was there before the scan or is
reported. -/
theorem Scanned.outside (h : Scanned hears p dt fs fs' new n F w l) {q : Path} (hh : hears q) {b : Comp}
    (hq : fs' (q ++ [b])) : fs (q ++ [b]) ∨ q ++ [b] ∈ new := by
  by_cases hF : F 0 (q ++ [b])
  · rw [h.first] at hF; exact Or.inl hF
  · rw [← h.last] at hq
    obtain ⟨t, _, h2, h3, h4⟩ := first_time (fun t => F t (q ++ [b])) (Nat.zero_le _) hF hq
    exact Or.inr (h.told t h2 _ _ h3 h4 (Or.inl hh))

/-- Whatever existed below `p` when the scan began is in the listing. -/
theorem Scanned.old (h : Scanned hears p dt fs fs' new n F w l) (r : Path) (hq : fs (p ++ r)) : r ∈ dt.dirs := by
  rw [← h.first] at hq
  have key : ∀ k, r.take k ∈ dt.dirs := by
    intro k
    induction k with
    | zero => simpa using dt.nil_mem_dirs
    | succ k ih =>
      by_cases hk : k < r.length
      · have hpre : ∀ m, F 0 (p ++ r.take (r.length - m)) := by
          intro m
          induction m with
          | zero => simpa using hq
          | succ m ih =>
            by_cases hm : m < r.length
            · have hlt : r.length - (m + 1) < r.length := by omega
              have : r.take (r.length - m) = r.take (r.length - (m + 1)) ++ [r[r.length - (m + 1)]] := by
                rw [List.take_append_getElem]; congr 1; omega
              rw [this, ← List.append_assoc] at ih
              exact h.tree 0 _ _ ih
            · have : r.length - (m + 1) = r.length - m := by omega
              rw [this]; exact ih
        have h1 := hpre (r.length - (k + 1))
        have h2 : r.length - (r.length - (k + 1)) = k + 1 := by omega
        rw [h2, ← List.take_append_getElem hk] at h1
        rw [← List.take_append_getElem hk]
        apply (h.list _ ih _).2
        rw [← List.append_assoc] at h1
        exact h.mono (Nat.zero_le _) h1
      · rw [List.take_of_length_le (by omega)] at ih ⊢; exact ih
  have := key r.length
  rwa [List.take_length] at this

end

/-- What the internal goroutine does to the internal sets for a new directory. -/
theorem internal_region (O : Oracle) {s : St} (hs : Shape P s.root) {ei : EventInfo}
    (hev : ei.event ≠ P.remove) (hp : GoodPath ei.path) {dt : DirTree} (hd : dt.Named) (hne : dt.NoErr)
    (hpick : picked P s.root ei.path ≠ P.internal) :
    (∀ q, (∃ r ∈ dt.dirs, q = ei.path ++ r) → recAt (internal P O dt s ei).root q =
      some ((recAt s.root q).getD 0 ||| rset P (picked P s.root ei.path))) ∧
    (∀ q, (¬ ∃ r ∈ dt.dirs, q = ei.path ++ r) → recAt (internal P O dt s ei).root q = recAt s.root q) := by
  unfold internal
  rw [if_neg hev]
  unfold picked at hpick ⊢
  simp only [hpick, if_false]
  have hset := pickSet_ok hs.ok hpick
  have h3 := hs.add hp
  have hg := Node.add_get_ne_none s.root ei.path
  obtain ⟨nd, hnd⟩ := Option.ne_none_iff_exists'.1 hg
  simp only [hnd]
  have hndok : nd.OK (NR P) noR ei.path := by simpa using h3.ok.get hp.2 hnd
  have hrd : ∀ r, recAt s.root (ei.path ++ r) = recAt nd r := by
    intro r; rw [← recAt_add s.root ei.path]; unfold recAt; rw [watchAt_get hnd]
  have key := addDir_rec (O := O) (rec_of_set hset) hd hp.2 hndok s.world (DirTree.addDir_ok dt hne _ _)
  refine ⟨?_, ?_⟩
  · rintro q ⟨r, hr, rfl⟩
    rw [hrd]
    unfold recAt
    rw [watchAt_put hg]
    exact (key r).1 hr
  · intro q hq
    by_cases hpq : ei.path <+: q
    · obtain ⟨r, rfl⟩ := hpq
      have hr : r ∉ dt.dirs := fun hr => hq ⟨r, hr, rfl⟩
      rw [hrd]
      unfold recAt
      rw [watchAt_put hg]
      unfold watchAt; rw [(key r).2 hr]
    · unfold recAt; rw [watchAt_put_other _ _ hpq, watchAt_add]

/-- What holds at every instant between two steps, for the recursive watch of `e` on `p`. -/
structure Covered (P : Platform) (p : Path) (e : Event) (k : Cfg) : Prop where
  good : Good P k.st
  top : ∀ a, a <+: p → a ≠ p → recAt k.st.root a = none
  base : recAt k.st.root p ≠ none
  sets : ∀ q v, p <+: q → recAt k.st.root q = some v → e ||| P.create ⊑ v
  edge : ∀ q b, p <+: q → recAt k.st.root q ≠ none → k.fs (q ++ [b]) →
    recAt k.st.root (q ++ [b]) ≠ none ∨ q ++ [b] ∈ k.ev ∨ q ++ [b] ∈ k.rq
  tree : ∀ q b, k.fs (q ++ [b]) → k.fs q
  evs : ∀ x ∈ k.ev, GoodPath x
  rqs : ∀ x ∈ k.rq, GoodPath x

/-- The internal set is part of what the OS watches. -/
theorem Good.rec_os {s : St} (h : Good P s) {q : Path} {v : Event} (hr : recAt s.root q = some v) :
    (v &^ P.internal) ⊑ osOf s.world.log q := by
  rw [h.sync]
  have := val_sub_total (h.shape.nr q).inv (k := .recCh) (by simp)
  rwa [val_of_some hr] at this

theorem Covered.hears (hP : P.Facts) {p : Path} {e : Event} {k : Cfg} (h : Covered P p e k) {q : Path}
    (hpq : p <+: q) (hr : recAt k.st.root q ≠ none) : Hears P k.st.world q := by
  obtain ⟨v, hv⟩ := Option.ne_none_iff_exists'.1 hr
  have h1 := h.good.rec_os hv
  have h2 := h.sets q v hpq hv
  have h3 := hP.create_rec
  have h4 := hP.create_omit
  unfold Hears
  generalize osOf k.st.world.log q = x at *
  clear hv
  ebits

/-- What is picked for a path below `p` has the events. -/
theorem Covered.pick (hP : P.Facts) {p : Path} {e : Event} {k : Cfg} (h : Covered P p e k) {x : Path}
    (hpx : p <+: x) : picked P k.st.root x ≠ P.internal ∧ e ||| P.create ⊑ picked P k.st.root x := by
  obtain ⟨v, hv⟩ := Option.ne_none_iff_exists'.1 h.base
  have hmax := pickSet_max P ((onPath k.st.root x).map Node.watch) P.internal
  have hsv := h.sets p v List.prefix_rfl hv
  have hin : picked P k.st.root x ≠ P.internal := by
    intro heq
    obtain ⟨c, hc⟩ := get_of_find_ne (find_of_recAt hv)
    have hcw : c.watch.val .recCh = v := by
      have : watchAt k.st.root p = c.watch := by simp [watchAt, Node.find, hc]
      rw [← this]; exact val_of_some hv
    have hmem : c ∈ onPath k.st.root x := by
      by_cases hpe : p = x
      · subst hpe
        have hne : p ≠ [] := by
          rintro rfl
          rw [recAt_top h.good.shape] at hv; simp at hv
        simp only [onPath, List.mem_append]
        right
        rw [Node.walkPath_base _ hne, hc]; simp
      · exact onPath_of_prefix hpx hpe hc
    have h1 := hmax.2 _ (List.mem_map.2 ⟨c, hmem, rfl⟩)
    change _ ≤ picked P k.st.root x at h1
    rw [heq, hcw] at h1
    have hrv := (h.good.shape.nr p).recv v hv
    have h2 := BitVec.le_antisymm h1 (Event.Sub.le (Event.Sub.trans (Event.sub_or_right _ _) hrv))
    have h3 := hP.create_ne
    have h4 := hP.create_rec
    have h5 := hP.create_omit
    subst h2
    clear hv hsv hmax h1 heq hcw
    ebits
  refine ⟨hin, ?_⟩
  rcases pickSet_ge P ((onPath k.st.root x).map Node.watch) P.internal with h1 | ⟨w, hw, h0, h1⟩
  · exact absurd h1 hin
  · change picked P k.st.root x = _ at h1
    rw [h1]
    obtain ⟨c, hc, rfl⟩ := List.mem_map.1 hw
    obtain ⟨r, hr, hg⟩ := mem_onPath hc
    have hwr : watchAt k.st.root r = c.watch := by simp [watchAt, Node.find, hg]
    rw [← hwr] at h0 ⊢
    cases h2 : recAt k.st.root r with
    | none => exact absurd (WP.val_eq_zero_of_none h2) h0
    | some u =>
      rw [val_of_some h2]
      have hcmp : p <+: r := by
        rcases List.prefix_or_prefix_of_prefix hpx hr with h3 | h3
        · exact h3
        · by_cases h4 : r = p
          · rw [h4]; exact List.prefix_rfl
          · rw [h.top r h3 h4] at h2; simp at h2
      exact h.sets r u hcmp h2

/-- A creation event in a covered directory is handed to the internal goroutine. -/
theorem Covered.handed (hP : P.Facts) {p : Path} {e : Event} {k : Cfg} (h : Covered P p e k) {q : Path}
    {b : Comp} (hr : recAt k.st.root q ≠ none) : toInternal P k.st.root (mkEvent P (q ++ [b])) = true := by
  obtain ⟨v, hv⟩ := Option.ne_none_iff_exists'.1 hr
  have hq : q ≠ [] := by
    rintro rfl
    rw [recAt_top h.good.shape] at hv; simp at hv
  obtain ⟨nd, hnd⟩ := get_of_find_ne (find_of_recAt hv)
  have hrec : nd.watch.isRecursive P = true := by
    have hw : watchAt k.st.root q = nd.watch := by simp [watchAt, Node.find, hnd]
    have hnr := h.good.shape.nr q
    have hrv := hnr.recv _ hv
    obtain ⟨i, hi⟩ := Event.ne_zero_iff.1 hP.recursive_ne
    have hoi : BitVec.getLsbD P.omitted i = false := by
      have := hP.rec_omit
      clear hv
      ebits
    have := (hnr.inv.total_bit i).2 ⟨hoi, .recCh, _, nofun, hv, hrv i (by simp [Platform.internal, hi])⟩
    rw [hw] at this
    simp only [WP.isRecursive, decide_eq_true_eq]
    rw [Event.ne_zero_iff]
    exact ⟨i, by simp only [BitVec.getLsbD_and, hi, Bool.and_true]; exact this⟩
  have hcne := hP.create_ne
  have : P.create &&& (P.create ||| P.remove) ≠ 0 := by
    clear hv
    ebits
  unfold toInternal mkEvent
  simp only [List.dropLast_concat, Node.walkPath_base _ hq, hnd, hrec]
  simp
  exact this

theorem mem_del {x y : Path} {l₁ l₂ : List Path} (h : y ∈ l₁ ++ x :: l₂) : y = x ∨ y ∈ l₁ ++ l₂ := by
  simp only [List.mem_append, List.mem_cons] at h ⊢
  rcases h with h | h | h
  · exact Or.inr (Or.inl h)
  · exact Or.inl h
  · exact Or.inr (Or.inr h)

theorem mem_of_del {x y : Path} {l₁ l₂ : List Path} (h : y ∈ l₁ ++ l₂) : y ∈ l₁ ++ x :: l₂ := by
  simp only [List.mem_append, List.mem_cons] at h ⊢
  rcases h with h | h
  · exact Or.inl h
  · exact Or.inr (Or.inr h)

/-- Every step keeps the invariant. -/
theorem Covered.step (hP : P.Facts) (hcr : P.create ≠ P.remove) {p : Path} {e : Event} {k k' : Cfg}
    (h : Covered P p e k) (hs : CStep P k k') : Covered P p e k' := by
  cases hs with
  | @create q b new hq hnq hnew hgood =>
    refine { h with edge := ?_, tree := ?_, evs := ?_ }
    · rintro q' b' hpq hr (hf | hf)
      · rcases h.edge q' b' hpq hr hf with h1 | h1 | h1
        · exact Or.inl h1
        · exact Or.inr (Or.inl (List.mem_append_left _ h1))
        · exact Or.inr (Or.inr h1)
      · right; left
        have : q' = q := (List.append_inj' hf rfl).1
        subst this
        rw [hf]
        exact List.mem_append_right _ (hnew (h.hears hP hpq hr))
    · rintro q' b' (hf | hf)
      · exact Or.inl (h.tree _ _ hf)
      · have : q' = q := (List.append_inj' hf rfl).1
        subst this; exact Or.inl hq
    · intro x hx
      rcases List.mem_append.1 hx with hx | hx
      · exact h.evs x hx
      · exact hgood x hx
  | @dispatch x l₁ l₂ hev =>
    have hx : GoodPath x := h.evs x (by rw [hev]; simp)
    refine { h with edge := ?_, evs := ?_, rqs := ?_ }
    · intro q b hpq hr hf
      rcases h.edge q b hpq hr hf with h1 | h1 | h1
      · exact Or.inl h1
      · rw [hev] at h1
        rcases mem_del h1 with h2 | h2
        · right; right
          rw [← h2, if_pos (h.handed hP hr)]
          simp
        · exact Or.inr (Or.inl h2)
      · right; right
        dsimp only
        split
        · exact List.mem_append_left _ h1
        · exact h1
    · intro y hy; exact h.evs y (by rw [hev]; exact mem_of_del hy)
    · intro y hy
      dsimp only at hy
      split at hy
      · rcases List.mem_append.1 hy with hy | hy
        · exact h.rqs y hy
        · rw [List.mem_singleton.1 hy]; exact hx
      · exact h.rqs y hy
  | @skip x l₁ l₂ dt hrq hpick =>
    have hsame : internal P .ok dt k.st (mkEvent P x) = k.st := by
      unfold internal
      rw [if_neg (by exact hcr)]
      have : pickSet P ((onPath k.st.root (mkEvent P x).path).map Node.watch) = P.internal := hpick
      simp only [this, if_true]
    rw [hsame]
    refine { h with edge := ?_, rqs := ?_ }
    · intro q b hpq hr hf
      rcases h.edge q b hpq hr hf with h1 | h1 | h1
      · exact Or.inl h1
      · exact Or.inr (Or.inl h1)
      · rw [hrq] at h1
        rcases mem_del h1 with h2 | h2
        · exact absurd (h2 ▸ hpick) (h.pick hP (hpq.trans (List.prefix_append _ _))).1
        · exact Or.inr (Or.inr h2)
    · intro y hy; exact h.rqs y (by rw [hrq]; exact mem_of_del hy)
  | @scan x l₁ l₂ dt fs' new n F w l hrq hpick hd hne hgood hsc =>
    have hx : GoodPath x := h.rqs x (by rw [hrq]; simp)
    obtain ⟨hin, hout⟩ := internal_region (P := P) .ok h.good.shape (ei := mkEvent P x) hcr hx hd hne hpick
    have hmono : ∀ q, recAt k.st.root q ≠ none → recAt (internal P .ok dt k.st (mkEvent P x)).root q ≠ none := by
      intro q hq
      by_cases hT : ∃ r ∈ dt.dirs, q = (mkEvent P x).path ++ r
      · rw [hin q hT]; simp
      · rw [hout q hT]; exact hq
    refine ⟨h.good.internal hP hx hd, ?_, hmono _ h.base, ?_, ?_, ?_, ?_, ?_⟩
    · intro a ha hap
      rw [hout a ?_]
      · exact h.top a ha hap
      · rintro ⟨r, hr, hra⟩
        -- then nothing is picked for `x`
        apply hpick
        have hxa : x <+: a := ⟨r, hra.symm⟩
        rcases pickSet_ge P ((onPath k.st.root x).map Node.watch) P.internal with h1 | ⟨w, hw, h0, _⟩
        · exact h1
        · exfalso
          obtain ⟨c, hc, rfl⟩ := List.mem_map.1 hw
          obtain ⟨y, hy, hg⟩ := mem_onPath hc
          have hyp : y <+: p := (hy.trans hxa).trans ha
          have hyne : y ≠ p := by
            rintro rfl
            exact hap ((ha.eq_of_length (Nat.le_antisymm ha.length_le (hy.trans hxa).length_le)))
          have hwr : watchAt k.st.root y = c.watch := by simp [watchAt, Node.find, hg]
          rw [← hwr] at h0
          exact h0 (WP.val_eq_zero_of_none (h.top y hyp hyne))
    · intro q v hpq hv
      by_cases hT : ∃ r ∈ dt.dirs, q = (mkEvent P x).path ++ r
      · rw [hin q hT] at hv
        obtain rfl := Option.some.inj hv
        obtain ⟨r, hr, hqr⟩ := hT
        by_cases hpx : p <+: x
        · have := (h.pick hP hpx).2
          refine Event.Sub.trans this (Event.Sub.trans ?_ (Event.sub_or_right _ _))
          unfold rset
          rw [BitVec.or_assoc]; exact Event.sub_or_left _ _
        · -- `x` is above `p`, where nothing is picked
          exfalso
          have hxp : x <+: p := by
            rcases List.prefix_or_prefix_of_prefix hpq (hqr ▸ List.prefix_append x r) with h1 | h1
            · exact absurd h1 hpx
            · exact h1
          apply hpick
          rcases pickSet_ge P ((onPath k.st.root x).map Node.watch) P.internal with h1 | ⟨w, hw, h0, _⟩
          · exact h1
          · exfalso
            obtain ⟨c, hc, rfl⟩ := List.mem_map.1 hw
            obtain ⟨y, hy, hg⟩ := mem_onPath hc
            have hyne : y ≠ p := by
              rintro rfl
              exact hpx hy
            have hwr : watchAt k.st.root y = c.watch := by simp [watchAt, Node.find, hg]
            rw [← hwr] at h0
            exact h0 (WP.val_eq_zero_of_none (h.top y (hy.trans hxp) hyne))
      · rw [hout q hT] at hv; exact h.sets q v hpq hv
    · intro q b hpq hr hf
      by_cases hT : ∃ r ∈ dt.dirs, q = (mkEvent P x).path ++ r
      · obtain ⟨r, hrd, rfl⟩ := hT
        rcases hsc.inside hrd hf with h1 | h1
        · left
          rw [hin _ ⟨r ++ [b], h1, by simp⟩]; simp
        · exact Or.inr (Or.inl (List.mem_append_right _ h1))
      · dsimp only at hr
        rw [hout q hT] at hr
        rcases hsc.outside (h.hears hP hpq hr) hf with h1 | h1
        · rcases h.edge q b hpq hr h1 with h2 | h2 | h2
          · exact Or.inl (hmono _ h2)
          · exact Or.inr (Or.inl (List.mem_append_left _ h2))
          · rw [hrq] at h2
            rcases mem_del h2 with h3 | h3
            · left
              dsimp only
              rw [hin _ ⟨[], dt.nil_mem_dirs, by simp [mkEvent, h3]⟩]; simp
            · exact Or.inr (Or.inr h3)
        · exact Or.inr (Or.inl (List.mem_append_right _ h1))
    · intro q b hf
      rw [← hsc.last] at hf ⊢
      exact hsc.tree _ _ _ hf
    · intro y hy
      rcases List.mem_append.1 hy with hy | hy
      · exact h.evs y hy
      · exact hgood y hy
    · intro y hy; exact h.rqs y (by rw [hrq]; exact mem_of_del hy)

/-- The recursive Watch establishes the invariant. -/
theorem Covered.start (hP : P.Facts) {s₀ : St} (hg : Good P s₀) {fs₀ : Path → Prop} {p : Path} {c : Nat}
    {e : Event} (hp : GoodPath p) (he : UserEvents P e) (htop : ∀ a, a <+: p → recAt s₀.root a = none)
    (hown : ∀ q, p <+: q → recAt s₀.root q ≠ none → fs₀ q)
    {dt : DirTree} {fs : Path → Prop} {new : List Path} {n : Nat} {F : Nat → Path → Prop} {w l : Path → Nat}
    (hd : dt.Named) (hne : dt.NoErr) (hnew : ∀ y ∈ new, GoodPath y)
    (hsc : Scanned (Hears P s₀.world) p dt fs₀ fs new n F w l) :
    Covered P p e { st := (watchOp P .ok dt s₀ p true c e).1, fs := fs, ev := new, rq := [] } := by
  have hgood := hg.watchOp hP hp true (O := .ok) (fun _ => rfl) c he.1 he.2 hd
  have hga := Node.add_get_ne_none s₀.root p
  have hok : (NonRec.watchrec P .ok dt { s₀ with root := s₀.root.add p } p c (e ||| P.recursive)).2 = true :=
    watchrec_ok .ok _ hga c _ hne
  have hrr := watchrec_rec hP .ok (s := { s₀ with root := s₀.root.add p }) (hg.shape.add hp) hp hga c
    (recSet_of hP he.1 he.2) hd hok
  have hno : recAt (s₀.root.add p) p = none := by rw [recAt_add]; exact htop p List.prefix_rfl
  have hR : Region (s₀.root.add p) (watchOp P .ok dt s₀ p true c e).1.root
      (fun q => ∃ r ∈ dt.dirs, q = p ++ r) (rset P (e ||| P.recursive)) := by
    rcases hrr with ⟨⟨v, hv, _⟩, _⟩ | ⟨_, h1⟩ | ⟨⟨v, hv⟩, _⟩
    · exact absurd hv (by simp only [hno]; simp)
    · unfold watchOp; simpa using h1
    · exact absurd hv (by simp only [hno]; simp)
  have hin := hR.inside
  have hout := hR.outside
  simp only [recAt_add] at hin hout
  refine ⟨hgood, ?_, ?_, ?_, ?_, ?_, hnew, by simp⟩
  · intro a ha hap
    dsimp only
    rw [hout a ?_]
    · exact htop a ha
    · rintro ⟨r, _, rfl⟩
      apply hap
      exact ha.eq_of_length (Nat.le_antisymm ha.length_le (by simp))
  · dsimp only
    rw [hin p ⟨[], dt.nil_mem_dirs, by simp⟩]; simp
  · intro q v hpq hv
    by_cases hT : ∃ r ∈ dt.dirs, q = p ++ r
    · dsimp only at hv
      rw [hin q hT] at hv
      obtain rfl := Option.some.inj hv
      unfold rset
      generalize (recAt s₀.root q).getD 0 = x
      clear hT hin hout hR hrr hno hok
      ebits
    · exfalso
      dsimp only at hv
      rw [hout q hT] at hv
      obtain ⟨r, rfl⟩ := hpq
      exact hT ⟨r, hsc.old r (hown _ (List.prefix_append _ _) (by rw [hv]; simp)), rfl⟩
  · intro q b hpq hr hf
    by_cases hT : ∃ r ∈ dt.dirs, q = p ++ r
    · obtain ⟨r, hrd, rfl⟩ := hT
      rcases hsc.inside hrd hf with h1 | h1
      · left
        dsimp only
        rw [hin _ ⟨r ++ [b], h1, by simp⟩]; simp
      · exact Or.inr (Or.inl h1)
    · exfalso
      dsimp only at hr
      rw [hout q hT] at hr
      obtain ⟨r, rfl⟩ := hpq
      exact hT ⟨r, hsc.old r (hown _ (List.prefix_append _ _) hr), rfl⟩
  · intro q b hf
    dsimp only at hf ⊢
    rw [← hsc.last] at hf ⊢
    exact hsc.tree _ _ _ hf

/-- **C18**.  A channel asks for everything below `p`, on a tree where no other recursive watch is
on `p` or above, and where the recursive watches below `p` are on existing directories.  Directories
are created while `Watch` scans, while events are handled, and in between; the scans see any of
them or none.  Whenever no event is pending and no scan is running, every directory at or below `p`
has an OS watch with the requested events and Create. -/
theorem C18_no_directory_missed (hP : P.Facts) (hcr : P.create ≠ P.remove) {ops : List Op} {s₀ : St}
    (h₀ : Hist P true ops s₀) {fs₀ : Path → Prop} {p : Path} {c : Nat} {e : Event} (hp : GoodPath p)
    (he : UserEvents P e) (htop : ∀ a, a <+: p → recAt s₀.root a = none)
    (hown : ∀ q, p <+: q → recAt s₀.root q ≠ none → fs₀ q)
    {k : Cfg} (hk : Reached P s₀ fs₀ p c e k) (hev : k.ev = []) (hrq : k.rq = []) {q : Path}
    (hpq : p <+: q) (hq : k.fs q) : e ||| P.create ⊑ osOf k.st.world.log q := by
  have hc : Covered P p e k := by
    clear hev hrq hpq hq
    induction hk with
    | watch hd hne hnew hsc => exact Covered.start hP (Hist.good hP h₀) hp he htop hown hd hne hnew hsc
    | step _ hs ih => exact ih.step hP hcr hs
  have hrec : recAt k.st.root q ≠ none := by
    obtain ⟨r, rfl⟩ := hpq
    have key : ∀ m r, r.length = m → k.fs (p ++ r) → recAt k.st.root (p ++ r) ≠ none := by
      intro m
      induction m with
      | zero =>
        intro r hr _
        rw [List.length_eq_zero_iff.1 hr, List.append_nil]; exact hc.base
      | succ m ih =>
        intro r hr hf
        rcases path_cases r with rfl | ⟨r', b, rfl⟩
        · simp at hr
        · rw [← List.append_assoc] at hf ⊢
          have h1 := ih r' (by simpa using hr) (hc.tree _ _ hf)
          rcases hc.edge _ _ (List.prefix_append _ _) h1 hf with h2 | h2 | h2
          · exact h2
          · rw [hev] at h2; simp at h2
          · rw [hrq] at h2; simp at h2
    exact key _ r rfl hq
  obtain ⟨v, hv⟩ := Option.ne_none_iff_exists'.1 hrec
  have h1 := hc.good.rec_os hv
  have h2 := hc.sets q v hpq hv
  have h3 := hP.create_rec
  have h4 := hP.create_omit
  have h5 := he.2
  generalize osOf k.st.world.log q = x at *
  clear hv hev hrq hc
  ebits

namespace Ex

/-- `/a` with nothing in it; then `/a/b`; then `/a/b/c`. -/
def F5 : Nat → Path → Prop := fun t q =>
  if t = 0 then q <+: [a] else if t < 5 then q <+: [a, b] else q <+: [a, b, ['c']]
def w5 : Path → Nat := fun q => if q = [a] then 0 else 3
def l5 : Path → Nat := fun q => if q = [a] then 2 else 4

theorem prefix_tree {q r : Path} {x : Comp} (h : q ++ [x] <+: r) : q <+: r :=
  (List.prefix_append _ _).trans h

/-- The scan of `/a/...`: `/a/b` appears after `/a` got its watch and before its entries are read,
`/a/b/c` after the entries of `/a/b` were read. -/
theorem scanned5 : Scanned (Hears I init.world) [a] list (F5 0) (F5 5) [[a, b], [a, b, ['c']]] 5 F5 w5 l5 where
  first := rfl
  last := rfl
  grow := by
    intro t q h
    have h1 : ∀ q : Path, q <+: [a] → q <+: [a, b] := fun q h => h.trans (by simp)
    have h2 : ∀ q : Path, q <+: [a, b] → q <+: [a, b, ['c']] := fun q h => h.trans (by simp)
    by_cases h0 : t = 0
    · subst h0; exact h1 q h
    · by_cases h5 : t < 4
      · simp only [F5, h0, if_false, show t < 5 by omega, if_true, show t + 1 ≠ 0 by omega, show t + 1 < 5 by omega] at h ⊢
        exact h
      · by_cases h6 : t = 4
        · subst h6; exact h2 q h
        · simp only [F5, h0, if_false, show ¬ t < 5 by omega, show t + 1 ≠ 0 by omega, show ¬ t + 1 < 5 by omega] at h ⊢
          exact h
  tree := by
    intro t q x h
    unfold F5 at h ⊢
    split
    · next h0 => rw [if_pos h0] at h; exact prefix_tree h
    · next h0 =>
      rw [if_neg h0] at h
      split
      · next h5 => rw [if_pos h5] at h; exact prefix_tree h
      · next h5 => rw [if_neg h5] at h; exact prefix_tree h
  order := by
    intro r hr
    simp only [list, DirTree.dirs, Entries.dirs] at hr
    simp at hr
    rcases hr with rfl | rfl <;> simp [w5, l5]
  list := by
    intro r hr x
    simp only [list, DirTree.dirs, Entries.dirs] at hr ⊢
    simp at hr
    rcases hr with rfl | rfl <;> simp [F5, l5]
  told := by
    intro t ht q x h1 h2 _
    have hx : q ++ [x] = [a, b] ∨ q ++ [x] = [a, b, ['c']] := by
      rcases t with _ | t
      · left
        simp only [F5] at h1 h2
        simp at h1 h2
        rcases List.prefix_concat_iff (l₁ := q ++ [x]) (l₂ := [a]) (a := b) |>.1 h2 with h3 | h3
        · exact h3
        · exact absurd h3 h1
      · right
        by_cases h4 : t + 1 = 4
        · rw [h4] at h1 h2
          simp only [F5] at h1 h2
          simp at h1 h2
          rcases List.prefix_concat_iff (l₁ := q ++ [x]) (l₂ := [a, b]) (a := ['c']) |>.1 h2 with h3 | h3
          · exact h3
          · exact absurd h3 h1
        · exfalso
          simp only [F5, show t + 1 ≠ 0 by omega, show t + 1 < 5 by omega, show t + 1 + 1 ≠ 0 by omega,
            show t + 1 + 1 < 5 by omega, if_true, if_false] at h1 h2
          exact h1 h2
    rcases hx with h | h <;> simp [h]

def c0 : Cfg := { st := s1, fs := F5 5, ev := [[a, b], [a, b, ['c']]], rq := [] }
def c1 : Cfg := { st := s1, fs := F5 5, ev := [[a, b, ['c']]], rq := [[a, b]] }
def c2 : Cfg := { st := s1, fs := F5 5, ev := [], rq := [[a, b], [a, b, ['c']]] }
def bList : DirTree := .dir (.cons ['c'] true (.dir .nil) .nil)
def c3 : Cfg := { st := internal I .ok bList s1 (mkEvent I [a, b]), fs := F5 5, ev := [], rq := [[a, b, ['c']]] }
def c4 : Cfg := { st := internal I .ok (.dir .nil) c3.st (mkEvent I [a, b, ['c']]), fs := F5 5, ev := [], rq := [] }

/-- A scan during which nothing is created. -/
theorem scanned_still {hears : Path → Prop} {p : Path} {dt : DirTree} {fs : Path → Prop}
    (ht : ∀ q b, fs (q ++ [b]) → fs q) (hl : ∀ r ∈ dt.dirs, ∀ b, r ++ [b] ∈ dt.dirs ↔ fs (p ++ r ++ [b])) :
    Scanned hears p dt fs fs [] 1 (fun _ => fs) (fun _ => 0) (fun _ => 1) where
  first := rfl
  last := rfl
  grow := fun _ _ h => h
  tree := fun _ => ht
  order := by simp
  list := hl
  told := fun _ _ _ _ h1 h2 => absurd h2 h1

theorem F5_tree : ∀ q b, F5 5 (q ++ [b]) → F5 5 q := fun q b h => scanned5.tree 5 q b h

theorem reached4 : Reached I init (F5 0) [a] 1 W c4 := by
  have h0 : Reached I init (F5 0) [a] 1 W c0 :=
    Reached.watch (dt := list) list_named (by simp [list, DirTree.NoErr, Entries.NoErr])
      (by simp [GoodPath]) scanned5
  have h1 : Reached I init (F5 0) [a] 1 W c1 := by
    have := h0.step (CStep.dispatch (l₁ := []) rfl)
    rwa [if_pos (by decide)] at this
  have h2 : Reached I init (F5 0) [a] 1 W c2 := by
    have := h1.step (CStep.dispatch (l₁ := []) rfl)
    rwa [if_pos (by decide)] at this
  have h3 : Reached I init (F5 0) [a] 1 W c3 := by
    refine h2.step (CStep.scan (l₁ := []) (dt := bList) (new := []) rfl (by decide)
      (by simp [bList, DirTree.Named, Entries.Named]) (by simp [bList, DirTree.NoErr, Entries.NoErr])
      (by simp) (scanned_still F5_tree ?_))
    intro r hr x
    simp only [bList, DirTree.dirs, Entries.dirs] at hr ⊢
    simp at hr
    rcases hr with rfl | rfl <;> simp [c2, F5]
  refine h3.step (CStep.scan (l₁ := []) (dt := .dir .nil) (new := []) rfl (by decide)
    (by simp [DirTree.Named, Entries.Named]) (by simp [DirTree.NoErr, Entries.NoErr])
    (by simp) (scanned_still F5_tree ?_))
  intro r hr x
  simp only [DirTree.dirs, Entries.dirs] at hr ⊢
  simp at hr
  subst hr
  simp [c3, F5]

end Ex

example : Hist Ex.I true [] init ∧ (∀ q, [Ex.a] <+: q → recAt init.root q ≠ none → Ex.F5 0 q) ∧
    Reached Ex.I init (Ex.F5 0) [Ex.a] 1 Ex.W Ex.c4 ∧ Ex.c4.ev = [] ∧ Ex.c4.rq = [] ∧
    Ex.c4.fs [Ex.a, Ex.b, ['c']] ∧ osOf Ex.s1.world.log [Ex.a, Ex.b, ['c']] = 0 ∧
    osOf Ex.c4.st.world.log [Ex.a, Ex.b, ['c']] = Ex.CW :=
  ⟨Steps.nil, fun q _ h => absurd (by cases q <;> rfl) h, Ex.reached4, rfl, rfl, by simp [Ex.c4, Ex.F5],
    by decide, by decide⟩

/-! ### C17 with pending events -/

namespace Ex

abbrev r₁ : Comp := ['r']
abbrev c₁ : Comp := ['c']
abbrev d₁ : Comp := ['d']
abbrev w₁ : Comp := ['w']
/-- Listings of `/r/a` when it has `b` only, and when `b/c/d` is there too; of `b/c` with `d/w`. -/
abbrev lb : DirTree := .dir (.cons b true (.dir .nil) .nil)
abbrev lcd : DirTree := .dir (.cons b true (.dir (.cons c₁ true (.dir (.cons d₁ true (.dir .nil) .nil)) .nil)) .nil)
abbrev ldw : DirTree := .dir (.cons d₁ true (.dir (.cons w₁ true (.dir .nil) .nil)) .nil)

/-- Channel 0 watches `/r` for Create; `/r/a` with `b` inside is created (event pending), and channel
0 asks for Create on `/r/a/...`. -/
def p1 : St := (watchOp I .ok lb init [r₁] false 0 I.create).1
def p2 : St := (watchOp I .ok lb p1 [r₁, a] true 0 I.create).1
/-- Channel 1 asks for Rename on `/r/a/b/...`. -/
def p3 : St := (watchOp I .ok (.dir .nil) p2 [r₁, a, b] true 1 I.rename).1
/-- `/r/a/b/c` is created (event pending) and `/r/a/b/c/d` (no event, `c` has no watch).  The event
for `/r/a` is handled: the scan finds `b`, `c` and `d`. -/
def p4 : St := internal I .ok lcd p3 (mkEvent I [r₁, a])
/-- Channel 2 asks for Write on `/r/a/b/c/d/...`. -/
def p5 : St := (watchOp I .ok (.dir .nil) p4 [r₁, a, b, c₁, d₁] true 2 W).1
/-- `/r/a/b/c/d/w` is created and its event handled. -/
def p6 : St := internal I .ok (.dir .nil) p5 (mkEvent I [r₁, a, b, c₁, d₁, w₁])
/-- The event for `/r/a/b/c` is handled; now none is pending. -/
def p7 : St := internal I .ok ldw p6 (mkEvent I [r₁, a, b, c₁])

def pops : List Op :=
  [] ++ [.watch [r₁] false 0 I.create true] ++ [.watch [r₁, a] true 0 I.create true] ++
  [.watch [r₁, a, b] true 1 I.rename true] ++ [.internal (mkEvent I [r₁, a])] ++
  [.watch [r₁, a, b, c₁, d₁] true 2 W true] ++ [.internal (mkEvent I [r₁, a, b, c₁, d₁, w₁])] ++
  [.internal (mkEvent I [r₁, a, b, c₁])]

theorem phist : Hist I true pops p7 := by
  have n1 : DirTree.Named lb := by simp [DirTree.Named, Entries.Named]
  have n2 : DirTree.Named lcd := by simp [DirTree.Named, Entries.Named]
  have n3 : DirTree.Named ldw := by simp [DirTree.Named, Entries.Named]
  have n4 : DirTree.Named (.dir .nil) := by simp [DirTree.Named, Entries.Named]
  have h1 : Step I true init (.watch [r₁] false 0 I.create true) p1 :=
    Step.watch (O := .ok) (dt := lb) (by simp [GoodPath]) ⟨by decide, by decide⟩ n1 (fun _ _ => rfl)
  have h2 : Step I true p1 (.watch [r₁, a] true 0 I.create true) p2 :=
    Step.watch (O := .ok) (dt := lb) (by simp [GoodPath]) ⟨by decide, by decide⟩ n1 (fun _ _ => rfl)
  have h3 : Step I true p2 (.watch [r₁, a, b] true 1 I.rename true) p3 :=
    Step.watch (O := .ok) (dt := .dir .nil) (by simp [GoodPath]) ⟨by decide, by decide⟩ n4 (fun _ _ => rfl)
  have h4 : Step I true p3 (.internal (mkEvent I [r₁, a])) p4 :=
    Step.internal (by simp [GoodPath, mkEvent]) n2 (fun _ => rfl)
  have h5 : Step I true p4 (.watch [r₁, a, b, c₁, d₁] true 2 W true) p5 :=
    Step.watch (O := .ok) (dt := .dir .nil) (by simp [GoodPath]) uW n4 (fun _ _ => rfl)
  have h6 : Step I true p5 (.internal (mkEvent I [r₁, a, b, c₁, d₁, w₁])) p6 :=
    Step.internal (by simp [GoodPath, mkEvent]) n4 (fun _ => rfl)
  have h7 : Step I true p6 (.internal (mkEvent I [r₁, a, b, c₁])) p7 :=
    Step.internal (by simp [GoodPath, mkEvent]) n3 (fun _ => rfl)
  exact ((((((Steps.nil.snoc h1).snoc h2).snoc h3).snoc h4).snoc h5).snoc h6).snoc h7

end Ex

/-- **C17** is false of the code even if no call and no listing fails, when recursive watches are
nested and a scan overtakes the events: the directory `w`, found below the recursive Watch with Write
of channel 2, is watched, but not for Write, and no event is left that could repair it.  The set for
`w` is the numerically largest of those on its path, here that of channel 1 two levels up. -/
theorem C17_refuted_pending : ∃ (ops : List Op) (s : St) (c : Nat) (p q : Path) (v : Event),
    Hist Platform.inotify true ops s ∧ entry s.root c p = some (v ||| Platform.inotify.recursive) ∧
    UserEvents Platform.inotify v ∧ p <+: q ∧ osOf s.world.log q ≠ 0 ∧ v &&& osOf s.world.log q = 0 :=
  ⟨Ex.pops, Ex.p7, 2, [Ex.r₁, Ex.a, Ex.b, Ex.c₁, Ex.d₁], [Ex.r₁, Ex.a, Ex.b, Ex.c₁, Ex.d₁, Ex.w₁], Ex.W,
    Ex.phist, by decide, Ex.uW, by decide, by decide, by decide⟩

/-! ### C55: a directory that cannot be read -/

/-- **C55**, the part that holds.  Whatever a scan for a new directory meets, directories that
cannot be read included, no OS watch and no registration gets smaller.

Missing from the full statement ("all directories that can be read are watched"): `C55_refuted`. -/
theorem C55_nothing_lost_partial (hP : P.Facts) {ops : List Op} {s : St} (h : Hist P true ops s)
    {ei : EventInfo} (hev : ei.event ≠ P.remove) (hp : GoodPath ei.path) {dt : DirTree} (hd : dt.Named) :
    (∀ q, osOf s.world.log q ⊑ osOf (internal P .ok dt s ei).world.log q) ∧
    (∀ c q, entry (internal P .ok dt s ei).root c q = entry s.root c q) := by
  have hg := Hist.good hP h
  have hg' := hg.internal hP hp hd
  have heff := (internal_effect (P := P) .ok hg.shape hp hd).2
  refine ⟨fun q => ?_, fun c q => by rw [heff, if_neg (fun h => hev h.1)]⟩
  rw [hg.sync, hg'.sync]
  unfold internal
  rw [if_neg hev]
  simp only
  split
  · exact Event.Sub.refl _
  · next hpick =>
    have hset := pickSet_ok hg.shape.ok hpick
    have h3 := hg.shape.add hp
    have hga := Node.add_get_ne_none s.root ei.path
    obtain ⟨nd, hnd⟩ := Option.ne_none_iff_exists'.1 hga
    simp only [hnd]
    have hndok : nd.OK (NR P) noR ei.path := by simpa using h3.ok.get hp.2 hnd
    rw [← watchAt_add s.root ei.path q]
    by_cases hpq : ei.path <+: q
    · obtain ⟨r, rfl⟩ := hpq
      rw [watchAt_put hga, watchAt_get hnd]
      exact (DirTree.addDir_rel (nr_nil P) (fun s n w hw => recFunc_nr (rec_of_set hset) hw)
        (Rel := fun w w' => w.total P ⊑ w'.total P) (fun _ => Event.Sub.refl _)
        (fun _ _ _ h1 h2 => h1.trans h2)
        (fun s n w => by rw [recFunc_snd, total_add _ _ (by simp)]; exact Event.sub_or_left _ _)
        hp.2 dt hd (s := s.world) hndok r).1
    · rw [watchAt_put_other _ _ hpq]; exact Event.Sub.refl _

namespace Ex
/-- `/a/b/c` appears with the directories `x`, `y` inside, and `y` vanishes before it is read
(the last entry is read first, node.go:67). -/
abbrev errList : DirTree := .dir (.cons ['x'] true (.dir .nil) (.cons ['y'] true .err .nil))
end Ex

example : Hist Ex.I true [.watch [Ex.a] true 1 Ex.W true] Ex.s1 ∧ Ex.mk.event ≠ Ex.I.remove ∧
    GoodPath Ex.mk.path ∧ Ex.errList.Named ∧
    osOf (internal Ex.I .ok Ex.errList Ex.s1 Ex.mk).world.log [Ex.a, Ex.b] = Ex.CW :=
  ⟨Ex.d1.hist, by decide, by simp [GoodPath, Ex.mk], by simp [DirTree.Named, Entries.Named], by decide⟩

/-- **C55** is false of the code: a directory that cannot be read ends the scan, and the directories
not visited yet stay without a watch, though nothing is wrong with them. -/
theorem C55_refuted : ∃ (ops : List Op) (s s₁ : St) (ei : EventInfo) (dt : DirTree) (r : Path),
    Hist Platform.inotify true ops s ∧ s₁ = internal Platform.inotify .ok dt s ei ∧
    Step Platform.inotify true s (.internal ei) s₁ ∧ toInternal Platform.inotify s.root ei = true ∧
    r ∈ dt.dirs ∧ r ≠ [] ∧ osOf s₁.world.log ei.path ≠ 0 ∧ osOf s₁.world.log (ei.path ++ r) = 0 :=
  ⟨_, Ex.s1, _, Ex.mk, Ex.errList, [['x']], Ex.d1.hist, rfl,
    Step.internal (by simp [GoodPath, Ex.mk]) (by simp [DirTree.Named, Entries.Named]) (fun _ => rfl),
    by decide, by decide, by decide, by decide, by decide⟩

/-! ### C56: a directory removed and created again -/

/-- **C56**, if the two events are handled in the order in which they happened: a directory that is
removed and created again, with everything listed in it, is watched as every recursive Watch above
it asks for.

Missing from the full statement: any other order.  The events are handed over by goroutines of their
own (tree_nonrecursive.go:38), so both orders are possible; `C56_refuted`. -/
theorem C56_in_order_partial (hP : P.Facts) {ops : List Op} {s : St} {D : Path → Prop} (h : DHist P ops s D)
    {q : Path} (hq : GoodPath q) (hpar : D q.dropLast) {rm cr : EventInfo} (hrm : rm.event = P.remove)
    (hrp : rm.path = q) (hcr : cr.event ≠ P.remove) (hcp : cr.path = q) {dt dt' : DirTree}
    (hd : dt.Named) (hd' : dt'.Named) (hne : dt'.NoErr) {c : Nat} {p r : Path} (hpre : p <+: q) (hpq : p ≠ q)
    (ha : asked P ops c p ≠ 0) (hr : r ∈ dt'.dirs) :
    asked P ops c p ||| P.create ⊑
      osOf (internal P .ok dt' (internal P .ok dt s rm) cr).world.log (q ++ r) := by
  subst hrp
  have h1 := h.snoc (DStep.rmdir (dt := dt) hrm hq hd)
  have hlen : ¬ rm.path <+: rm.path.dropLast := by
    intro hx
    have := hx.length_le
    rw [List.length_dropLast] at this
    have : rm.path.length ≠ 0 := by simpa using hq.1
    omega
  have hasked : asked P (ops ++ [.internal rm]) c p = asked P ops c p := by
    have : ¬ rm.path <+: p := fun hx =>
      hpq (hpre.eq_of_length (Nat.le_antisymm hpre.length_le hx.length_le))
    simp [asked, List.foldl_append, askedStep, hrm, this]
  have h2 := C17_new_dir_partial hP (ei := cr) (dt := dt') h1 hcr (by rw [hcp]; exact hq)
    (by rw [hcp]; exact fun hx => hx.2 List.prefix_rfl) (by rw [hcp]; exact ⟨hpar, hlen⟩) hd' hne
    (c := c) (p := p) (r := r) (by rw [hcp]; exact hpre) (by rw [hasked]; exact ha) hr
  rw [hasked, hcp] at h2
  exact h2

namespace Ex
def rmB : EventInfo := { event := I.remove, path := [a, b], isDir := some true }
def crB : EventInfo := { event := I.create, path := [a, b], isDir := some true }
end Ex

example : DHist Ex.I [.watch [Ex.a] true 1 Ex.W true] Ex.s1 Ex.D0 ∧ Ex.D0 [Ex.a, Ex.b].dropLast ∧
    [Ex.a] <+: [Ex.a, Ex.b] ∧ asked Ex.I [.watch [Ex.a] true 1 Ex.W true] 1 [Ex.a] = Ex.W ∧
    osOf (internal Ex.I .ok (.dir .nil) (internal Ex.I .ok (.dir .nil) Ex.s1 Ex.rmB) Ex.crB).world.log
      [Ex.a, Ex.b] = Ex.CW :=
  ⟨Ex.d1, by simp [Ex.D0], by simp, by decide, by decide⟩

/-- **C56** is false of the code: both events are handed over whichever comes first, and if the
removal is handled last, the directory, which exists, has no watch. -/
theorem C56_refuted : ∃ (ops : List Op) (s s₁ s₂ : St) (rm cr : EventInfo),
    Hist Platform.inotify true ops s ∧ rm.event = Platform.inotify.remove ∧
    cr.event = Platform.inotify.create ∧ rm.path = cr.path ∧
    toInternal Platform.inotify s.root rm = true ∧ toInternal Platform.inotify s.root cr = true ∧
    Step Platform.inotify true s (.internal cr) s₁ ∧ Step Platform.inotify true s₁ (.internal rm) s₂ ∧
    osOf s.world.log cr.path ≠ 0 ∧ osOf s₂.world.log cr.path = 0 :=
  ⟨_, Ex.s1, _, _, Ex.rmB, Ex.crB, Ex.d1.hist, rfl, rfl, rfl, by decide, by decide,
    Step.internal (dt := .dir .nil) (by simp [GoodPath, Ex.crB]) (by simp [DirTree.Named, Entries.Named]) (fun _ => rfl),
    Step.internal (dt := .dir .nil) (by simp [GoodPath, Ex.rmB]) (by simp [DirTree.Named, Entries.Named]) (fun _ => rfl),
    by decide, by decide⟩

end NonRec
end Verif
