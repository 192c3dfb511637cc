/-
kqueue and FEN: what is left of a directory that was renamed or removed (C69).
-/
import Verif.PropsTrigger7

namespace Verif
namespace Trg
open Spec.Trg Event WP

/-- Unwatching both sets of an entry removes it. -/
theorem singleunwatch_both (N : Native) {E : Env} (s : St) {p : Path} (hu : E.unreg p = true) :
    (singleunwatch N E s p .both).1.lkp.get? p = none ∧
    ((s.lkp.get? p).isSome = true → (singleunwatch N E s p .both).1.nat.get? p = none) := by
  unfold singleunwatch
  rcases hw : s.lkp.get? p with _ | w
  · exact ⟨hw, fun h => by cases h⟩
  · simp only [hu, if_true]
    rw [if_neg (show ¬ ((w.sub .both).eNonDir ||| (w.sub .both).eDir ≠ 0) from fun h => h (by decide : (0 : Event) ||| 0 = 0))]
    simp only [del]
    refine ⟨by simp [GoMap.get?_del], fun _ => ?_⟩
    split <;> simp [GoMap.get?_del]

/-- The state after the loop over the table. -/
theorem moved_state (N : Native) {E : Env} (hu : ∀ q, E.unreg q = true) (p : Path) (w : W) (e : Event) :
    ∀ (l : List Path) (s : St) (q : Path),
      (moved N E p w e s l).1.lkp.get? q = (if q ∈ l ∧ below p q = true then none else s.lkp.get? q) ∧
      ((q ∉ l ∨ below p q = false) → (moved N E p w e s l).1.nat.get? q = s.nat.get? q) ∧
      (q ∈ l → below p q = true → (s.lkp.get? q).isSome = true → (moved N E p w e s l).1.nat.get? q = none)
  | [], s, q => by simp [moved]
  | x :: l, s, q => by
    unfold moved
    by_cases hb : below p x = true
    · rw [if_pos hb]
      simp only
      obtain ⟨h1, h2, h3⟩ := moved_state N hu p w e l (singleunwatch N E s x .both).1 q
      by_cases hx : x = q
      · subst hx
        obtain ⟨g1, g2⟩ := singleunwatch_both N s (p := x) (hu x)
        refine ⟨?_, fun h => ?_, fun _ _ hs => ?_⟩
        · rw [h1, g1]; simp [hb]
        · rcases h with h | h
          · exact absurd (List.mem_cons_self ..) h
          · rw [hb] at h; cases h
        · by_cases hxl : x ∈ l
          · have : ∀ (l : List Path) (s : St), s.nat.get? x = none → s.lkp.get? x = none →
                (moved N E p w e s l).1.nat.get? x = none := by
              intro l
              induction l with
              | nil => intro s h _; exact h
              | cons y l ih =>
                intro s h hl
                unfold moved
                by_cases hy : below p y = true
                · rw [if_pos hy]
                  simp only
                  by_cases hyx : y = x
                  · subst hyx
                    have : singleunwatch N E s y .both = (s, .notWatched) := by unfold singleunwatch; rw [hl]
                    rw [this]; exact ih s h hl
                  · obtain ⟨k1, k2⟩ := singleunwatch_other N E s y .both hyx
                    exact ih _ (k2.trans h) (k1.trans hl)
                · rw [if_neg hy]; exact ih s h hl
            exact this l _ (g2 hs) g1
          · rw [h2 (.inl hxl)]; exact g2 hs
      · obtain ⟨k1, k2⟩ := singleunwatch_other N E s x .both hx
        have hm : q ∈ x :: l ↔ q ∈ l := by
          rw [List.mem_cons]
          exact ⟨fun h => h.resolve_left fun h => hx h.symm, .inr⟩
        refine ⟨?_, fun h => ?_, fun hq hbq hs => ?_⟩
        · rw [h1, k1]; simp only [hm]
        · rw [hm] at h; rw [h2 h, k2]
        · exact h3 (hm.1 hq) hbq (by rw [k1]; exact hs)
    · rw [if_neg hb]
      obtain ⟨h1, h2, h3⟩ := moved_state N hu p w e l s q
      by_cases hx : x = q
      · subst hx
        have hb' : below p x = false := by simpa using hb
        refine ⟨?_, fun h => h2 (.inr hb'), fun _ h => absurd h hb⟩
        rw [h1]; simp [hb']
      · have hm : q ∈ x :: l ↔ q ∈ l := by
          rw [List.mem_cons]
          exact ⟨fun h => h.resolve_left fun h => hx h.symm, .inr⟩
        exact ⟨by rw [h1]; simp only [hm], fun h => h2 (by rwa [hm] at h), fun hq => h3 (hm.1 hq)⟩

/-- The events of the loop. -/
theorem moved_out (N : Native) (E : Env) (p : Path) (w : W) (e : Event) : ∀ (l : List Path) (s : St),
    (moved N E p w e s l).2 = if w.all &&& (N.nRename ||| N.P.rename) ≠ 0 then
      (l.filter (below p)).map fun q => ⟨q, w.all &&& e &^ N.P.write &^ N.nWrite, w.isDir⟩ else []
  | [], s => by simp [moved]
  | x :: l, s => by
    unfold moved
    by_cases hb : below p x = true
    · rw [if_pos hb]
      simp only [List.filter_cons, hb, if_true, List.map_cons]
      rw [moved_out N E p w e l]
      split <;> simp
    · rw [if_neg hb, moved_out N E p w e l]
      simp only [List.filter_cons, hb]
      rfl

/-- The events that the native rename flag stands for. -/
theorem decode_rename {N : Native} (hN : N = kqueue ∨ N = fen) (w : Event) :
    decode N.nat2not N.nRename w = w &&& (N.nRename ||| N.P.rename) := by
  have tp : ∀ a : Event, ∀ k, k < 32 → (if a &&& BitVec.twoPow 32 k ≠ 0 then BitVec.twoPow 32 k else 0) = a &&& BitVec.twoPow 32 k := by
    intro a k hk
    rw [BitVec.and_twoPow]
    cases a.getLsbD k
    · simp
    · have : BitVec.twoPow 32 k ≠ 0 := by
        intro h
        have := congrArg (fun v => BitVec.getLsbD v k) h
        simp [hk] at this
      simp only [if_true]
      rw [if_pos this]
  have pull : ∀ a b c : Event, (if a &&& c ≠ 0 then b ||| c else b) = b ||| (if a &&& c ≠ 0 then c else 0) := by
    intro a b c; split <;> simp
  have two : ∀ j k, j < 32 → k < 32 → ∀ x y : Event, x = BitVec.twoPow 32 j → y = BitVec.twoPow 32 k →
      decode1 x w 0 (x, y) = w &&& (x ||| y) := by
    rintro j k hj hk x y rfl rfl
    have hne : BitVec.twoPow 32 j &&& BitVec.twoPow 32 j ≠ 0 := by
      rw [BitVec.and_self]
      intro h
      have := congrArg (fun v => BitVec.getLsbD v j) h
      simp [hj] at this
    unfold decode1
    simp only
    rw [if_pos hne, pull, pull, tp w j hj, tp w k hk]
    apply BitVec.eq_of_getLsbD_eq
    intro i hi
    simp [Bool.and_or_distrib_left]
  have skip : ∀ (o e : Event) (fn : Event × Event), o &&& fn.1 = 0 → decode1 o w e fn = e := by
    intro o e fn h
    unfold decode1
    rw [if_neg (by simp [h])]
  unfold decode
  rcases hN with rfl | rfl
  · simp only [kqueue, List.foldl]
    rw [skip 0x20 0 (0x2, 0x400) (by decide), two 5 11 (by decide) (by decide) 0x20 0x800 (by decide) (by decide)]
    rw [skip _ _ (0x1, 0x200) (by decide), skip _ _ (0x4, 0) (by decide), skip _ _ (0x8, 0) (by decide), skip _ _ (0x40, 0) (by decide),
      skip _ _ (0x10, 0) (by decide)]
    rfl
  · simp only [fen, List.foldl]
    rw [skip 0x40 0 (0x2, 0x400) (by decide), two 6 11 (by decide) (by decide) 0x40 0x800 (by decide) (by decide)]
    rw [skip _ _ (0x10, 0x200) (by decide), skip _ _ (0x1, 0) (by decide), skip _ _ (0x4, 0) (by decide), skip _ _ (0x20, 0) (by decide),
      skip _ _ (0x100000, 0) (by decide), skip _ _ (0x10000000, 0) (by decide), skip _ _ (0x20000000, 0) (by decide),
      skip _ _ (0x40000000, 0) (by decide)]
    rfl

/-- What handling the renaming of a watched directory does. -/
theorem process_rename {N : Native} (hN : N = kqueue ∨ N = fen) {E : Env} (hu : ∀ q, E.unreg q = true) {s : St} (hn : s.lkp.Nodup)
    {p : Path} {w : W} (hw : s.lkp.get? p = some w) (hd : w.isDir = true) (hr : w.all &&& (N.nRename ||| N.P.rename) ≠ 0) :
    let r := process N E s p N.nRename
    (∀ q, q = p ∨ below p q = true → r.1.lkp.get? q = none) ∧
    (∀ q, below p q = true → (s.lkp.get? q).isSome = true → r.1.nat.get? q = none) ∧
    ((N = kqueue ∨ s.nat.get? p = none) → r.1.nat.get? p = none) ∧
    (∀ q, q ≠ p → below p q = false → r.1.lkp.get? q = s.lkp.get? q ∧ r.1.nat.get? q = s.nat.get? q) ∧
    (∃ e, e ≠ 0 ∧ e ⊑ N.nRename ||| N.P.rename ∧ ∀ ev ∈ r.2, ev.event = e) ∧
    ∀ q, r.2.countP (·.path == q) = if q = p ∨ (below p q = true ∧ (s.lkp.get? q).isSome = true) then 1 else 0 := by
  have hbp : below p p = false := by simp [below]
  have hdec : decode N.nat2not N.nRename w.all = w.all &&& (N.nRename ||| N.P.rename) := decode_rename hN _
  have hsub : w.all &&& (N.nRename ||| N.P.rename) ⊑ N.nRename ||| N.P.rename := by
    intro i hi
    simp only [bit, BitVec.getLsbD_and, Bool.and_eq_true] at hi
    exact hi.2
  have hne1 : N.nRename &&& (N.nRename ||| N.nRemove) ≠ 0 := by rcases hN with rfl | rfl <;> decide
  have hne2 : N.nRename &&& (N.nRemove ||| N.nRename) ≠ 0 := by rcases hN with rfl | rfl <;> decide
  have hne3 : N.nRename &&& N.nRename ≠ 0 := by rcases hN with rfl | rfl <;> decide
  have hdis : (N.nRename ||| N.P.rename) &^ N.P.write &^ N.nWrite = N.nRename ||| N.P.rename := by
    rcases hN with rfl | rfl <;> decide
  have hclean : ∀ a : Event, (a &&& (N.nRename ||| N.P.rename)) &^ N.P.write &^ N.nWrite = a &&& (N.nRename ||| N.P.rename) := by
    intro a
    rw [BitVec.and_assoc, BitVec.and_assoc]
    rw [BitVec.and_assoc] at hdis
    rw [hdis]
  have hidem : w.all &&& (w.all &&& (N.nRename ||| N.P.rename)) = w.all &&& (N.nRename ||| N.P.rename) := by
    rw [← BitVec.and_assoc, BitVec.and_self]
  have hmem : ∀ q, (s.lkp.get? q).isSome = true → q ∈ s.lkp.keys := by
    intro q hq
    exact (GoMap.mem_keys_iff _ _).2 (Option.isSome_iff_exists.1 hq)
  have hproc : process N E s p N.nRename =
      (del N (del N (moved N E p w (w.all &&& (N.nRename ||| N.P.rename)) s s.lkp.keys).1 p w) p w,
        ⟨p, w.all &&& (N.nRename ||| N.P.rename), true⟩ ::
          (moved N E p w (w.all &&& (N.nRename ||| N.P.rename)) s s.lkp.keys).2) := by
    unfold process
    rw [hw]
    simp only [hdec, renew, hd, if_true]
    rw [if_neg hne2, if_neg (fun h => hr h.1), if_pos hne2]
    unfold dir
    rw [if_pos hne1, if_pos hne3, hclean]
  have hst := moved_state N hu p w (w.all &&& (N.nRename ||| N.P.rename)) s.lkp.keys s
  intro r
  have hrdef : r = _ := hproc
  rw [hrdef]
  refine ⟨?_, ?_, ?_, ?_, ⟨w.all &&& (N.nRename ||| N.P.rename), hr, hsub, ?_⟩, ?_⟩
  · intro q hq
    simp only [del, GoMap.get?_del]
    by_cases hpq : p = q
    · simp [hpq]
    · rcases hq with hq | hq
      · exact absurd hq.symm hpq
      · rw [if_neg hpq, if_neg hpq, (hst q).1]
        split
        · rfl
        · next h =>
          cases hg : s.lkp.get? q with
          | none => rfl
          | some x => exact absurd ⟨hmem q (by simp [hg]), hq⟩ h
  · intro q hq hs
    have hpq : p ≠ q := by rintro rfl; rw [hbp] at hq; cases hq
    have := (hst q).2.2 (hmem q hs) hq hs
    simp only [del]
    split <;> simp [GoMap.get?_del, this]
  · rintro (rfl | h0)
    · simp [del, kqueue, GoMap.get?_del]
    · have := (hst p).2.1 (.inr hbp)
      simp only [del]
      split <;> simp [GoMap.get?_del, this, h0]
  · intro q hq hb
    have hpq : ¬ p = q := fun h => hq h.symm
    refine ⟨?_, ?_⟩
    · simp only [del, GoMap.get?_del]
      rw [if_neg hpq, if_neg hpq, (hst q).1, if_neg (by simp [hb])]
    · have := (hst q).2.1 (.inr hb)
      simp only [del]
      split <;> simp [GoMap.get?_del, hpq, this]
  · simp only
    rw [moved_out, if_pos hr, hidem, hclean]
    intro ev hev
    rcases List.mem_cons.1 hev with rfl | hev
    · rfl
    · obtain ⟨q, _, rfl⟩ := List.mem_map.1 hev
      rfl
  · intro q
    simp only
    rw [moved_out, if_pos hr, List.countP_cons, List.countP_map]
    have hc : ((fun x : Ev => x.path == q) ∘ fun q => (⟨q, w.all &&& (w.all &&& (N.nRename ||| N.P.rename)) &^ N.P.write &^ N.nWrite,
        w.isDir⟩ : Ev)) = fun x => x == q := rfl
    rw [hc]
    have hcount : List.countP (fun x => x == q) (s.lkp.keys.filter (below p)) =
        if below p q = true ∧ (s.lkp.get? q).isSome = true then 1 else 0 := by
      have hnd : (s.lkp.keys.filter (below p)).Nodup := List.Pairwise.filter _ hn
      by_cases h : q ∈ s.lkp.keys.filter (below p)
      · have h' := List.mem_filter.1 h
        rw [if_pos ⟨h'.2, Option.isSome_iff_exists.2 ((GoMap.mem_keys_iff _ _).1 h'.1)⟩]
        exact hnd.count.trans (if_pos h)
      · rw [if_neg (fun hh => h (List.mem_filter.2 ⟨hmem q hh.2, hh.1⟩))]
        exact hnd.count.trans (if_neg h)
    rw [hcount]
    by_cases hpq : p = q
    · subst hpq; simp [hbp]
    · have : ¬ q = p := fun h => hpq h.symm
      simp [hpq, this]

theorem retrieved_nat (N : Native) (s : St) {p q : Path} (h : q ≠ p) : (retrieved N s p).nat.get? q = s.nat.get? q := by
  unfold retrieved
  simp only
  split
  · rw [GoMap.get?_del, if_neg (fun h' => h h'.symm)]
  · rfl

theorem retrieved_self {N : Native} (hN : N = kqueue ∨ N = fen) (s : St) (p : Path) : N = kqueue ∨ (retrieved N s p).nat.get? p = none := by
  rcases hN with rfl | rfl
  · exact .inl rfl
  · right
    simp [retrieved, fen, GoMap.get?_del]

/-- **C69, kqueue and FEN: renaming a watched directory.**  The directory `p` is watched, Rename or the native flag is in its set, and it
is renamed; no call fails.  Afterwards nothing at or below the old name is in the table, and neither `p` nor anything below it that was in
the table is natively watched; everything else is as before.  The renaming is reported for the directory, and once for each
path below that was in the table. -/
theorem C69_rename_partial {N : Native} (hN : N = kqueue ∨ N = fen) {E : Env} (hu : ∀ q, E.unreg q = true) {s : St} (hn : s.lkp.Nodup)
    {p : Path} {w : W} (hw : s.lkp.get? p = some w) (hd : w.isDir = true) (hr : w.all &&& (N.nRename ||| N.P.rename) ≠ 0) :
    let r := process N E (retrieved N s p) p N.nRename
    (∀ q, q = p ∨ below p q = true → r.1.lkp.get? q = none) ∧
    (∀ q, q = p ∨ (below p q = true ∧ (s.lkp.get? q).isSome = true) → r.1.nat.get? q = none) ∧
    (∀ q, q ≠ p → below p q = false → r.1.lkp.get? q = s.lkp.get? q ∧ r.1.nat.get? q = s.nat.get? q) ∧
    (∃ e, e ≠ 0 ∧ e ⊑ N.nRename ||| N.P.rename ∧ ∀ ev ∈ r.2, ev.event = e) ∧
    ∀ q, r.2.countP (·.path == q) = if q = p ∨ (below p q = true ∧ (s.lkp.get? q).isSome = true) then 1 else 0 := by
  obtain ⟨h1, h2, h3, h4, h5, h6⟩ := process_rename hN hu (s := retrieved N s p) hn hw hd hr
  refine ⟨h1, ?_, fun q hq hb => ⟨(h4 q hq hb).1, (h4 q hq hb).2.trans (retrieved_nat N s hq)⟩, h5, h6⟩
  rintro q (rfl | ⟨h, h'⟩)
  · exact h3 (retrieved_self hN s q)
  · exact h2 q h h'

/-- What handling the removal of a watched path, or the renaming of a watched file, does. -/
theorem process_remove {N : Native} (hN : N = kqueue ∨ N = fen) {E : Env} {s : St} {p : Path} {w : W} (hw : s.lkp.get? p = some w)
    {f : Event} (hf : f = N.nRemove ∨ (f = N.nRename ∧ w.isDir = false)) (hr : decode N.nat2not f w.all ≠ 0) :
    let r := process N E s p f
    r.1.lkp.get? p = none ∧ ((N = kqueue ∨ s.nat.get? p = none) → r.1.nat.get? p = none) ∧
    (∀ q, q ≠ p → r.1.lkp.get? q = s.lkp.get? q ∧ r.1.nat.get? q = s.nat.get? q) ∧
    ∃ e, e ⊑ w.all ∧ r.2 = [⟨p, e, w.isDir⟩] := by
  have h1 : f &&& (N.nRemove ||| N.nRename) ≠ 0 := by rcases hN with rfl | rfl <;> rcases hf with rfl | ⟨rfl, -⟩ <;> decide
  have hsub := decode_sub N hN f w.all
  have hcl : ∀ a b : Event, a &^ b ⊑ a := by
    intro a b i hi
    rw [bit_andNot, Bool.and_eq_true] at hi
    exact hi.1
  have hstate : ∀ q, q ≠ p → ∀ s' : St, s'.lkp = s.lkp → s'.nat = s.nat →
      ((del N s' p w).lkp.get? q = s.lkp.get? q ∧ (del N s' p w).nat.get? q = s.nat.get? q) ∧
      ((del N (del N s' p w) p w).lkp.get? q = s.lkp.get? q ∧ (del N (del N s' p w) p w).nat.get? q = s.nat.get? q) := by
    intro q hq s' h1 h2
    have hpq : ¬ p = q := fun h => hq h.symm
    simp only [del, GoMap.get?_del, h1, h2]
    refine ⟨⟨if_neg hpq, ?_⟩, ⟨by rw [if_neg hpq, if_neg hpq], ?_⟩⟩ <;> split <;> simp [GoMap.get?_del, hpq]
  intro r
  cases hd : w.isDir with
  | false =>
    have hproc : process N E s p f = (del N s p w, [⟨p, decode N.nat2not f w.all, false⟩]) := by
      unfold process
      rw [hw]
      simp only [renew, hd]
      rw [if_neg h1, if_neg (fun h => hr h.1), if_pos h1]
      rfl
    have hrdef : r = _ := hproc
    rw [hrdef]
    refine ⟨by simp [del, GoMap.get?_del], ?_, fun q hq => (hstate q hq s rfl rfl).1, _, hsub, rfl⟩
    rintro (rfl | h0)
    · simp [del, kqueue, GoMap.get?_del]
    · simp only [del]
      split <;> simp [GoMap.get?_del, h0]
  | true =>
    have hfr : f = N.nRemove := by
      rcases hf with h | h
      · exact h
      · rw [hd] at h; cases h.2
    have h2 : f &&& (N.nRename ||| N.nRemove) ≠ 0 := by subst hfr; rcases hN with rfl | rfl <;> decide
    have h3 : ¬ f &&& N.nRename ≠ 0 := by subst hfr; rcases hN with rfl | rfl <;> decide
    have hproc : process N E s p f = (del N (del N s p w) p w,
        [⟨p, decode N.nat2not f w.all &^ N.P.write &^ N.nWrite, true⟩]) := by
      unfold process
      rw [hw]
      simp only [renew, hd]
      rw [if_neg h1, if_neg (fun h => hr h.1), if_pos h1, if_pos trivial]
      unfold dir
      rw [if_pos h2, if_neg h3]
    have hrdef : r = _ := hproc
    rw [hrdef]
    refine ⟨by simp [del, GoMap.get?_del], ?_, fun q hq => (hstate q hq s rfl rfl).2, _,
      (hcl _ _).trans ((hcl _ _).trans hsub), rfl⟩
    rintro (rfl | h0)
    · simp [del, kqueue, GoMap.get?_del]
    · simp only [del]
      split <;> simp [GoMap.get?_del, h0]

/-- **C69, kqueue and FEN: a watched path is removed, or a watched file renamed.**  Its entry and its native watch go and all others stay; there is one report,
for the path itself. -/
theorem C69_remove_partial {N : Native} (hN : N = kqueue ∨ N = fen) {E : Env} {s : St} {p : Path} {w : W} (hw : s.lkp.get? p = some w)
    {f : Event} (hf : f = N.nRemove ∨ (f = N.nRename ∧ w.isDir = false)) (hr : decode N.nat2not f w.all ≠ 0) :
    let r := process N E (retrieved N s p) p f
    r.1.lkp.get? p = none ∧ r.1.nat.get? p = none ∧
    (∀ q, q ≠ p → r.1.lkp.get? q = s.lkp.get? q ∧ r.1.nat.get? q = s.nat.get? q) ∧
    ∃ e, e ⊑ w.all ∧ r.2 = [⟨p, e, w.isDir⟩] := by
  obtain ⟨h1, h2, h3, h4⟩ := process_remove hN (E := E) (s := retrieved N s p) hw hf hr
  exact ⟨h1, h2 (retrieved_self hN s p), fun q hq => ⟨(h3 q hq).1, (h3 q hq).2.trans (retrieved_nat N s hq)⟩, h4⟩

/-- What was not requested is not even looked at: without Rename and the native flag in the set of a path, its renaming leaves the tables as
they are; likewise its removal. -/
theorem process_unrequested {N : Native} (hN : N = kqueue ∨ N = fen) {E : Env} {s : St} {p : Path} {w : W} (hw : s.lkp.get? p = some w)
    {f : Event} (hf : f = N.nRemove ∨ f = N.nRename) (hr : decode N.nat2not f w.all = 0) :
    process N E s p f = (s, []) := by
  have h1 : f &&& (N.nRemove ||| N.nRename) ≠ 0 := by rcases hN with rfl | rfl <;> rcases hf with rfl | rfl <;> decide
  have h2 : f &&& N.nWrite = 0 := by rcases hN with rfl | rfl <;> rcases hf with rfl | rfl <;> decide
  unfold process
  rw [hw]
  simp only [hr, renew]
  rw [if_neg h1, if_pos ⟨trivial, .inr h2⟩]

namespace RenEx

/-- `/d` with the directory `s` and the file `s/f`; every call succeeds. -/
def E : Env where
  stat := fun p => some (decide (p = [['d']] ∨ p = [['d'], ['s']]))
  opn := fun _ => .ok
  reg := fun _ => true
  unreg := fun _ => true
  list := fun p =>
    if p = [['d']] then .ok [(['s'], true)] else if p = [['d'], ['s']] then .ok [(['f'], false)] else .error false

/-- `/d` is watched for Rename and Remove, `/d/s` for Write, `/k` for Write. -/
def s (N : Native) : St :=
  (watch N E (watch N E (watch N E ⟨[], [], 0, []⟩ [['d']] (0x800 ||| 0x200) true).1 [['d'], ['s']] 0x400 true).1 [['k']] 0x400 false).1

/-- `/d` is watched for Create only. -/
def c (N : Native) : St := (watch N E ⟨[], [], 0, []⟩ [['d']] 0x100 true).1

/-- The hypotheses of C69_rename_partial are met, by a table of four paths. -/
example : (s kqueue).lkp.keys.length = 4 ∧ (s kqueue).lkp.keys.Nodup ∧
    ∃ w, (s kqueue).lkp.get? [['d']] = some w ∧ w.isDir = true ∧ w.all &&& (kqueue.nRename ||| kqueue.P.rename) ≠ 0 := by
  refine ⟨by decide, by decide, _, rfl, ?_, ?_⟩ <;> decide
example : (s fen).lkp.keys.length = 4 ∧ (s fen).lkp.keys.Nodup ∧
    ∃ w, (s fen).lkp.get? [['d']] = some w ∧ w.isDir = true ∧ w.all &&& (fen.nRename ||| fen.P.rename) ≠ 0 := by
  refine ⟨by decide, by decide, _, rfl, ?_, ?_⟩ <;> decide

/-- The renaming of `/d` leaves only `/k`; three reports. -/
example : (process kqueue E (s kqueue) [['d']] 0x20).1.lkp.keys = [[['k']]] ∧ (process kqueue E (s kqueue) [['d']] 0x20).2.length = 3 := by
  decide

/-- The hypotheses of C69_remove_partial. -/
example : ∃ w, (s kqueue).lkp.get? [['d']] = some w ∧ decode kqueue.nat2not kqueue.nRemove w.all ≠ 0 := by
  refine ⟨_, rfl, ?_⟩; decide

end RenEx

/-- **C69 is false when the renaming was not requested.**  On FEN renamings are notified whether or not requested
(port_associate(3C)).  `/d` is watched for Create; it is renamed.  Its entry and that of `/d/s` stay in the table. -/
theorem C69_refuted : let r := process fen RenEx.E (retrieved fen (RenEx.c fen) [['d']]) [['d']] fen.nRename
    (r.1.lkp.get? [['d']]).isSome = true ∧ (r.1.lkp.get? [['d'], ['s']]).isSome = true ∧ r.2 = [] := by
  decide

end Trg
end Verif
