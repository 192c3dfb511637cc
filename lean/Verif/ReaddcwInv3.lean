/-
The Windows watcher: executions without errors and races, and what holds in them.
-/
import Verif.ReaddcwInv2

namespace Verif
namespace Dcw
open Platform (readdcw)

/-! ### Executions -/

/-- Steps that follow the contract and avoid what C60-C62 fail on: a path is watched again only when its entry is gone; the
loop is not between reading again and looking at the state of the entry when `Rewatch` is called; `Rewatch` is not for names
of directories alone; ports, reads and, in the loop, opening do not fail; the first event comes after `Watch`. -/
inductive CStep (f : Path → Option (Event × Bool)) (s : St) : Op → St → Prop
  | watch (p : Path) (e : Event) (isrec : Bool) (a0 a1 : Ans) (hl : LegalOp f (.watch p e isrec true)) (hm : s.m.get? p = none)
      (h0 : a0.Calm) (h1 : a1.Calm) : CStep f s (.watch p e isrec (watch s p e isrec a0 a1).2) (watch s p e isrec a0 a1).1
  | rewatch (p : Path) (old new : Event) (isrec : Bool) (s' : St) (ok : Bool) (hl : LegalOp f (.rewatch p old new isrec true))
      (hn : new &^ dirName ≠ 0) (hr : ∀ g, s.loop = .st g → s.m.get? p ≠ some (s.grips g).parent)
      (h : rewatch s p old new isrec = some (s', ok)) : CStep f s (.rewatch p old new isrec ok) s'
  | unwatch (p : Path) (hl : LegalOp f (.unwatch p true)) : CStep f s (.unwatch p (unwatch s p false).2) (unwatch s p false).1
  | complete (r : Read) (h : r ∈ s.reads) : CStep f s .tau (complete s r)
  | take : CStep f s .tau (take s)
  | again : CStep f s .tau (again s true)
  | state (s' : St) (h : loopstate s {} {} = some s') : CStep f s .tau s'

inductive CHist : List Op → St → Prop
  | nil : CHist [] St.init
  | snoc {l : List Op} {s s' : St} {op : Op} : CHist l s → CStep (asked l) s op s' → CHist (l ++ [op]) s'

/-- They are executions that follow the contract. -/
theorem CHist.legal {l : List Op} {s : St} (h : CHist l s) : LHist l s := by
  induction h with
  | nil => exact .nil
  | snoc _ hs ih =>
    cases hs with
    | watch p e r a0 a1 hl => exact .snoc ih hl (.watch _ _ _ _ _ _)
    | rewatch p o n r s' ok hl hn hr h => exact .snoc ih hl (.rewatch _ _ _ _ _ _ _ h)
    | unwatch p hl => exact .snoc ih hl (.unwatch _ _ _)
    | complete r h => exact .snoc ih trivial (.complete _ _ h)
    | take => exact .snoc ih trivial (.take _)
    | again => exact .snoc ih trivial (.again _ _)
    | state s' h => exact .snoc ih trivial (.state _ _ _ _ h)

/-! ### Bits -/

theorem st_bits : ∀ j < 32, onlyStates.getLsbD j = decide (28 ≤ j) := by decide
theorem mask_bits : ∀ j < 32, (onlyGlobal ||| onlyChanges).getLsbD j = (decide (j < 12) || (decide (20 ≤ j) && decide (j < 28))) := by
  decide

theorem lt32 {e : Event} {j : Nat} (h : e.getLsbD j = true) : j < 32 := by
  rcases Nat.lt_or_ge j 32 with h1 | h1
  · exact h1
  · rw [BitVec.getLsbD_of_ge _ _ h1] at h; exact absurd h (by simp)

theorem encode_congr {a b : Event} (h : a &&& (onlyGlobal ||| onlyChanges) = b &&& (onlyGlobal ||| onlyChanges)) :
    encode a = encode b := by
  unfold encode; rw [h]

theorem encode_file_st (F : Event) : encode (fileFilter F) = encode (fileFilter (F &^ onlyStates)) := by
  apply encode_congr
  apply BitVec.eq_of_getLsbD_eq
  intro j hj
  rw [BitVec.getLsbD_and, BitVec.getLsbD_and, fileFilter_bit _ hj, fileFilter_bit _ hj, Event.bit_andNot, st_bits j hj, mask_bits j hj]
  by_cases h : 28 ≤ j
  · have h1 : ¬ j < 12 := by omega
    have h2 : ¬ j < 28 := by omega
    simp [h1, h2]
  · simp [h]

theorem encode_filt_st (i : Bool) (F : Event) : encode (filt i F) = encode (filt i (F &^ onlyStates)) := by
  cases i with
  | false => exact encode_file_st F
  | true => exact (encode_dirFilter _).trans (encode_dirFilter _).symm

theorem hasDir_st (F : Event) : hasDir F = hasDir (F &^ onlyStates) := by
  rw [Bool.eq_iff_iff, hasDir_iff, hasDir_iff]
  simp only [Event.bit_andNot]
  rw [st_bits 1 (by decide), st_bits 20 (by decide), st_bits 21 (by decide)]
  simp

theorem valid_high {e : Event} (h : valid e = true) {j : Nat} (h1 : 28 ≤ j) : e.getLsbD j = false := by
  cases hb : e.getLsbD j with
  | false => rfl
  | true =>
    have h32 := lt32 hb
    have := valid_bit h h32 hb
    omega

theorem valid_states {e : Event} (h : valid e = true) : e &&& onlyStates = 0 := by
  apply BitVec.eq_of_getLsbD_eq
  intro j hj
  rw [BitVec.getLsbD_and, st_bits j hj]
  by_cases h1 : 28 ≤ j
  · rw [valid_high h h1]; simp
  · simp [h1]

theorem valid_clear {e : Event} (h : valid e = true) : e &^ onlyStates = e := by
  apply BitVec.eq_of_getLsbD_eq
  intro j hj
  rw [Event.bit_andNot, st_bits j hj]
  by_cases h1 : 28 ≤ j
  · rw [valid_high h h1]; simp
  · simp [h1]

theorem valid_old {e : Event} (h : valid e = true) : e &&& (onlyChanges ||| onlyGlobal) = e := by
  have hm : ∀ j < 32, (onlyChanges ||| onlyGlobal).getLsbD j = (decide (j < 12) || (decide (20 ≤ j) && decide (j < 28))) := by
    decide
  apply BitVec.eq_of_getLsbD_eq
  intro j hj
  rw [BitVec.getLsbD_and, hm j hj]
  cases hb : e.getLsbD j with
  | false => rfl
  | true =>
    have := valid_bit h hj hb
    rcases this with rfl | rfl | rfl | rfl | rfl | rfl | rfl | rfl | rfl | rfl | rfl | rfl <;> rfl

theorem re_bits : ∀ j < 32, stRewatch.getLsbD j = (j == 28) := by decide
theorem un_bits : ∀ j < 32, stUnwatch.getLsbD j = (j == 29) := by decide

theorem rewatch_states {e : Event} (h : valid e = true) : (stRewatch ||| e) &&& onlyStates = stRewatch := by
  apply BitVec.eq_of_getLsbD_eq
  intro j hj
  rw [BitVec.getLsbD_and, BitVec.getLsbD_or, st_bits j hj, re_bits j hj]
  by_cases h1 : 28 ≤ j
  · rw [valid_high h h1]; simp [h1]
  · have : ¬ j = 28 := by omega
    simp [h1, this]

theorem rewatch_clear {e : Event} (h : valid e = true) : (stRewatch ||| e) &^ onlyStates = e := by
  apply BitVec.eq_of_getLsbD_eq
  intro j hj
  rw [Event.bit_andNot, BitVec.getLsbD_or, st_bits j hj, re_bits j hj]
  by_cases h1 : 28 ≤ j
  · rw [valid_high h h1]; simp [h1]
  · have : ¬ j = 28 := by omega
    simp [h1, this]

theorem unwatch_states {e : Event} (h : valid e = true) : (e ||| stUnwatch) &&& onlyStates = stUnwatch := by
  apply BitVec.eq_of_getLsbD_eq
  intro j hj
  rw [BitVec.getLsbD_and, BitVec.getLsbD_or, st_bits j hj, un_bits j hj]
  by_cases h1 : 28 ≤ j
  · rw [valid_high h h1]; simp [h1]
  · have : ¬ j = 29 := by omega
    simp [h1, this]

theorem hasFile_rewatch (e : Event) : hasFile (stRewatch ||| e) = true := by
  unfold hasFile
  refine decide_eq_true (Event.ne_zero_iff.2 ⟨28, ?_⟩)
  rw [fileFilter_bit _ (by decide), BitVec.getLsbD_or, re_bits 28 (by decide)]
  rfl

/-! ### The invariant -/

/-- The number of packets of which the loop has still to hear for the entry. -/
def sump (s : St) (w : Nat) : Nat := ((s.wds w).slots.map (pend s)).sum

/-- The states of an entry; `D`: some `Unwatch` succeeded or some `Watch` failed. -/
inductive Cls (s : St) (f : Path → Option (Event × Bool)) (D : Prop) (w : Nat) : Prop
  | up (F e : Event) (hm : s.m.get? (s.wds w).path = some w) (hf : f (s.wds w).path = some (e, (s.wds w).recursive))
      (he : (s.wds w).filter = e) (hv : valid e = true) (h0 : e ≠ 0) (hF : F &^ onlyStates = e) (hh : hasFile F = hasFile e)
      (hu : Up s w F) (hc : (s.wds w).count = cnt F)
  | re (e : Event) (hm : s.m.get? (s.wds w).path = some w) (hf : f (s.wds w).path = some (e, (s.wds w).recursive))
      (he : (s.wds w).filter = stRewatch ||| e) (hv : valid e = true) (hh : hasFile e = true)
      (hd : ∀ g ∈ (s.wds w).slots, (s.grips g).handle = none) (hc : (s.wds w).count.toNat = sump s w) (hp : 0 < sump s w)
  | un (F : Event) (hm : s.m.get? (s.wds w).path = some w) (hf : f (s.wds w).path = none)
      (he : (s.wds w).filter &&& onlyStates = stUnwatch) (hE : hasFile F = true → encode (fileFilter F) ≠ 0) (hu : Up s w F) (hD : D)
  | gone (hm : s.m.get? (s.wds w).path ≠ some w) (hd : ∀ g ∈ (s.wds w).slots, (s.grips g).handle = none)
      (he : (s.wds w).filter &&& onlyStates = 0 ∨ (s.wds w).filter &&& onlyStates = stUnwatch ∧
        ((s.wds w).count = 0 ∧ sump s w ≤ 2 ∨ 254 + sump s w ≤ (s.wds w).count.toNat)) (hD : D)

structure Inv (s : St) (f : Path → Option (Event × Bool)) (D : Prop) : Prop where
  base : Base s
  cls : ∀ w < s.nw, Cls s f D w
  none' : ∀ p, s.m.get? p = none → f p = none

theorem up_enc {F e : Event} (hv : valid e = true) (hF : F &^ onlyStates = e) (hh : hasFile F = hasFile e) (i : Bool)
    (h : has i F = true) : encode (filt i F) ≠ 0 := by
  rw [encode_filt_st, hF]
  cases i with
  | false => exact (C58_accepted e hv).2.2.1 (hh ▸ h)
  | true => exact dirFilter_ne e

theorem Up.handle {s : St} {w : Nat} {F : Event} (hu : Up s w F) {g : Nat} (hg : g ∈ (s.wds w).slots) :
    ∃ i h, (s.wds w).slot i = some g ∧ has i F = true ∧ (s.grips g).handle = some h ∧ (s.grips g).filter = filt i F ∧
      (s.grips g).recursive = (s.wds w).recursive ∧ tok s g = 1 := by
  obtain ⟨i, hi⟩ := mem_slots.1 hg
  rcases hu i with ⟨_, h⟩ | ⟨h, g', k, h1, h2⟩
  · rw [hi] at h; cases h
  · rw [hi] at h1
    have := Option.some.inj h1
    subst this
    exact ⟨i, k, hi, h, h2⟩

theorem Up.frame {s s' : St} {w : Nat} {F : Event} (hu : Up s w F) (hs : ∀ i, (s'.wds w).slot i = (s.wds w).slot i)
    (hr : (s'.wds w).recursive = (s.wds w).recursive)
    (hg : ∀ g ∈ (s.wds w).slots, s'.grips g = s.grips g ∧ tok s' g = tok s g) : Up s' w F := by
  intro i
  rcases hu i with ⟨h1, h2⟩ | ⟨h1, g, k, h2, h3, h4, h5, h6⟩
  · exact .inl ⟨h1, (hs i).trans h2⟩
  · have h7 := hg g (mem_slots.2 ⟨i, h2⟩)
    refine .inr ⟨h1, g, k, (hs i).trans h2, ?_, ?_, ?_, ?_⟩
    · rw [h7.1]; exact h3
    · rw [h7.1]; exact h4
    · rw [h7.1, hr]; exact h5
    · rw [h7.2]; exact h6

theorem sump_congr {s s' : St} {w : Nat} (hs : (s'.wds w).slots = (s.wds w).slots)
    (h : ∀ g ∈ (s.wds w).slots, pend s' g = pend s g) : sump s' w = sump s w := by
  unfold sump
  rw [hs]
  congr 1
  exact List.map_congr_left h

theorem Cls.frame {s s' : St} {f f' : Path → Option (Event × Bool)} {D D' : Prop} {w : Nat} (hc : Cls s f D w) (hDD : D → D') (hw : s'.wds w = s.wds w)
    (hm : s'.m.get? (s.wds w).path = some w ↔ s.m.get? (s.wds w).path = some w)
    (hf : s.m.get? (s.wds w).path = some w → f' (s.wds w).path = f (s.wds w).path)
    (hg : ∀ g ∈ (s.wds w).slots, s'.grips g = s.grips g ∧ ((s.grips g).handle ≠ none → tok s' g = tok s g) ∧
      ((s.grips g).handle = none → pend s' g = pend s g)) : Cls s' f' D' w := by
  cases hc with
  | up F e h1 h2 h3 h4 h5 h6 h7 h8 h9 =>
    refine .up F e ?_ ?_ ?_ h4 h5 h6 h7 ?_ ?_
    · rw [hw]; exact hm.2 h1
    · rw [hw, hf h1]; exact h2
    · rw [hw]; exact h3
    · refine h8.frame (fun _ => by rw [hw]) (by rw [hw]) fun g h => ⟨(hg g h).1, (hg g h).2.1 ?_⟩
      obtain ⟨_, k, _, _, hk, _⟩ := h8.handle h
      rw [hk]; simp
    · rw [hw]; exact h9
  | re e h1 h2 h3 h4 h5 h6 h7 h8 =>
    have hs : sump s' w = sump s w := sump_congr (by rw [hw]) fun g h => (hg g h).2.2 (h6 g h)
    refine .re e ?_ ?_ ?_ h4 h5 ?_ ?_ ?_
    · rw [hw]; exact hm.2 h1
    · rw [hw, hf h1]; exact h2
    · rw [hw]; exact h3
    · intro g h
      rw [hw] at h
      rw [(hg g h).1]; exact h6 g h
    · rw [hw, hs]; exact h7
    · rw [hs]; exact h8
  | un F h1 h2 h3 h4 h5 hD =>
    refine .un F ?_ ?_ ?_ h4 ?_ (hDD hD)
    · rw [hw]; exact hm.2 h1
    · rw [hw, hf h1]; exact h2
    · rw [hw]; exact h3
    · refine h5.frame (fun _ => by rw [hw]) (by rw [hw]) fun g h => ⟨(hg g h).1, (hg g h).2.1 ?_⟩
      obtain ⟨_, k, _, _, hk, _⟩ := h5.handle h
      rw [hk]; simp
  | gone h1 h2 h3 hD =>
    have hs : sump s' w = sump s w := sump_congr (by rw [hw]) fun g h => (hg g h).2.2 (h2 g h)
    refine .gone ?_ ?_ ?_ (hDD hD)
    · rw [hw]; exact fun h => h1 (hm.1 h)
    · intro g h
      rw [hw] at h
      rw [(hg g h).1]; exact h2 g h
    · rw [hw, hs]; exact h3

theorem Inv.init : Inv St.init (fun _ => none) False :=
  ⟨Base.init, (by intro w h; cases h), fun _ _ => rfl⟩

theorem Inv.mono {s : St} {f : Path → Option (Event × Bool)} {D D' : Prop} (hi : Inv s f D) (h : D → D') : Inv s f D' :=
  ⟨hi.base, fun w hw => (hi.cls w hw).frame h rfl Iff.rfl (fun _ => rfl) fun _ _ => ⟨rfl, fun _ => rfl, fun _ => rfl⟩, hi.none'⟩

/-! ### Completions and the loop -/

theorem Base.move {s s' : St} (hb : Base s) (hg : s'.grips = s.grips) (hn : s'.ng = s.ng) (hw : s'.wds = s.wds) (hnw : s'.nw = s.nw)
    (hm : s'.m = s.m) (ho : s'.opened = s.opened) (hnh : s'.nh = s.nh)
    (hr : ∀ r ∈ s'.reads, (s.grips r.g).handle = some r.h ∧ r.native = encode (s.grips r.g).filter ∧
      r.sub = (s.grips r.g).recursive)
    (ht : ∀ g, Dcw.tok s' g ≤ 1) (hp : ∀ g, 0 < pend s' g → 0 < pend s g) : Base s' := by
  refine ⟨?_, ht, ?_, ?_, ?_, ?_, ?_, ?_, ?_⟩
  · rw [hg]; exact hr
  · rw [hg]; exact hb.inj
  · rw [hg, ho, hnh]; exact hb.open'
  · rw [hg, ho]; exact hb.closed
  · intro g h
    rw [hg, hw, hnw]
    rw [hg] at h
    exact hb.own g (h.imp (hp g) id)
  · rw [hg, hw, hn, hnw]; exact hb.slot
  · rw [hw, hnw]; exact hb.nd
  · rw [hw, hnw, hm]; exact hb.tab

theorem complete_tok {s : St} {r : Read} (h : r ∈ s.reads) (g : Nat) : tok (complete s r) g = tok s g := by
  unfold tok complete
  simp only [List.count_append, List.count_singleton]
  rw [(List.perm_cons_erase h).countP_eq (fun r => decide (r.g = g)), List.countP_cons]
  by_cases e : r.g = g
  · simp [e]; omega
  · simp [e]

theorem Inv.complete {s : St} {f : Path → Option (Event × Bool)} {D : Prop} (hi : Inv s f D) {r : Read} (h : r ∈ s.reads) :
    Inv (complete s r) f D := by
  have ht := complete_tok h
  have hp : ∀ g, pend (Dcw.complete s r) g = pend s g := fun g => pend_of (ht g) rfl
  refine ⟨hi.base.move rfl rfl rfl rfl rfl rfl rfl (fun x hx => hi.base.rd x (List.mem_of_mem_erase hx))
    (fun g => by rw [ht]; exact hi.base.tok g) (fun g h => by rw [hp] at h; exact h), ?_, hi.none'⟩
  intro w hw
  exact (hi.cls w hw).frame id rfl Iff.rfl (fun _ => rfl) fun g _ => ⟨rfl, fun _ => ht g, fun _ => hp g⟩

theorem Inv.take {s : St} {f : Path → Option (Event × Bool)} {D : Prop} (hi : Inv s f D) : Inv (take s) f D := by
  unfold Dcw.take
  split
  · rename_i g q hl hq
    have hpos : 0 < pend s g := by
      unfold pend tok
      rw [hq]
      simp only [List.count_cons_self]
      omega
    have ho := hi.base.own g (.inl hpos)
    have hlk := (hi.base.slot _ ho.1 g ho.2).2.2.2
    rw [if_pos hlk]
    have ht : ∀ x, tok { s with queue := q, loop := .got g } x = tok s x := by
      intro x
      unfold tok
      rw [hl, hq]
      by_cases e : x = g
      · subst e; simp; omega
      · have : ¬ g = x := fun h => e h.symm
        simp [this, List.count_cons]
    have hp : ∀ x, pend { s with queue := q, loop := .got g } x = pend s x := by
      intro x
      unfold pend
      rw [ht, hl]
      simp
    refine ⟨hi.base.move rfl rfl rfl rfl rfl rfl rfl hi.base.rd (fun g => by rw [ht]; exact hi.base.tok g)
      (fun g h => by rw [hp] at h; exact h), ?_, hi.none'⟩
    intro w hw
    exact (hi.cls w hw).frame id rfl Iff.rfl (fun _ => rfl) fun g _ => ⟨rfl, fun _ => ht g, fun _ => hp g⟩
  · exact hi

/-- A grip with an open handle has a filter the kernel accepts. -/
theorem Inv.enc {s : St} {f : Path → Option (Event × Bool)} {D : Prop} (hi : Inv s f D) {g h : Nat} (hg : (s.grips g).handle = some h) :
    encode (s.grips g).filter ≠ 0 := by
  have ho := hi.base.own g (.inr (by rw [hg]; simp))
  have hc := hi.cls _ ho.1
  cases hc with
  | up F e h1 h2 h3 h4 h5 h6 h7 h8 h9 =>
    obtain ⟨i, k, _, hh, _, hf, _⟩ := h8.handle ho.2
    rw [hf]; exact up_enc h4 h6 h7 i hh
  | re e h1 h2 h3 h4 h5 h6 h7 h8 => rw [h6 g ho.2] at hg; cases hg
  | un F h1 h2 h3 h4 h5 hD =>
    obtain ⟨i, k, _, hh, _, hf, _⟩ := h5.handle ho.2
    rw [hf]
    cases i with
    | false => exact h4 hh
    | true => exact dirFilter_ne _
  | gone h1 h2 h3 hD => rw [h2 g ho.2] at hg; cases hg

theorem Inv.again {s : St} {f : Path → Option (Event × Bool)} {D : Prop} (hi : Inv s f D) : Inv (again s true) f D := by
  unfold Dcw.again
  split
  · rename_i g hl
    have hg1 : tok s g = 1 := by
      have h1 := hi.base.tok g
      have h2 : 1 ≤ tok s g := by unfold tok; rw [hl]; simp
      omega
    unfold readDirChanges
    cases hh : (s.grips g).handle with
    | none =>
      simp only
      have ht : ∀ x, tok { s with loop := .st g } x = if x = g then 0 else tok s x := by
        intro x
        by_cases e : x = g
        · subst e
          rw [if_pos rfl]
          unfold tok at hg1 ⊢
          rw [hl] at hg1
          simp at hg1 ⊢
          omega
        · rw [if_neg e]
          unfold tok
          rw [hl]
          have : ¬ g = x := fun h => e h.symm
          simp [this]
      have hp : ∀ x, pend { s with loop := .st g } x = pend s x := by
        intro x
        unfold pend
        rw [ht, hl]
        by_cases e : x = g
        · subst e; rw [if_pos rfl, hg1]; simp
        · rw [if_neg e]
          have : ¬ g = x := fun h => e h.symm
          simp [this]
      refine ⟨hi.base.move rfl rfl rfl rfl rfl rfl rfl hi.base.rd (fun x => ?_) (fun g h => by rw [hp] at h; exact h), ?_, hi.none'⟩
      · rw [ht]; split
        · omega
        · exact hi.base.tok x
      · intro w hw
        refine (hi.cls w hw).frame id rfl Iff.rfl (fun _ => rfl) fun x _ => ⟨rfl, fun h => ?_, fun _ => hp x⟩
        rw [ht, if_neg]
        rintro rfl
        exact h hh
    | some h =>
      simp only
      rw [if_pos ⟨trivial, hi.enc hh, (hi.base.open' _ _ hh).1⟩]
      have ht : ∀ x, tok { s with reads := s.reads ++ [⟨h, g, encode (s.grips g).filter, (s.grips g).recursive⟩], loop := .st g } x
          = tok s x := by
        intro x
        unfold tok
        rw [hl]
        simp only [List.countP_append, List.countP_singleton]
        by_cases e : g = x
        · subst e; simp; omega
        · simp [e]
      refine ⟨hi.base.move rfl rfl rfl rfl rfl rfl rfl ?_ (fun x => by rw [ht]; exact hi.base.tok x) (fun x h => ?_), ?_, hi.none'⟩
      · intro r hr
        simp only [List.mem_append, List.mem_singleton] at hr
        rcases hr with hr | rfl
        · exact hi.base.rd r hr
        · exact ⟨hh, rfl, rfl⟩
      · unfold pend at h ⊢
        rw [ht] at h
        by_cases e : x = g
        · subst e; omega
        · have : ¬ g = x := fun h => e h.symm
          simp [this] at h
          omega
      · intro w hw
        refine (hi.cls w hw).frame id rfl Iff.rfl (fun _ => rfl) fun x _ => ⟨rfl, fun _ => ht x, fun hx => ?_⟩
        have : ¬ g = x := by rintro rfl; rw [hh] at hx; cases hx
        unfold pend
        rw [ht, hl]
        simp [this]
  · exact hi

/-! ### `loopstate` -/

theorem sum_dec {l : List Nat} {p p' : Nat → Nat} {g : Nat} (hn : l.Nodup) (hg : g ∈ l) (h1 : p g = p' g + 1)
    (h2 : ∀ x, x ≠ g → p x = p' x) : (l.map p).sum = (l.map p').sum + 1 := by
  induction l with
  | nil => cases hg
  | cons a l ih =>
    simp only [List.map_cons, List.sum_cons]
    rw [List.nodup_cons] at hn
    by_cases e : a = g
    · subst e
      have : l.map p = l.map p' := List.map_congr_left fun x hx => h2 x (by rintro rfl; exact hn.1 hx)
      rw [this]; omega
    · have hg' : g ∈ l := by
        rcases List.mem_cons.1 hg with h | h
        · exact absurd h.symm e
        · exact h
      rw [ih hn.2 hg', h2 a e]; omega

theorem sum_zero {l : List Nat} {p : Nat → Nat} (h : (l.map p).sum = 0) : ∀ x ∈ l, p x = 0 := by
  intro x hx
  induction l with
  | nil => cases hx
  | cons a l ih =>
    simp only [List.map_cons, List.sum_cons] at h
    rcases List.mem_cons.1 hx with rfl | hx
    · omega
    · exact ih (by omega) hx

theorem slots_len (wd : Wd) : wd.slots.length ≤ 2 := by
  unfold Wd.slots
  cases wd.g0 <;> cases wd.g1 <;> simp

theorem sum_le_len {l : List Nat} {p : Nat → Nat} (h : ∀ x ∈ l, p x ≤ 1) : (l.map p).sum ≤ l.length := by
  induction l with
  | nil => simp
  | cons a l ih =>
    simp only [List.map_cons, List.sum_cons, List.length_cons]
    have := h a List.mem_cons_self
    have := ih fun x hx => h x (List.mem_cons_of_mem _ hx)
    omega

theorem slot_parent {s : St} (hb : Base s) {w w' : Nat} (hw : w < s.nw) (hw' : w' < s.nw) {g : Nat} (h : g ∈ (s.wds w).slots)
    (h' : g ∈ (s.wds w').slots) : w = w' :=
  (hb.slot w hw g h).2.1.symm.trans (hb.slot w' hw' g h').2.1

theorem Inv.state {s : St} {f : Path → Option (Event × Bool)} {D : Prop} (hi : Inv s f D) {s' : St} (h : loopstate s {} {} = some s') :
    Inv s' f D := by
  unfold loopstate at h
  split at h
  · rename_i g hl
    simp only at h
    have hpos : 0 < pend s g := by unfold pend; rw [hl]; simp
    obtain ⟨hw, hgs⟩ := hi.base.own g (.inl hpos)
    obtain ⟨-, -, hpath, -⟩ := hi.base.slot _ hw g hgs
    generalize hpw : (s.grips g).parent = w at h hw hgs hpath
    -- the loop is idle again
    have ht0 : ∀ x, tok { s with loop := .idle } x = tok s x := by intro x; unfold tok; rw [hl]; simp
    have hp0 : ∀ x, x ≠ g → pend s x = pend { s with loop := .idle } x := by
      intro x hx
      have : ¬ g = x := fun e => hx e.symm
      unfold pend; rw [ht0, hl]; simp [this]
    have hpg : pend s g = pend { s with loop := .idle } g + 1 := by
      unfold pend; rw [ht0, hl]; simp
    have hb0 : Base { s with loop := .idle } :=
      hi.base.move rfl rfl rfl rfl rfl rfl rfl hi.base.rd (fun x => by rw [ht0]; exact hi.base.tok x) (fun x hx => by
        by_cases e : x = g
        · subst e; exact hpos
        · rw [hp0 x e]; exact hx)
    have hsum : sump s w = sump { s with loop := .idle } w + 1 := sum_dec (hi.base.nd w hw) hgs hpg hp0
    -- other entries do not see it
    have hoth : ∀ w', w' < s.nw → w' ≠ w → ∀ x ∈ (s.wds w').slots, x ≠ g := by
      rintro w' h1 h2 x hx rfl
      exact h2 (slot_parent hi.base h1 hw hx hgs)
    -- a change of the counter
    have hcount : ∀ c : BitVec 8, Base ({ s with loop := .idle }.setWd w { s.wds w with count := c }) :=
      fun c => Base.setWd hb0 w _ rfl rfl
    have hrest : ∀ c : BitVec 8, ∀ w' < s.nw, w' ≠ w → Cls ({ s with loop := .idle }.setWd w { s.wds w with count := c }) f D w' := by
      intro c w' h1 h2
      refine (hi.cls w' h1).frame id ?_ Iff.rfl (fun _ => rfl) fun x hx => ⟨rfl, fun _ => ht0 x, fun _ => (hp0 x (hoth w' h1 h2 x hx)).symm⟩
      simp only [St.setWd]; rw [upd_ne _ _ h2]
    have hplain : Cls { s with loop := .idle } f D w → Inv { s with loop := .idle } f D := by
      intro hc
      refine ⟨hb0, fun w' h1 => ?_, hi.none'⟩
      by_cases e : w' = w
      · subst e; exact hc
      · exact (hi.cls w' h1).frame id rfl Iff.rfl (fun _ => rfl) fun x hx => ⟨rfl, fun _ => ht0 x, fun _ => (hp0 x (hoth w' h1 e x hx)).symm⟩
    have hcls := hi.cls w hw
    cases hcls with
    | up F e h1 h2 h3 h4 h5 h6 h7 h8 h9 =>
      rw [h3, if_pos (valid_states h4)] at h
      cases h
      refine hplain (.up F e h1 h2 h3 h4 h5 h6 h7 ?_ h9)
      exact h8.frame (fun _ => rfl) rfl fun x _ => ⟨rfl, ht0 x⟩
    | re e h1 h2 h3 h4 h5 h6 h7 h8 =>
      have hst : (s.wds w).filter &&& onlyStates = stRewatch := by rw [h3]; exact rewatch_states h4
      rw [hst, if_neg (by decide)] at h
      have hcn : (s.wds w).count.toNat = sump { s with loop := .idle } w + 1 := h7.trans hsum
      have hc1 : ((s.wds w).count - 1).toNat = sump { s with loop := .idle } w := by
        have hlt := (s.wds w).count.isLt
        rw [BitVec.toNat_sub]
        simp
        omega
      by_cases hz : (s.wds w).count - 1 = 0
      · rw [if_pos hz, if_pos rfl] at h
        have hs0 : sump { s with loop := .idle } w = 0 := by rw [← hc1, hz]; rfl
        have hpz := sum_zero hs0
        rw [hz] at h
        obtain ⟨s2, hr, R⟩ := recreate_ok (hcount 0) (w := w) hw (by simp only [St.setWd]; rw [upd_same])
          (by
            simp only [St.setWd]; rw [upd_same]
            intro x hx
            exact ⟨hpz x hx, h6 x hx⟩)
          (by
            simp only [St.setWd]; rw [upd_same]
            intro _
            simp only [h3]
            rw [encode_file_st, rewatch_clear h4]
            exact (C58_accepted e h4).2.2.1 h5)
        rw [hr] at h
        cases h
        have hF : ({ s with loop := .idle }.setWd w { s.wds w with count := 0 }).wds w = { s.wds w with count := 0 } := by
          simp only [St.setWd]; rw [upd_same]
        have r1 := R.filter; have r2 := R.recu; have r3 := R.path; have r4 := R.count; have r5 := R.up
        rw [hF] at r1 r2 r3 r4 r5
        simp only [h3] at r1 r2 r3 r4 r5
        rw [rewatch_clear h4] at r1
        refine ⟨R.base, fun w' h9 => ?_, ?_⟩
        · have h9' : w' < s.nw := by rw [R.nw] at h9; exact h9
          by_cases e' : w' = w
          · subst e'
            refine .up (stRewatch ||| e) e ?_ ?_ r1 h4 ?_ (rewatch_clear h4) ?_ r5 r4
            · rw [r3, R.m]; exact h1
            · rw [r3, r2]; exact h2
            · rintro rfl; revert h5; decide
            · rw [hasFile_rewatch, h5]
          · refine (hrest 0 w' h9' e').frame id (R.wds w' e') ?_ (fun _ => rfl) fun x hx => ?_
            · rw [R.m]
            · have hx' : x ∈ (s.wds w').slots := by
                simp only [St.setWd] at hx; rw [upd_ne _ _ e'] at hx; exact hx
              have h10 := R.rest x (hi.base.slot w' h9' x hx').1 (by
                rw [hF]
                intro hxw
                exact e' (slot_parent hi.base h9' hw hx' hxw))
              exact ⟨h10.1, fun _ => h10.2, fun _ => pend_of h10.2 R.loop⟩
        · intro p hp
          rw [R.m] at hp
          exact hi.none' p hp
      · rw [if_neg hz] at h
        cases h
        refine ⟨hcount _, fun w' h9 => ?_, hi.none'⟩
        by_cases e' : w' = w
        · subst e'
          have hF : ∀ c, ({ s with loop := .idle }.setWd w' { s.wds w' with count := c }).wds w' = { s.wds w' with count := c } := by
            intro c; simp only [St.setWd]; rw [upd_same]
          have hsp : sump ({ s with loop := .idle }.setWd w' { s.wds w' with count := (s.wds w').count - 1 }) w' =
              sump { s with loop := .idle } w' := by
            unfold sump; rw [hF]; rfl
          refine .re e ?_ ?_ ?_ h4 h5 ?_ ?_ ?_
          · rw [hF]; exact h1
          · rw [hF]; exact h2
          · rw [hF]; exact h3
          · rw [hF]; exact h6
          · rw [hsp, hF]; exact hc1
          · rw [hsp, ← hc1]
            rcases Nat.eq_zero_or_pos ((s.wds w').count - 1).toNat with hn | hn
            · exact absurd (BitVec.eq_of_toNat_eq hn) hz
            · exact hn
        · exact hrest _ w' h9 e'
    | un F h1 h2 h3 h4 h5 hD =>
      rw [h3, if_neg (by decide)] at h
      by_cases hz : (s.wds w).count - 1 = 0
      · rw [if_pos hz, if_neg (by decide), if_pos rfl] at h
        rw [hz] at h
        obtain ⟨b1, b2, -, b4, b5, b6, b7, b8, b9⟩ := closeHandle_base (hcount 0) (w := w) hw
        cases h
        generalize hs1 : { s with loop := .idle }.setWd w { s.wds w with count := 0 } = s1 at b1 b2 b4 b5 b6 b7 b8 b9 ⊢
        have hF : s1.wds w = { s.wds w with count := 0 } := by rw [← hs1]; simp only [St.setWd]; rw [upd_same]
        have hF' : ∀ w', w' ≠ w → s1.wds w' = s.wds w' := by
          intro w' h; rw [← hs1]; simp only [St.setWd]; rw [upd_ne _ _ h]
        have hm1 : s1.m = s.m := by rw [← hs1]; rfl
        have hn1 : s1.nw = s.nw := by rw [← hs1]; rfl
        have ht1 : ∀ x, tok s1 x = tok s x := by intro x; rw [← hs1]; exact ht0 x
        have hl1 : s1.loop = .idle := by rw [← hs1]; rfl
        have hg1 : s1.grips = s.grips := by rw [← hs1]; rfl
        have hpd : ∀ x, pend { (closeHandle s1 w).1 with m := (closeHandle s1 w).1.m.del (s.grips g).path } x = tok s x := by
          intro x
          have : pend { (closeHandle s1 w).1 with m := (closeHandle s1 w).1.m.del (s.grips g).path } x =
            pend (closeHandle s1 w).1 x := rfl
          rw [this]
          unfold pend
          rw [b2, b8, hl1, ht1]
          simp
        refine ⟨⟨b1.rd, b1.tok, b1.inj, b1.open', b1.closed, b1.own, b1.slot, b1.nd, ?_⟩, fun w' h9 => ?_, ?_⟩
        · intro p w' hp
          simp only at hp
          rw [GoMap.get?_del] at hp
          split at hp
          · cases hp
          · exact b1.tab p w' hp
        · have h9' : w' < s.nw := by
            have : w' < (closeHandle s1 w).1.nw := h9
            rw [b5, hn1] at this; exact this
          by_cases e' : w' = w
          · subst e'
            refine .gone ?_ ?_ (.inr ⟨?_, .inl ⟨?_, ?_⟩⟩) hD
            · simp only; rw [b4, hF, b7, hm1, GoMap.get?_del, hpath]; simp
            · simp only; rw [b4, hF]
              intro x hx
              rw [b9, if_pos (by rw [hF]; exact hx)]
            · simp only; rw [b4, hF]; exact h3
            · simp only; rw [b4, hF]
            · unfold sump
              refine Nat.le_trans (sum_le_len fun x _ => ?_) (slots_len _)
              rw [hpd]; exact hi.base.tok x
          · have hc' := hi.cls w' h9'
            have hwd : (closeHandle s1 w).1.wds w' = s.wds w' := by rw [b4, hF' w' e']
            refine hc'.frame id hwd ?_ (fun _ => rfl) fun x hx => ?_
            · simp only; rw [b7, hm1, GoMap.get?_del]
              split
              · rename_i e2
                constructor
                · intro h; cases h
                · intro h
                  rw [← hpath] at h1
                  rw [← e2, h1] at h
                  exact absurd (Option.some.inj h).symm e'
              · exact Iff.rfl
            · have hxw : x ∉ (s1.wds w).slots := by
                rw [hF]
                intro hxw
                exact e' (slot_parent hi.base h9' hw hx hxw)
              refine ⟨?_, fun _ => ?_, fun _ => ?_⟩
              · simp only; rw [b9, if_neg hxw, hg1]
              · exact (b2 x).trans (ht1 x)
              · rw [hpd]
                have hxg := hoth w' h9' e' x hx
                rw [hp0 x hxg]
                unfold pend
                rw [ht0]; simp
        · intro p hp
          simp only at hp
          rw [b7, hm1, GoMap.get?_del] at hp
          split at hp
          · rename_i e2
            rw [← e2, hpath]; exact h2
          · exact hi.none' p hp
      · rw [if_neg hz] at h
        cases h
        refine ⟨hcount _, fun w' h9 => ?_, hi.none'⟩
        by_cases e' : w' = w
        · subst e'
          have hF : ∀ c, ({ s with loop := .idle }.setWd w' { s.wds w' with count := c }).wds w' = { s.wds w' with count := c } := by
            intro c; simp only [St.setWd]; rw [upd_same]
          refine .un F ?_ ?_ ?_ h4 ?_ hD
          · rw [hF]; exact h1
          · rw [hF]; exact h2
          · rw [hF]; exact h3
          · exact h5.frame (fun i => by rw [hF]; cases i <;> rfl) (by rw [hF]) fun x _ => ⟨rfl, ht0 x⟩
        · exact hrest _ w' h9 e'
    | gone h1 h2 h3 hD =>
      rcases h3 with h3 | ⟨h3, h4⟩
      · rw [h3, if_pos rfl] at h
        cases h
        exact hplain (.gone h1 h2 (.inl h3) hD)
      · rw [h3, if_neg (by decide)] at h
        have hlt := (s.wds w).count.isLt
        have hval : ((s.wds w).count - 1).toNat = ((s.wds w).count.toNat + 255) % 256 := by
          rw [BitVec.toNat_sub]
          simp
          omega
        have hbig : 254 + sump { s with loop := .idle } w ≤ ((s.wds w).count - 1).toNat := by
          rw [hval]
          rcases h4 with ⟨h4, h5⟩ | h4
          · rw [h4]; simp; omega
          · omega
        have hz : ¬ (s.wds w).count - 1 = 0 := by
          intro hz
          rw [hz] at hbig
          simp at hbig
        rw [if_neg hz] at h
        cases h
        refine ⟨hcount _, fun w' h9 => ?_, hi.none'⟩
        by_cases e' : w' = w
        · subst e'
          have hF : ∀ c, ({ s with loop := .idle }.setWd w' { s.wds w' with count := c }).wds w' = { s.wds w' with count := c } := by
            intro c; simp only [St.setWd]; rw [upd_same]
          have hsp : sump ({ s with loop := .idle }.setWd w' { s.wds w' with count := (s.wds w').count - 1 }) w' =
              sump { s with loop := .idle } w' := by
            unfold sump; rw [hF]; rfl
          refine .gone ?_ ?_ (.inr ⟨?_, .inr ?_⟩) hD
          · rw [hF]; exact h1
          · rw [hF]; exact h2
          · rw [hF]; exact h3
          · rw [hsp, hF]; exact hbig
        · exact hrest _ w' h9 e'
  · cases h; exact hi

/-! ### Calls -/

theorem Base.newWd {s : St} (hb : Base s) (wd : Wd) (hs : wd.slots = []) : Base { s.setWd s.nw wd with nw := s.nw + 1 } := by
  refine ⟨hb.rd, hb.tok, hb.inj, hb.open', hb.closed, ?_, ?_, ?_, ?_⟩
  · intro x hx
    have h1 := hb.own x hx
    simp only [St.setWd]
    refine ⟨by omega, ?_⟩
    rw [upd_ne _ _ (by omega)]; exact h1.2
  · intro w' hw' x hx
    simp only [St.setWd] at hx hw' ⊢
    by_cases e : w' = s.nw
    · subst e; rw [upd_same, hs] at hx; cases hx
    · rw [upd_ne _ _ e] at hx ⊢; exact hb.slot _ (by omega) x hx
  · intro w' hw'
    simp only [St.setWd] at hw' ⊢
    by_cases e : w' = s.nw
    · subst e; rw [upd_same, hs]; exact List.nodup_nil
    · rw [upd_ne _ _ e]; exact hb.nd _ (by omega)
  · intro q w' hq
    have h1 := hb.tab q w' hq
    simp only [St.setWd]
    refine ⟨by omega, ?_⟩
    rw [upd_ne _ _ (by omega)]; exact h1.2

theorem Inv.watch {s : St} {f : Path → Option (Event × Bool)} {D : Prop} (hi : Inv s f D) {p : Path} {e : Event} {isrec : Bool} {a0 a1 : Ans}
    (hl : LegalOp f (.watch p e isrec true)) (hm : s.m.get? p = none) (h0 : a0.Calm) (h1 : a1.Calm) :
    Inv (watch s p e isrec a0 a1).1 (askedStep f (.watch p e isrec (watch s p e isrec a0 a1).2))
      (D ∨ (watch s p e isrec a0 a1).2 = false) := by
  obtain ⟨hfp, hne, hv⟩ := hl
  unfold Dcw.watch
  rw [if_pos hv, hm]
  simp only
  generalize hs1 : { s.setWd s.nw { filter := e, recursive := isrec, path := p } with nw := s.nw + 1 } = s1
  have hb1 : Base s1 := by rw [← hs1]; exact Base.newWd hi.base _ rfl
  have hF : s1.wds s.nw = { filter := e, recursive := isrec, path := p } := by
    rw [← hs1]; simp only [St.setWd]; rw [upd_same]
  have hF' : ∀ w', w' < s.nw → s1.wds w' = s.wds w' := by
    intro w' h; rw [← hs1]; simp only [St.setWd]; rw [upd_ne _ _ (by omega)]
  have hm1 : s1.m = s.m := by rw [← hs1]; rfl
  have hn1 : s1.nw = s.nw + 1 := by rw [← hs1]
  have hng : s1.ng = s.ng := by rw [← hs1]; rfl
  have ht1 : ∀ x, tok s1 x = tok s x := by intro x; rw [← hs1]; rfl
  have hp1 : ∀ x, pend s1 x = pend s x := by intro x; rw [← hs1]; rfl
  have hg1 : s1.grips = s.grips := by rw [← hs1]; rfl
  have hlt : s.nw < s1.nw := by omega
  have hslot : (s1.wds s.nw).slots = [] := by rw [hF]; rfl
  rcases recreate_calm hb1 hlt (by rw [hF]) hslot (by rw [hF]; exact (C58_accepted e hv).2.2.1) h0 h1 with
    ⟨s2, hr, R⟩ | ⟨s2, hr, R⟩
  · rw [hr]
    simp only [if_true]
    have r1 := R.filter; have r2 := R.recu; have r3 := R.path; have r4 := R.count; have r5 := R.up
    rw [hF] at r1 r2 r3 r4 r5
    simp only at r1 r2 r3 r4 r5
    rw [valid_clear hv] at r1
    have hget : ∀ q, (s2.m.set p s.nw).get? q = if q = p then some s.nw else s.m.get? q := by
      intro q; rw [R.m, hm1, GoMap.get?_set]
      by_cases e : q = p
      · rw [if_pos e, if_pos e.symm]
      · rw [if_neg e, if_neg fun h => e h.symm]
    refine ⟨⟨R.base.rd, R.base.tok, R.base.inj, R.base.open', R.base.closed, R.base.own, R.base.slot, R.base.nd, ?_⟩, fun w' h9 => ?_, ?_⟩
    · intro q w' hq
      simp only at hq ⊢
      rw [hget] at hq
      split at hq
      · rename_i e1
        cases hq
        rw [R.nw, e1]; exact ⟨hlt, r3⟩
      · have h2 := hi.base.tab q w' hq
        rw [R.nw]
        refine ⟨by omega, ?_⟩
        rw [R.wds w' (by omega), hF' w' h2.1]; exact h2.2
    · simp only at h9
      rw [R.nw, hn1] at h9
      by_cases e1 : w' = s.nw
      · subst e1
        refine .up e e ?_ ?_ r1 hv hne (valid_clear hv) rfl r5 r4
        · simp only; rw [r3, hget, if_pos rfl]
        · simp only; rw [r3, r2]; simp [askedStep]
      · have h9' : w' < s.nw := by omega
        refine (hi.cls w' h9').frame .inl (R.wds w' e1 |>.trans (hF' w' h9')) ?_ ?_ fun x hx => ?_
        · simp only
          rw [hget]
          split
          · rename_i e2
            rw [e2, hm]
            constructor
            · intro h; exact absurd (Option.some.inj h).symm e1
            · intro h; cases h
          · exact Iff.rfl
        · intro h
          simp only [askedStep]
          rw [if_neg]
          intro e2
          rw [e2, hm] at h; cases h
        · have h10 := R.rest x (by rw [hng]; exact (hi.base.slot w' h9' x hx).1) (by rw [hslot]; simp)
          exact ⟨h10.1.trans (by rw [hg1]), fun _ => h10.2.trans (ht1 x), fun _ => (pend_of h10.2 R.loop).trans (hp1 x)⟩
    · intro q hq
      simp only at hq
      rw [hget] at hq
      split at hq
      · cases hq
      · rename_i e1
        simp only [askedStep]
        rw [if_neg e1]; exact hi.none' q hq
  · rw [hr]
    simp only [Bool.false_eq_true, if_false]
    have r1 := R.filter; have r3 := R.path
    rw [hF] at r1 r3
    simp only at r1 r3
    refine ⟨R.base, fun w' h9 => ?_, ?_⟩
    · rw [R.nw, hn1] at h9
      by_cases e1 : w' = s.nw
      · subst e1
        refine .gone ?_ R.down (.inl ?_) (.inr (by simp))
        · rw [r3, R.m, hm1, hm]; simp
        · rw [r1]; exact valid_states hv
      · have h9' : w' < s.nw := by omega
        refine (hi.cls w' h9').frame .inl (R.wds w' e1 |>.trans (hF' w' h9')) ?_ (fun _ => rfl) fun x hx => ?_
        · rw [R.m, hm1]
        · have h10 := R.rest x (by rw [hng]; exact (hi.base.slot w' h9' x hx).1) (by rw [hslot]; simp)
          exact ⟨h10.1.trans (by rw [hg1]), fun _ => h10.2.trans (ht1 x), fun _ => (pend_of h10.2 R.loop).trans (hp1 x)⟩
    · intro q hq
      rw [R.m, hm1] at hq
      exact hi.none' q hq

/-- A watched path has an entry, which is ready or waits to be opened again. -/
theorem Inv.ask {s : St} {f : Path → Option (Event × Bool)} {D : Prop} (hi : Inv s f D) {p : Path} {e : Event} {r : Bool} (h : f p = some (e, r)) :
    ∃ w, w < s.nw ∧ s.m.get? p = some w ∧ (s.wds w).path = p ∧ (s.wds w).recursive = r ∧ valid e = true ∧
      (((s.wds w).filter = e ∧ e ≠ 0 ∧ ∃ F, F &^ onlyStates = e ∧ hasFile F = hasFile e ∧ Up s w F ∧ (s.wds w).count = cnt F) ∨
        ((s.wds w).filter = stRewatch ||| e ∧ 0 < sump s w ∧ ∀ g ∈ (s.wds w).slots, (s.grips g).handle = none)) := by
  cases hm : s.m.get? p with
  | none => rw [hi.none' p hm] at h; cases h
  | some w =>
    obtain ⟨hw, hp⟩ := hi.base.tab p w hm
    refine ⟨w, hw, rfl, hp, ?_⟩
    have hc := hi.cls w hw
    cases hc with
    | up F e' h1 h2 h3 h4 h5 h6 h7 h8 h9 =>
      rw [hp, h] at h2
      have := Option.some.inj h2
      simp only [Prod.mk.injEq] at this
      obtain ⟨rfl, rfl⟩ := this
      exact ⟨rfl, h4, .inl ⟨h3, h5, F, h6, h7, h8, h9⟩⟩
    | re e' h1 h2 h3 h4 h5 h6 h7 h8 =>
      rw [hp, h] at h2
      have := Option.some.inj h2
      simp only [Prod.mk.injEq] at this
      obtain ⟨rfl, rfl⟩ := this
      exact ⟨rfl, h4, .inr ⟨h3, h8, h6⟩⟩
    | un F h1 h2 h3 h4 h5 hD => rw [hp, h] at h2; cases h2
    | gone h1 h2 h3 hD => rw [hp] at h1; exact absurd hm h1

theorem Up.sum {s : St} {w : Nat} {F : Event} (hu : Up s w F) (hl : ∀ g ∈ (s.wds w).slots, s.loop ≠ .st g) :
    sump s w = (cnt F).toNat := by
  have h1 : sump s w = (s.wds w).slots.length := by
    unfold sump
    have : (s.wds w).slots.map (pend s) = (s.wds w).slots.map (fun _ => 1) := List.map_congr_left fun g hg => by
      obtain ⟨_, _, _, _, _, _, _, ht⟩ := hu.handle hg
      unfold pend
      rw [ht, if_neg (hl g hg)]
    rw [this]
    generalize (s.wds w).slots = l
    induction l with
    | nil => rfl
    | cons a l ih => simp only [List.map_cons, List.sum_cons, List.length_cons, ih]; omega
  rw [h1]
  unfold cnt Wd.slots
  have h0 := hu false
  have h2 := hu true
  simp only [has, Wd.slot] at h0 h2
  rcases h0 with ⟨a, b⟩ | ⟨a, g, h, b, _⟩ <;> rcases h2 with ⟨c, d⟩ | ⟨c, g', h', d, _⟩ <;> rw [a, b, c, d] <;> simp

theorem Inv.rewatch {s : St} {f : Path → Option (Event × Bool)} {D : Prop} (hi : Inv s f D) {p : Path} {old new : Event} {isrec : Bool} {s' : St}
    {ok : Bool} (hl : LegalOp f (.rewatch p old new isrec true)) (hn : new &^ dirName ≠ 0)
    (hr : ∀ g, s.loop = .st g → s.m.get? p ≠ some (s.grips g).parent) (h : rewatch s p old new isrec = some (s', ok)) :
    Inv s' (askedStep f (.rewatch p old new isrec ok)) D := by
  obtain ⟨hfp, hne, hv⟩ := hl
  unfold Dcw.rewatch at h
  rw [if_pos hv] at h
  cases hfe : f p with
  | none => rw [hfe] at hfp; cases hfp
  | some er =>
    obtain ⟨e, r⟩ := er
    rw [hfe] at hfp
    have hoe : e = old := Option.some.inj hfp
    obtain ⟨w, hw, hm, hp, hrec, hve, hc⟩ := hi.ask hfe
    unfold nonState at h
    rw [hm] at h
    rcases hc with ⟨h3, -, F, h6, h7, h8, h9⟩ | ⟨h3, -, -⟩
    · have hst : ¬ (s.wds w).filter &&& onlyStates ≠ 0 := by rw [h3, valid_states hve]; exact fun h => h rfl
      simp only [if_neg hst] at h
      rw [if_pos (by rw [h3, valid_old hve, hoe])] at h
      generalize hs1 : s.setWd w { s.wds w with filter := stRewatch ||| new, recursive := isrec } = s1 at h
      have hb1 : Base s1 := by rw [← hs1]; exact Base.setWd hi.base w _ rfl rfl
      have hF : s1.wds w = { s.wds w with filter := stRewatch ||| new, recursive := isrec } := by
        rw [← hs1]; simp only [St.setWd]; rw [upd_same]
      have hF' : ∀ w', w' ≠ w → s1.wds w' = s.wds w' := by
        intro w' h; rw [← hs1]; simp only [St.setWd]; rw [upd_ne _ _ h]
      have hm1 : s1.m = s.m := by rw [← hs1]; rfl
      have hn1 : s1.nw = s.nw := by rw [← hs1]; rfl
      have ht1 : ∀ x, tok s1 x = tok s x := by intro x; rw [← hs1]; rfl
      have hl1 : s1.loop = s.loop := by rw [← hs1]; rfl
      have hg1 : s1.grips = s.grips := by rw [← hs1]; rfl
      obtain ⟨b1, b2, b3, b4, b5, b6, b7, b8, b9⟩ := closeHandle_base hb1 (w := w) (by rw [hn1]; exact hw)
      rw [if_pos b3] at h
      cases h
      have hpd : ∀ x, pend (closeHandle s1 w).1 x = pend s x := fun x => pend_of ((b2 x).trans (ht1 x)) (b8.trans hl1)
      have hsum : sump (closeHandle s1 w).1 w = sump s w := sump_congr (by rw [b4, hF]; rfl) fun x _ => hpd x
      have hnl : ∀ g ∈ (s.wds w).slots, s.loop ≠ .st g := by
        intro g hg hlg
        exact hr g hlg (by rw [(hi.base.slot w hw g hg).2.1]; exact hm)
      have hsc := h8.sum hnl
      have hff : hasFile new = true := decide_eq_true hn
      refine ⟨b1, fun w' h10 => ?_, ?_⟩
      · rw [b5, hn1] at h10
        by_cases e' : w' = w
        · subst e'
          refine .re new ?_ ?_ ?_ hv hff ?_ ?_ ?_
          · rw [b4, hF, b7, hm1]; simp only; rw [hp]; exact hm
          · rw [b4, hF]; simp only [askedStep]; rw [if_pos hp]
          · rw [b4, hF]
          · intro x hx
            rw [b4] at hx
            rw [b9, if_pos hx]
          · rw [hsum, b4, hF]; simp only; rw [h9, hsc]
          · rw [hsum]
            obtain ⟨g, hg⟩ : ∃ g, g ∈ (s.wds w').slots := by
              have hhas : hasFile F = true ∨ hasDir F = true := by
                have h0 : e ≠ 0 := by
                  rintro rfl
                  cases hc : hi.cls w' hw with
                  | up F' e' h1 h2 h3' h4 h5 => exact h5 (h3'.symm.trans h3)
                  | re e' h1 h2 h3' h4 h5 =>
                    rw [h3'] at h3
                    have := congrArg (fun x : Event => x.getLsbD 28) h3
                    simp only [BitVec.getLsbD_or, re_bits 28 (by decide)] at this
                    simp at this
                  | un F h1 h2 h3' => rw [h3] at h3'; revert h3'; decide
                  | gone h1 h2 h3' => rw [hp] at h1; exact h1 hm
                rcases (C58_accepted e hve).2.2.2 h0 with h | h
                · left; rw [h7]; exact h
                · right; rw [hasDir_st, h6]; exact h
              rcases hhas with h | h
              · rcases h8 false with ⟨h', _⟩ | ⟨_, g, _, hg, _⟩
                · simp only [has] at h'; rw [h] at h'; cases h'
                · exact ⟨g, mem_slots.2 ⟨_, hg⟩⟩
              · rcases h8 true with ⟨h', _⟩ | ⟨_, g, _, hg, _⟩
                · simp only [has] at h'; rw [h] at h'; cases h'
                · exact ⟨g, mem_slots.2 ⟨_, hg⟩⟩
            rcases Nat.eq_zero_or_pos (sump s w') with h | h
            · have h0 := sum_zero h g hg
              obtain ⟨_, _, _, _, _, _, _, ht⟩ := h8.handle hg
              unfold pend at h0
              omega
            · exact h
        · refine (hi.cls w' h10).frame id (by rw [b4, hF' w' e']) (by rw [b7, hm1]) ?_ fun x hx => ?_
          · intro h
            simp only [askedStep]
            rw [if_neg]
            intro e2
            rw [e2, hm] at h
            exact e' (Option.some.inj h).symm
          · have hxw : x ∉ (s1.wds w).slots := by
              rw [hF]
              intro hxw
              exact e' (slot_parent hi.base h10 hw hx hxw)
            exact ⟨by rw [b9, if_neg hxw, hg1], fun _ => (b2 x).trans (ht1 x), fun _ => hpd x⟩
      · intro q hq
        rw [b7, hm1] at hq
        simp only [askedStep]
        rw [if_neg]
        · exact hi.none' q hq
        · rintro rfl; rw [hm] at hq; cases hq
    · have hst : (s.wds w).filter &&& onlyStates ≠ 0 := by rw [h3, rewatch_states hve]; decide
      simp only [if_pos hst] at h
      cases h
      exact hi

theorem Inv.unwatch {s : St} {f : Path → Option (Event × Bool)} {D : Prop} (hi : Inv s f D) {p : Path} (hl : LegalOp f (.unwatch p true)) :
    Inv (unwatch s p false).1 (askedStep f (.unwatch p (unwatch s p false).2))
      (D ∨ (unwatch s p false).2 = true) := by
  cases hfe : f p with
  | none => exact absurd hfe hl
  | some er =>
    obtain ⟨e, r⟩ := er
    obtain ⟨w, hw, hm, hp, hrec, hve, hc⟩ := hi.ask hfe
    unfold Dcw.unwatch nonState
    rw [hm]
    rcases hc with ⟨h3, -, F, h6, h7, h8, h9⟩ | ⟨h3, -, -⟩
    · have hst : ¬ (s.wds w).filter &&& onlyStates ≠ 0 := by rw [h3, valid_states hve]; exact fun h => h rfl
      simp only [if_neg hst, Bool.false_eq_true, if_false]
      have hF : (s.setWd w { s.wds w with filter := (s.wds w).filter ||| stUnwatch }).wds w =
          { s.wds w with filter := (s.wds w).filter ||| stUnwatch } := by simp only [St.setWd]; rw [upd_same]
      refine ⟨Base.setWd hi.base w _ rfl rfl, fun w' h10 => ?_, ?_⟩
      · by_cases e' : w' = w
        · subst e'
          refine .un F ?_ ?_ ?_ (fun h => up_enc hve h6 h7 false h) ?_ (.inr (by simp))
          · rw [hF]; simp only; rw [hp]; exact hm
          · rw [hF]; simp only [askedStep]; rw [if_pos hp]
          · rw [hF]; simp only; rw [h3]; exact unwatch_states hve
          · exact h8.frame (fun i => by rw [hF]; cases i <;> rfl) (by rw [hF]) fun x _ => ⟨rfl, rfl⟩
        · refine (hi.cls w' h10).frame .inl (by simp only [St.setWd]; rw [upd_ne _ _ e']) Iff.rfl ?_ fun x hx => ⟨rfl, fun _ => rfl, fun _ => rfl⟩
          intro h
          simp only [askedStep]
          rw [if_neg]
          intro e2
          rw [e2, hm] at h
          exact e' (Option.some.inj h).symm
      · intro q hq
        simp only [askedStep]
        split
        · rfl
        · exact hi.none' q hq
    · have hst : (s.wds w).filter &&& onlyStates ≠ 0 := by rw [h3, rewatch_states hve]; decide
      simp only [if_pos hst]
      exact hi.mono .inl

theorem asked_snoc (l : List Op) (op : Op) : asked (l ++ [op]) = askedStep (asked l) op := by
  unfold asked; rw [List.foldl_append]; rfl

/-- Some `Unwatch` succeeded or some `Watch` failed. -/
def Dropped (l : List Op) : Prop := ∃ op ∈ l, (∃ p, op = .unwatch p true) ∨ ∃ p e r, op = .watch p e r false

theorem CHist.inv {l : List Op} {s : St} (h : CHist l s) : Inv s (asked l) (Dropped l) := by
  induction h with
  | nil =>
    have h := Inv.init
    exact ⟨h.base, fun w hw => absurd hw (Nat.not_lt_zero _), h.none'⟩
  | @snoc l s s' op _ hs ih =>
    rw [asked_snoc]
    have hold : Dropped l → Dropped (l ++ [op]) := fun ⟨o, h1, h2⟩ => ⟨o, List.mem_append_left _ h1, h2⟩
    cases hs with
    | watch p e r a0 a1 hl hm h0 h1 =>
      refine (ih.watch hl hm h0 h1).mono fun h => ?_
      rcases h with h | h
      · exact hold h
      · exact ⟨_, List.mem_append_right _ (List.mem_singleton.2 rfl), .inr ⟨p, e, r, by rw [h]⟩⟩
    | rewatch p o n r s' ok hl hn hr h => exact (ih.rewatch hl hn hr h).mono hold
    | unwatch p hl =>
      refine (ih.unwatch hl).mono fun h => ?_
      rcases h with h | h
      · exact hold h
      · exact ⟨_, List.mem_append_right _ (List.mem_singleton.2 rfl), .inl ⟨p, by rw [h]⟩⟩
    | complete r h => exact (ih.complete h).mono hold
    | take => exact ih.take.mono hold
    | again => exact ih.again.mono hold
    | state s' h => exact (ih.state h).mono hold

end Dcw
end Verif
