/-
C60-C63 for the executions of the Windows watcher in which calls follow the contract, nothing fails but opening a directory
in `Watch`, and the races of PropsReaddcw2 do not happen (`CHist`).
-/
import Verif.ReaddcwInv3

namespace Verif
namespace Dcw
open Platform (readdcw)

/-! ### What the kernel watches -/

theorem quiet_pend {s : St} (hq : Quiet s) (g : Nat) : pend s g = inUse s g := by
  unfold pend tok inUse
  rw [hq.1, hq.2]
  simp

/-- The reads for a path are those of the handles of its entry. -/
theorem reads_of {s : St} {f : Path → Option (Event × Bool)} {D : Prop} (hi : Inv s f D) {p : Path} {w : Nat}
    (hm : s.m.get? p = some w) {r : Read} (hr : r ∈ s.reads) : (s.grips r.g).path = p ↔ r.g ∈ (s.wds w).slots := by
  obtain ⟨hw, hp⟩ := hi.base.tab p w hm
  have hh := (hi.base.rd r hr).1
  constructor
  · intro hrp
    have ho := hi.base.own r.g (.inr (by rw [hh]; simp))
    have hs := hi.base.slot _ ho.1 r.g ho.2
    have hm' : s.m.get? (s.wds (s.grips r.g).parent).path = some (s.grips r.g).parent := by
      cases hi.cls _ ho.1 with
      | up F e h1 => exact h1
      | re e h1 => exact h1
      | un F h1 => exact h1
      | gone h1 h2 => rw [h2 _ ho.2] at hh; cases hh
    rw [← hs.2.2.1, hrp, hm] at hm'
    have := Option.some.inj hm'
    rw [this]; exact ho.2
  · intro h
    rw [(hi.base.slot w hw r.g h).2.2.1]; exact hp

/-- The reads for a path, as handles. -/
theorem reads_perm {s : St} {f : Path → Option (Event × Bool)} {D : Prop} (hi : Inv s f D) (hq : Quiet s) {p : Path} {w : Nat}
    (hm : s.m.get? p = some w) (hone : ∀ g ∈ (s.wds w).slots, tok s g = 1) :
    ((s.reads.filter fun r => decide ((s.grips r.g).path = p)).map (·.g)).Perm (s.wds w).slots := by
  rw [List.perm_iff_count]
  intro x
  obtain ⟨hw, hp⟩ := hi.base.tab p w hm
  have hcl : List.count x ((s.reads.filter fun r => decide ((s.grips r.g).path = p)).map (·.g)) =
      s.reads.countP (fun r => decide (r.g = x) && decide ((s.grips r.g).path = p)) := by
    rw [List.count, List.countP_map, List.countP_filter]
    apply List.countP_congr
    intro r _
    simp [Function.comp]
  rw [hcl]
  by_cases hx : x ∈ (s.wds w).slots
  · rw [(hi.base.nd w hw).count, if_pos hx]
    have h1 := hone x hx
    unfold tok at h1
    rw [hq.1, hq.2] at h1
    simp at h1
    rw [← h1]
    apply List.countP_congr
    intro r hr
    simp only [Bool.and_eq_true, decide_eq_true_eq]
    rw [reads_of hi hm hr]
    constructor
    · exact fun h => h.1
    · intro h; exact ⟨h, h ▸ hx⟩
  · rw [List.count_eq_zero.2 hx, List.countP_eq_zero]
    intro r hr
    simp only [Bool.and_eq_true, decide_eq_true_eq, not_and]
    rintro rfl
    rw [reads_of hi hm hr]; exact hx

/-- **C60 (partial).**  When everything reported is handled, the kernel watches for the set and the depth asked for last;
and nothing for a path that is not watched and whose last `Unwatch`, if any, has been carried out (`m` has no entry).
Missing: the executions of `C60_refuted`, `C60_dirname_refuted`, `C60_early_refuted` and `C60_unwatch_refuted`, and failures
of the kernel in the loop. -/
theorem C60_held_partial {ops : List Op} {s : St} (h : CHist ops s) (hq : Quiet s) (p : Path) :
    (∀ e r, asked ops p = some (e, r) → (held s p).Perm (wanted e r)) ∧
    (asked ops p = none → s.m.get? p = none → held s p = []) := by
  have hi := h.inv
  constructor
  · intro e r ha
    obtain ⟨w, hw, hm, hp, hrec, hv, hc⟩ := hi.ask ha
    rcases hc with ⟨hf, h0, F, hF, hh, hu, -⟩ | ⟨-, hpos, hd⟩
    · have hone : ∀ g ∈ (s.wds w).slots, tok s g = 1 := fun g hg => by
        obtain ⟨_, _, _, _, _, _, _, ht⟩ := hu.handle hg; exact ht
      have hperm := reads_perm hi hq hm hone
      have h1 : held s p = ((s.reads.filter fun r => decide ((s.grips r.g).path = p)).map (·.g)).map
          fun g => (encode (s.grips g).filter, (s.grips g).recursive) := by
        unfold held
        rw [List.map_map]
        apply List.map_congr_left
        intro r hr
        have := hi.base.rd r (List.mem_filter.1 hr).1
        simp only [Function.comp]
        rw [this.2.1, this.2.2]
      rw [h1]
      refine (hperm.map _).trans (List.Perm.of_eq ?_)
      have he0 := encode_filt_st false F
      have he1 := encode_filt_st true F
      have hd : hasDir F = hasDir e := by rw [hasDir_st, hF]
      rw [hF] at he0 he1
      have u0 := hu false
      have u1 := hu true
      simp only [has, Wd.slot, filt] at u0 u1 he0 he1
      rw [hh] at u0
      rw [hd] at u1
      unfold wanted Wd.slots
      rcases u0 with ⟨a, b⟩ | ⟨a, g, k, b, -, c, d, -⟩ <;> rcases u1 with ⟨a', b'⟩ | ⟨a', g', k', b', -, c', d', -⟩ <;>
        rw [a, b, a', b'] <;> simp only [Option.toList, List.map_append, List.map_cons, List.map_nil]
      · rfl
      · rw [c', d', he1, hrec]; rfl
      · rw [c, d, he0, hrec]; rfl
      · rw [c', d', he1, c, d, he0, hrec]; rfl
    · exfalso
      have hz : sump s w = 0 := by
        unfold sump
        have : (s.wds w).slots.map (pend s) = (s.wds w).slots.map fun _ => 0 := List.map_congr_left fun g hg => by
          rw [quiet_pend hq]
          unfold inUse
          rw [List.countP_eq_zero]
          intro r hr e
          have h1 := (hi.base.rd r hr).1
          have h2 : r.g = g := by simpa using e
          rw [h2, hd g hg] at h1
          cases h1
        rw [this]
        generalize (s.wds w).slots = l
        induction l with
        | nil => rfl
        | cons a l ih => simp only [List.map_cons, List.sum_cons, ih]
      omega
  · intro _ hm
    unfold held
    rw [List.map_eq_nil_iff, List.filter_eq_nil_iff]
    intro r hr hp
    have hrp : (s.grips r.g).path = p := by simpa using hp
    have hh := (hi.base.rd r hr).1
    have ho := hi.base.own r.g (.inr (by rw [hh]; simp))
    have hs := hi.base.slot _ ho.1 r.g ho.2
    have hm' : s.m.get? (s.wds (s.grips r.g).parent).path = some (s.grips r.g).parent := by
      cases hi.cls _ ho.1 with
      | up F e h1 => exact h1
      | re e h1 => exact h1
      | un F h1 => exact h1
      | gone h1 h2 => rw [h2 _ ho.2] at hh; cases hh
    rw [← hs.2.2.1, hrp, hm] at hm'
    cases hm'

/-! ### Memory -/

/-- **C61 (partial).**  At most one read is outstanding with the memory of a handle; and if no `Watch` failed and nothing was
unwatched, the memory is reachable as long as the kernel or the queue refers to it.
Missing: the executions of `C61_refuted` and `C61_drop_refuted`. -/
theorem C61_memory_partial {ops : List Op} {s : St} (h : CHist ops s) (g : Nat) :
    inUse s g ≤ 1 ∧ ((∀ p, Op.unwatch p true ∉ ops) → (∀ p e r, Op.watch p e r false ∉ ops) → Needed s g → Reachable s g) := by
  have hi := h.inv
  constructor
  · have h1 := hi.base.tok g
    unfold tok at h1
    unfold inUse
    omega
  · intro hu hw hn
    have hD : ¬ Dropped ops := by
      rintro ⟨op, h1, ⟨p, rfl⟩ | ⟨p, e, r, rfl⟩⟩
      · exact hu p h1
      · exact hw p e r h1
    have hpos : 0 < pend s g := by
      unfold pend tok
      rcases hn with ⟨r, h1, h2⟩ | h1
      · have : 0 < s.reads.countP fun r => decide (r.g = g) := List.countP_pos_iff.2 ⟨r, h1, decide_eq_true h2⟩
        omega
      · have := List.count_pos_iff.2 h1
        omega
    have ho := hi.base.own g (.inl hpos)
    have hm : s.m.get? (s.wds (s.grips g).parent).path = some (s.grips g).parent := by
      cases hi.cls _ ho.1 with
      | up F e h1 => exact h1
      | re e h1 => exact h1
      | un F h1 => exact h1
      | gone h1 h2 h3 hd => exact absurd hd hD
    obtain ⟨i, hg⟩ := mem_slots.1 ho.2
    refine .inl ⟨_, _, hm, ?_⟩
    cases i
    · exact .inl hg
    · exact .inr hg

/-! ### Calls -/

/-- **C62 (partial).**  No call that follows the contract panics, nor does the loop; and when everything reported is handled,
`Rewatch` and `Unwatch` succeed, and so does `Watch` if the kernel refuses nothing.
Missing: the executions of `C62_panic_refuted`, and calls before everything is handled (`C62_refuted`). -/
theorem C62_calls_partial {ops : List Op} {s : St} (h : CHist ops s) :
    (∀ p old new r, LegalOp (asked ops) (.rewatch p old new r true) → rewatch s p old new r ≠ none) ∧
    (∀ a0 a1, loopstate s a0 a1 ≠ none) ∧
    (Quiet s →
      (∀ p old new r, LegalOp (asked ops) (.rewatch p old new r true) → ∃ s', rewatch s p old new r = some (s', true)) ∧
      (∀ p gone, LegalOp (asked ops) (.unwatch p true) → (unwatch s p gone).2 = true) ∧
      (∀ p e r, LegalOp (asked ops) (.watch p e r true) → (watch s p e r {} {}).2 = true)) := by
  have hi := h.inv
  have key : ∀ p old new r, LegalOp (asked ops) (.rewatch p old new r true) →
      (∃ s', rewatch s p old new r = some (s', true)) ∨
      ((∃ s', rewatch s p old new r = some (s', false)) ∧ ∃ w, 0 < sump s w ∧ ∀ g ∈ (s.wds w).slots, (s.grips g).handle = none) := by
    intro p old new r ⟨hfp, hne, hv⟩
    cases hfe : asked ops p with
    | none => rw [hfe] at hfp; cases hfp
    | some er =>
      obtain ⟨e, r'⟩ := er
      rw [hfe] at hfp
      have hoe : e = old := Option.some.inj hfp
      obtain ⟨w, hw, hm, hp, hrec, hve, hc⟩ := hi.ask hfe
      unfold rewatch
      rw [if_pos hv]
      unfold nonState
      rw [hm]
      rcases hc with ⟨h3, -, F, h6, h7, h8, h9⟩ | ⟨h3, hpos, hd⟩
      · left
        have hst : ¬ (s.wds w).filter &&& onlyStates ≠ 0 := by rw [h3, valid_states hve]; exact fun h => h rfl
        simp only [if_neg hst]
        rw [if_pos (by rw [h3, valid_old hve, hoe])]
        obtain ⟨-, -, b3, -⟩ := closeHandle_base (s := s.setWd w { s.wds w with filter := stRewatch ||| new, recursive := r })
          (Base.setWd hi.base w _ rfl rfl) (w := w) hw
        rw [if_pos b3]
        exact ⟨_, rfl⟩
      · right
        have hst : (s.wds w).filter &&& onlyStates ≠ 0 := by rw [h3, rewatch_states hve]; decide
        simp only [if_pos hst]
        exact ⟨⟨_, rfl⟩, w, hpos, hd⟩
  have hno : Quiet s → ∀ w, 0 < sump s w → (∀ g ∈ (s.wds w).slots, (s.grips g).handle = none) → False := by
    intro hq w hpos hd
    have hz : sump s w = 0 := by
      unfold sump
      have : (s.wds w).slots.map (pend s) = (s.wds w).slots.map fun _ => 0 := List.map_congr_left fun g hg => by
        rw [quiet_pend hq]
        unfold inUse
        rw [List.countP_eq_zero]
        intro r hr e
        have h1 := (hi.base.rd r hr).1
        have h2 : r.g = g := by simpa using e
        rw [h2, hd g hg] at h1
        cases h1
      rw [this]
      generalize (s.wds w).slots = l
      induction l with
      | nil => rfl
      | cons a l ih => simp only [List.map_cons, List.sum_cons, ih]
    omega
  refine ⟨?_, ?_, fun hq => ⟨?_, ?_, ?_⟩⟩
  · intro p old new r hl
    rcases key p old new r hl with ⟨s', h1⟩ | ⟨⟨s', h1⟩, _⟩ <;> rw [h1] <;> simp
  · intro a0 a1
    unfold loopstate
    split
    · rename_i g hl
      simp only
      have hpos : 0 < pend s g := by unfold pend; rw [hl]; simp
      obtain ⟨hw, -⟩ := hi.base.own g (.inl hpos)
      cases hi.cls _ hw with
      | up F e h1 h2 h3 h4 => rw [h3, if_pos (valid_states h4)]; simp
      | re e h1 h2 h3 h4 =>
        rw [h3, rewatch_states h4, if_neg (by decide)]
        split
        · rw [if_pos rfl]; simp
        · simp
      | un F h1 h2 h3 =>
        rw [h3, if_neg (by decide)]
        split
        · rw [if_neg (by decide), if_pos rfl]; simp
        · simp
      | gone h1 h2 h3 =>
        rcases h3 with h3 | ⟨h3, -⟩
        · rw [h3, if_pos rfl]; simp
        · rw [h3, if_neg (by decide)]
          split
          · rw [if_neg (by decide), if_pos rfl]; simp
          · simp
    · simp
  · intro p old new r hl
    rcases key p old new r hl with h1 | ⟨_, w, h1, h2⟩
    · exact h1
    · exact (hno hq w h1 h2).elim
  · intro p gone hl
    cases hfe : asked ops p with
    | none => exact absurd hfe hl
    | some er =>
      obtain ⟨e, r'⟩ := er
      obtain ⟨w, hw, hm, hp, hrec, hve, hc⟩ := hi.ask hfe
      unfold unwatch nonState
      rw [hm]
      rcases hc with ⟨h3, -⟩ | ⟨h3, hpos, hd⟩
      · have hst : ¬ (s.wds w).filter &&& onlyStates ≠ 0 := by rw [h3, valid_states hve]; exact fun h => h rfl
        simp only [if_neg hst]
      · exact (hno hq w hpos hd).elim
  · rintro p e r ⟨-, hne, hv⟩
    unfold watch
    rw [if_pos hv]
    cases hm : s.m.get? p with
    | some w => rfl
    | none =>
      simp only
      obtain ⟨s', h1, -⟩ := recreate_ok (s := { s.setWd s.nw { filter := e, recursive := r, path := p } with nw := s.nw + 1 })
        (Base.newWd hi.base _ rfl) (w := s.nw) (by simp) (by simp only [St.setWd]; rw [upd_same])
        (by simp only [St.setWd]; rw [upd_same]; intro g hg; cases hg)
        (by simp only [St.setWd]; rw [upd_same]; exact (C58_accepted e hv).2.2.1)
      rw [h1]
      simp

/-- **C63 (partial).**  Every open handle belongs to an entry of the table, also after a `Watch` that failed because the
directory could not be opened.
Missing: other failures (`C63_refuted`). -/
theorem C63_noleak_partial {ops : List Op} {s : St} (h : CHist ops s) (k : Nat) (hk : k ∈ s.opened) :
    ∃ p w g, s.m.get? p = some w ∧ ((s.wds w).g0 = some g ∨ (s.wds w).g1 = some g) ∧ (s.grips g).handle = some k := by
  have hi := h.inv
  obtain ⟨g, hg⟩ := hi.base.closed k hk
  have ho := hi.base.own g (.inr (by rw [hg]; simp))
  have hm : s.m.get? (s.wds (s.grips g).parent).path = some (s.grips g).parent := by
    cases hi.cls _ ho.1 with
    | up F e h1 => exact h1
    | re e h1 => exact h1
    | un F h1 => exact h1
    | gone h1 h2 => rw [h2 _ ho.2] at hg; cases hg
  obtain ⟨i, hs⟩ := mem_slots.1 ho.2
  refine ⟨_, _, g, hm, ?_, hg⟩
  cases i
  · exact .inl hs
  · exact .inr hs

/-! ### Examples -/

/-- Whether a step with its answers is one of `CStep`. -/
def calm (f : Path → Option (Event × Bool)) (s : St) : Act → Bool
  | .watch p e r a0 a1 => decide (LegalOp f (.watch p e r true)) && (s.m.get? p).isNone && (a0.port && a0.read && !a0.early) &&
    (a1.port && a1.read && !a1.early)
  | .rewatch p old new r => decide (LegalOp f (.rewatch p old new r true)) && decide (new &^ dirName ≠ 0) &&
    (match s.loop with
      | .st g => decide (s.m.get? p ≠ some (s.grips g).parent)
      | _ => true)
  | .unwatch p gone => decide (LegalOp f (.unwatch p true)) && !gone
  | .complete _ => true
  | .take => true
  | .again ok => ok
  | .state a0 a1 => a0.create && a0.port && a0.read && !a0.early && (a1.create && a1.port && a1.read && !a1.early)

theorem ans_eq {a : Ans} (h : (a.create && a.port && a.read && !a.early) = true) : a = {} := by
  obtain ⟨c, p, r, e⟩ := a
  simp at h
  obtain ⟨⟨⟨rfl, rfl⟩, rfl⟩, rfl⟩ := h
  rfl

theorem run1_calm {f : Path → Option (Event × Bool)} {s s' : St} {a : Act} {op : Op} (hc : calm f s a = true)
    (h : run1 s a = some (s', op)) : CStep f s op s' := by
  cases a with
  | watch p e r a0 a1 =>
    cases h
    simp only [calm, Bool.and_eq_true, decide_eq_true_eq, Bool.not_eq_true', Option.isNone_iff_eq_none] at hc
    exact .watch _ _ _ _ _ hc.1.1.1 hc.1.1.2 ⟨hc.1.2.1.1, hc.1.2.1.2, hc.1.2.2⟩ ⟨hc.2.1.1, hc.2.1.2, hc.2.2⟩
  | unwatch p gone =>
    cases h
    simp only [calm, Bool.and_eq_true, decide_eq_true_eq, Bool.not_eq_true'] at hc
    rw [hc.2]
    exact .unwatch _ hc.1
  | take => cases h; exact .take
  | again ok =>
    cases h
    simp only [calm] at hc
    subst hc
    exact .again
  | rewatch p old new r =>
    simp only [run1, Option.map_eq_some_iff] at h
    obtain ⟨x, h1, h2⟩ := h
    cases h2
    simp only [calm, Bool.and_eq_true, decide_eq_true_eq] at hc
    refine .rewatch _ _ _ _ _ _ hc.1.1 hc.1.2 ?_ h1
    intro g hg
    have := hc.2
    rw [hg] at this
    exact of_decide_eq_true this
  | complete i =>
    simp only [run1, Option.map_eq_some_iff] at h
    obtain ⟨x, h1, h2⟩ := h
    cases h2
    exact .complete _ (List.mem_of_getElem? h1)
  | state a0 a1 =>
    simp only [run1, Option.map_eq_some_iff] at h
    obtain ⟨x, h1, h2⟩ := h
    cases h2
    simp only [calm] at hc
    rw [Bool.and_eq_true] at hc
    rw [ans_eq hc.1, ans_eq hc.2] at h1
    exact .state _ h1

/-- Runs the steps as long as they are steps of `CStep`. -/
def crun : List Act → St → List Op → Option (St × List Op)
  | [], s, ops => some (s, ops)
  | a :: l, s, ops =>
    if calm (asked ops) s a then
      match run1 s a with
      | none => none
      | some (s', op) => crun l s' (ops ++ [op])
    else none

theorem crun_hist : ∀ (l : List Act) {s : St} {ops : List Op} {x : St × List Op}, CHist ops s → crun l s ops = some x → CHist x.2 x.1
  | [], s, ops, x, hh, h => by cases h; exact hh
  | a :: l, s, ops, x, hh, h => by
    rw [crun] at h
    split at h
    · rename_i hc
      cases hr : run1 s a with
      | none => rw [hr] at h; cases h
      | some y =>
        rw [hr] at h
        exact crun_hist l (hh.snoc (run1_calm hc hr)) h
    · cases h

def cfinal (l : List Act) : St × List Op := (crun l .init []).getD (.init, [])

theorem cfinal_hist (l : List Act) : CHist (cfinal l).2 (cfinal l).1 := by
  unfold cfinal
  cases h : crun l .init [] with
  | none => exact .nil
  | some x => exact crun_hist l .nil h

namespace Ex3
open Ex2 (p round)

def q : Path := [['q']]

/-- Two directories are watched; the first has an event and is watched for another set; the second cannot be opened the first
time; the first is unwatched, and an event makes the loop forget it. -/
def la : List Act := [.watch p readdcw.create false {} {}, .watch q readdcw.write true { create := false } {},
  .watch q readdcw.write true {} {}, .complete 0] ++ round ++ [.rewatch p readdcw.create (readdcw.write ||| dirName) true] ++
  round ++ round

def lb : List Act := la ++ [.unwatch p false, .complete 1] ++ round ++ [.complete 1] ++ round ++ round ++ round

example : Quiet (cfinal la).1 ∧ asked (cfinal la).2 p = some (readdcw.write ||| dirName, true) ∧
    asked (cfinal la).2 q = some (readdcw.write, true) ∧ (held (cfinal la).1 p).length = 2 ∧ (held (cfinal la).1 q).length = 1 := by
  decide

/-- The first is unwatched and gone, the second is still watched. -/
example : Quiet (cfinal lb).1 ∧ asked (cfinal lb).2 p = none ∧ (cfinal lb).1.m.get? p = none ∧ held (cfinal lb).1 p = [] ∧
    (cfinal lb).1.opened.length = 1 ∧ asked (cfinal lb).2 q = some (readdcw.write, true) := by
  decide

/-- C60 for the example. -/
example : (held (cfinal la).1 p).Perm (wanted (readdcw.write ||| dirName) true) :=
  (C60_held_partial (cfinal_hist la) (by decide) p).1 _ _ (by decide)

/-- C61: between the calls the memory is in use, and reachable. -/
example : Reachable (cfinal (la.take 1)).1 0 ∧ inUse (cfinal (la.take 1)).1 0 = 1 := by
  refine ⟨(C61_memory_partial (cfinal_hist (la.take 1)) 0).2 ?_ ?_ (.inl ?_), by decide⟩
  · have : (cfinal (la.take 1)).2 = [.watch p readdcw.create false true] := by rfl
    rw [this]; simp
  · have : (cfinal (la.take 1)).2 = [.watch p readdcw.create false true] := by rfl
    rw [this]; simp
  · exact ⟨⟨0, 0, 1, false⟩, by decide, rfl⟩

/-- C62 for the example: another `Rewatch`. -/
example : ∃ s', rewatch (cfinal la).1 p (readdcw.write ||| dirName) readdcw.rename false = some (s', true) :=
  ((C62_calls_partial (cfinal_hist la)).2.2 (by decide)).1 _ _ _ _ (by decide)

/-- C63: an open handle after the `Watch` that failed. -/
example : (cfinal (la.take 2)).1.opened = [1, 0] ∧ (cfinal (la.take 2)).2 =
    [.watch p readdcw.create false true, .watch q readdcw.write true false] := ⟨by decide, by rfl⟩

end Ex3

end Dcw
end Verif
