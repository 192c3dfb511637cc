/-
The whole program on macOS (C96).
-/
import Verif.MacHold
import Verif.PropsLinux

namespace Verif
namespace Mac
open Linux (Free sigs isEv Gets)
open Rec (ROp SafeHist SafeSteps Safe rregOf Carries Rests Spares Named)
open Spec (Reg copies wants wantsBelow)
open Fsevents (stripVal created removed modified inodeMetaMod historyDone failure flag Inside splitflags)

/-! ### What a stream shows of a path -/

/-- What was last shown of a path: nothing, that it was created, that it was removed. -/
inductive Last
  | fresh
  | made
  | gone
  deriving DecidableEq

/-- What is last shown after a report with the flags `fl`, which FSEvents accumulates: a creation after a removal, a removal after a creation;
nothing if the first report has both. -/
def next : Last → Event → Last
  | .fresh, fl => if created ⊑ fl ∧ ¬ removed ⊑ fl then .made else if removed ⊑ fl ∧ ¬ created ⊑ fl then .gone else .fresh
  | .made, fl => if removed ⊑ fl then .gone else .made
  | .gone, fl => if created ⊑ fl then .made else .gone

/-- Whether the flag `F` of such a report is shown: not what was shown before, and with a removal no changes of contents or metadata. -/
def visible (F : Event) : Last → Event → Bool
  | .fresh, fl => decide (F ⊑ fl) && (decide (¬ (removed ⊑ fl ∧ ¬ created ⊑ fl)) || decide (F ≠ modified ∧ F ≠ inodeMetaMod))
  | .made, fl => decide (F ⊑ fl) && decide (F ≠ created) && (decide (¬ removed ⊑ fl) || decide (F ≠ modified ∧ F ≠ inodeMetaMod))
  | .gone, fl => decide (F ⊑ fl) && decide (F ≠ removed)

/-- How often `F` is shown in reports with these flags, oldest first. -/
def shows (F : Event) : Last → List Event → Nat
  | _, [] => 0
  | m, fl :: l => (if visible F m fl then 1 else 0) + shows F (next m fl) l

theorem shows_append (F : Event) (m : Last) (a b : List Event) : shows F m (a ++ b) = shows F m a + shows F (a.foldl next m) b := by
  induction a generalizing m with
  | nil => simp [shows]
  | cons x a ih => simp only [List.cons_append, shows, ih, List.foldl_cons]; omega

/-- Flags that are not about creation, removal or change are shown whenever they are reported. -/
theorem shows_plain {F : Event} (hF : F ≠ created ∧ F ≠ removed ∧ F ≠ modified ∧ F ≠ inodeMetaMod) (m : Last) (l : List Event) :
    shows F m l = l.countP fun fl => decide (F ⊑ fl) := by
  induction l generalizing m with
  | nil => rfl
  | cons fl l ih =>
    simp only [shows, ih, List.countP_cons]
    have : visible F m fl = decide (F ⊑ fl) := by
      cases m <;> simp [visible, hF.1, hF.2.1, hF.2.2.1, hF.2.2.2]
    rw [this]; omega

/-- Changes are shown whenever they are reported, as long as no removal is. -/
theorem shows_write {F : Event} (hF : F ≠ created) (m : Last) {l : List Event} (hl : ∀ fl ∈ l, ¬ removed ⊑ fl) :
    shows F m l = if F = removed then 0 else l.countP fun fl => decide (F ⊑ fl) := by
  induction l generalizing m with
  | nil => simp [shows]
  | cons fl l ih =>
    have h1 := hl fl (by simp)
    simp only [shows, ih _ fun y hy => hl y (by simp [hy]), List.countP_cons]
    by_cases hr : F = removed
    · subst hr
      have : visible removed m fl = false := by cases m <;> simp [visible, h1]
      simp [this]
    · have : visible F m fl = decide (F ⊑ fl) := by
        cases m <;> simp [visible, hF, h1, hr]
      rw [this]; simp [hr]; omega

def Last.of (e : Event) : Last := if e = created then .made else if e = removed then .gone else .fresh

theorem sub_flag {i : Nat} (hi : i < 32) (e : Event) : flag i ⊑ e ↔ e.getLsbD i = true := by
  constructor
  · intro h; exact h i ((Fsevents.bit_flag hi i).2 rfl)
  · intro h j hj; rw [(Fsevents.bit_flag hi j).1 hj]; exact h

theorem sub_created (e : Event) : created ⊑ e ↔ e.getLsbD 8 = true := sub_flag (i := 8) (by omega) e
theorem sub_removed (e : Event) : removed ⊑ e ↔ e.getLsbD 9 = true := sub_flag (i := 9) (by omega) e

theorem and_both (e : Event) : (e &&& (created ||| removed) = created ↔ e.getLsbD 8 = true ∧ e.getLsbD 9 = false) ∧
    (e &&& (created ||| removed) = removed ↔ e.getLsbD 9 = true ∧ e.getLsbD 8 = false) := by
  have hb : ∀ i, i < 32 → (e &&& (created ||| removed)).getLsbD i = (e.getLsbD i && (i == 8 || i == 9)) := by
    intro i hi; rw [BitVec.getLsbD_and, Fsevents.both_lit i hi]
  have hc : ∀ i, i < 32 → created.getLsbD i = (i == 8) := by decide
  have hr : ∀ i, i < 32 → removed.getLsbD i = (i == 9) := by decide
  constructor
  · constructor
    · intro h
      have h8 := hb 8 (by omega); have h9 := hb 9 (by omega)
      rw [h] at h8 h9
      rw [hc 8 (by omega)] at h8; rw [hc 9 (by omega)] at h9
      simp at h8 h9
      exact ⟨h8.symm ▸ rfl, h9⟩
    · rintro ⟨h8, h9⟩
      refine BitVec.eq_of_getLsbD_eq fun i hi => ?_
      rw [hb i hi, hc i hi]
      by_cases h1 : i = 8
      · subst h1; rw [h8]; rfl
      · by_cases h2 : i = 9
        · subst h2; rw [h9]; rfl
        · have e1 : (i == 8) = false := by simpa using h1
          have e2 : (i == 9) = false := by simpa using h2
          rw [e1, e2]; simp
  · constructor
    · intro h
      have h8 := hb 8 (by omega); have h9 := hb 9 (by omega)
      rw [h] at h8 h9
      rw [hr 8 (by omega)] at h8; rw [hr 9 (by omega)] at h9
      simp at h8 h9
      exact ⟨h9.symm ▸ rfl, h8⟩
    · rintro ⟨h9, h8⟩
      refine BitVec.eq_of_getLsbD_eq fun i hi => ?_
      rw [hb i hi, hr i hi]
      by_cases h1 : i = 8
      · subst h1; rw [h8]; rfl
      · by_cases h2 : i = 9
        · subst h2; rw [h9]; rfl
        · have e1 : (i == 8) = false := by simpa using h1
          have e2 : (i == 9) = false := by simpa using h2
          rw [e1, e2]; simp

/-- `strip` does this. -/
theorem strip_spec {i : Nat} (hi : i < 32) (prev fl : Event) :
    decide (flag i ⊑ (stripVal prev fl).1) = visible (flag i) (Last.of prev) fl ∧ Last.of (stripVal prev fl).2 = next (Last.of prev) fl := by
  have hc : ∀ i, i < 32 → created.getLsbD i = (i == 8) := by decide
  have hr : ∀ i, i < 32 → removed.getLsbD i = (i == 9) := by decide
  have hw := Fsevents.write_lit
  have f1 : (flag i = created) ↔ i = 8 := by
    constructor
    · intro h; have := (Fsevents.bit_flag hi 8).1 (by rw [h]; decide); exact this.symm
    · rintro rfl; rfl
  have f2 : (flag i = removed) ↔ i = 9 := by
    constructor
    · intro h; have := (Fsevents.bit_flag hi 9).1 (by rw [h]; decide); exact this.symm
    · rintro rfl; rfl
  have f3 : (flag i = modified) ↔ i = 12 := by
    constructor
    · intro h; have := (Fsevents.bit_flag hi 12).1 (by rw [h]; decide); exact this.symm
    · rintro rfl; rfl
  have f4 : (flag i = inodeMetaMod) ↔ i = 10 := by
    constructor
    · intro h; have := (Fsevents.bit_flag hi 10).1 (by rw [h]; decide); exact this.symm
    · rintro rfl; rfl
  have ne : removed ≠ created := by decide
  by_cases h1 : prev = created
  · subst h1
    unfold stripVal
    rw [if_pos rfl]
    have hb : (fl &^ created) &&& removed ≠ 0 ↔ fl.getLsbD 9 = true := by
      rw [Fsevents.removed_bit, Event.bit_andNot, hc 9 (by omega)]; simp
    by_cases h9 : fl.getLsbD 9 = true
    · simp only [if_pos (hb.2 h9), Last.of, ne, if_true, if_false, next, visible, sub_removed, h9, sub_flag hi, Event.bit_andNot, hc i hi, hw i hi, f1, f3, f4]
      refine ⟨?_, trivial⟩
      rw [Bool.eq_iff_iff]; simp [f1, f2, f3, f4]; try omega
    · simp only [if_neg (fun h => h9 (hb.1 h)), Last.of, if_true, next, visible, sub_removed, h9, sub_flag hi, Event.bit_andNot, hc i hi, f1, f3, f4]
      refine ⟨?_, by simp⟩
      rw [Bool.eq_iff_iff]; simp [f1, f2, f3, f4]
  · by_cases h2 : prev = removed
    · subst h2
      unfold stripVal
      rw [if_neg ne, if_pos rfl]
      have hb : (fl &^ removed) &&& created ≠ 0 ↔ fl.getLsbD 8 = true := by
        rw [Fsevents.created_bit, Event.bit_andNot, hr 8 (by omega)]; simp
      by_cases h8 : fl.getLsbD 8 = true
      · simp only [if_pos (hb.2 h8), Last.of, ne, if_true, if_false, next, visible, sub_created, h8, sub_flag hi, Event.bit_andNot, hr i hi, f2]
        refine ⟨?_, trivial⟩
        rw [Bool.eq_iff_iff]; simp [f1, f2, f3, f4]
      · simp only [if_neg (fun h => h8 (hb.1 h)), Last.of, ne, if_true, if_false, next, visible, sub_created, h8, sub_flag hi, Event.bit_andNot, hr i hi, f2]
        refine ⟨?_, by simp⟩
        rw [Bool.eq_iff_iff]; simp [f1, f2, f3, f4]
    · unfold stripVal
      rw [if_neg h1, if_neg h2]
      have ho : Last.of prev = .fresh := by simp [Last.of, h1, h2]
      rw [ho]
      obtain ⟨a1, a2⟩ := and_both fl
      by_cases h8 : fl.getLsbD 8 = true <;> by_cases h9 : fl.getLsbD 9 = true
      · rw [if_neg (fun h => by have := (a1.1 h).2; rw [h9] at this; cases this), if_neg (fun h => by have := (a2.1 h).2; rw [h8] at this; cases this)]
        simp only [ho, next, visible, sub_removed, sub_created, h8, h9, sub_flag hi]
        simp
      · rw [if_pos (a1.2 ⟨h8, by simpa using h9⟩)]
        simp only [Last.of, if_true, next, visible, sub_removed, sub_created, h8, h9, sub_flag hi]
        simp
      · rw [if_neg (fun h => h8 (a1.1 h).1), if_pos (a2.2 ⟨h9, by simpa using h8⟩)]
        simp only [Last.of, ne, if_true, if_false, next, visible, sub_removed, sub_created, h8, h9, sub_flag hi, Event.bit_andNot, hw i hi, f3, f4]
        refine ⟨?_, by simp⟩
        rw [Bool.eq_iff_iff]; simp [f1, f2, f3, f4]; try omega
      · rw [if_neg (fun h => h8 (a1.1 h).1), if_neg (fun h => h9 (a2.1 h).1)]
        simp only [ho, next, visible, sub_removed, sub_created, h8, h9, sub_flag hi]
        simp

/-! ### Signals that are due -/

section
variable {P : Platform} (K : Nat) (c : Nat) (f : EventInfo → Bool)

/-- Signals for `c` that the goroutine of an event still has to make. -/
def rest : Nat × EventInfo × Sched.Disp → Nat
  | (_, ei, .start) => if f ei then K else 0
  | (_, ei, .reading d _) => if f ei then K - d.count (.user c) else 0
  | (_, _, .handing) => 0

/-- Signals for `c` that are still to be made. -/
def due (s : Sched.State (Sched.recTree P)) : Nat := (s.disp.map (rest K c f)).sum + K * s.cq.countP f

/-- No goroutine has made or is about to make too many. -/
def Fit (s : Sched.State (Sched.recTree P)) : Prop :=
  ∀ i ei d a, (i, ei, Sched.Disp.reading d a) ∈ s.disp → f ei = true → d.count (.user c) + (if a = some (.user c) then 1 else 0) ≤ K

/-- A signal for `c`. -/
def isSig (x : Key × EventInfo) : Bool := decide (x.1 = .user c) && f x.2
end

theorem due_step {P : Platform} {K c : Nat} {f : EventInfo → Bool} {cfg : Sched.Cfg} {s s' : Sched.State (Sched.recTree P)} {l : Sched.Lab (Sched.recTree P).Req}
    (h : Sched.Tr (Sched.recTree P) cfg s l s') (hl : Free l) (hK : ∀ ei, f ei = true → ((Sched.recTree P).sends s.tree ei).count (.user c) = K) (hfit : Fit K c f s) :
    (sigs l).countP (isSig c f) + due K c f s' = due K c f s ∧ Fit K c f s' := by
  cases h with
  | report => exact hl.elim
  | push => exact hl.elim
  | effect => exact hl.elim
  | intEffect => exact hl.elim
  | spawn ei q hq =>
    constructor
    · simp only [sigs, due, hq, List.map_cons, List.sum_cons, List.countP_cons, rest, List.countP_nil]
      split <;> simp_all [Nat.mul_add] <;> omega
    · intro i ei' d a hm hf
      simp only [List.mem_cons, Prod.mk.injEq, reduceCtorEq, and_false, false_or] at hm
      exact hfit i ei' d a hm hf
  | rlock i ei a b hd hw hi hp =>
    constructor
    · simp [sigs, due, hd, rest]
    · intro i' ei' d' a' hm hf
      simp only [List.mem_append, List.mem_cons, Prod.mk.injEq, Sched.Disp.reading.injEq] at hm
      rcases hm with hm | ⟨_, _, rfl, rfl⟩ | hm
      · exact hfit i' ei' d' a' (by rw [hd]; simp [hm]) hf
      · simp
      · exact hfit i' ei' d' a' (by rw [hd]; simp [hm]) hf
  | pick i ei d k a b hd hk =>
    constructor
    · simp [sigs, due, hd, rest]
    · intro i' ei' d' a' hm hf
      simp only [List.mem_append, List.mem_cons, Prod.mk.injEq, Sched.Disp.reading.injEq] at hm
      rcases hm with hm | ⟨_, rfl, rfl, rfl⟩ | hm
      · exact hfit i' ei' d' a' (by rw [hd]; simp [hm]) hf
      · have := hK _ hf
        split
        · next hc =>
          cases hc
          rw [this] at hk
          omega
        · have := hfit i ei' d' none (by rw [hd]; simp) hf
          simpa using this
      · exact hfit i' ei' d' a' (by rw [hd]; simp [hm]) hf
  | send i ei d k a b hd =>
    have h1 := hfit i ei d (some k) (by rw [hd]; simp)
    constructor
    · simp only [sigs, due, hd, rest, isSig, List.map_append, List.map_cons, List.sum_append, List.sum_cons, List.countP_cons, List.countP_nil]
      by_cases hf : f ei = true
      · have h2 := h1 hf
        by_cases hk : k = .user c
        · subst hk
          simp only [if_true] at h2
          simp only [hf, if_true, List.count_cons_self, decide_true, Bool.and_self]
          omega
        · have h3 : (k :: d).count (.user c) = d.count (.user c) := List.count_cons_of_ne hk
          simp [hf, hk, h3]
      · simp [hf]
    · intro i' ei' d' a' hm hf
      simp only [List.mem_append, List.mem_cons, Prod.mk.injEq, Sched.Disp.reading.injEq] at hm
      rcases hm with hm | ⟨_, rfl, rfl, rfl⟩ | hm
      · exact hfit i' ei' d' a' (by rw [hd]; simp [hm]) hf
      · have h2 := h1 hf
        by_cases hk : k = .user c
        · subst hk
          simpa using h2
        · have h3 : (k :: d).count (.user c) = d.count (.user c) := List.count_cons_of_ne hk
          rw [h3]
          simp at h2 ⊢
          omega
      · exact hfit i' ei' d' a' (by rw [hd]; simp [hm]) hf
  | runlock i ei d a b hd hk hh =>
    constructor
    · have h0 : f ei = true → K - d.count (.user c) = 0 := by
        intro hf
        have := hk (.user c)
        rw [hK _ hf] at this
        omega
      simp only [sigs, due, hd, rest, List.map_append, List.map_cons, List.sum_append, List.sum_cons, List.countP_nil]
      split
      · next hf => rw [h0 hf]; omega
      · omega
    · intro i' ei' d' a' hm hf
      simp only [List.mem_append, List.mem_cons, Prod.mk.injEq, reduceCtorEq, and_false, false_or] at hm
      exact hfit i' ei' d' a' (by rw [hd]; rcases hm with hm | hm <;> simp [hm]) hf
  | fin i ei d a b hd hk hh =>
    constructor
    · have h0 : f ei = true → K - d.count (.user c) = 0 := by
        intro hf
        have := hk (.user c)
        rw [hK _ hf] at this
        omega
      simp only [sigs, due, hd, rest, List.map_append, List.map_cons, List.sum_append, List.sum_cons, List.countP_nil]
      split
      · next hf => rw [h0 hf]; omega
      · omega
    · intro i' ei' d' a' hm hf
      simp only [List.mem_append] at hm
      exact hfit i' ei' d' a' (by rw [hd]; rcases hm with hm | hm <;> simp [hm]) hf
  | handed i ei a b hd hc =>
    constructor
    · simp [sigs, due, hd, rest]
    · intro i' ei' d' a' hm hf
      simp only [List.mem_append] at hm
      exact hfit i' ei' d' a' (by rw [hd]; rcases hm with hm | hm <;> simp [hm]) hf
  | _ => exact ⟨by simp [sigs, due], hfit⟩

/-! ### One report -/

/-- A change of `x`, not the marker. -/
def about (x : Path) (r : Rep) : Bool := decide (r.path = x) && decide (r.flags &&& historyDone = 0) && decide (r.flags &&& wrapped = 0)

/-- What `base` is for `x` below `tp`. -/
def IsBase (tp x : Path) (b : PathStr.Str) : Prop := ({ path := PathStr.str tp, events := 0, isrec := true } : Fsevents.Watch).base (PathStr.str x) = some b

theorem base_fix {tp x : Path} {b b' : PathStr.Str} (hb : IsBase tp x b) {w : Fsevents.Watch} (hw : w.path = PathStr.str tp)
    (h : w.base (PathStr.str x) = some b') : b' = b := by
  have h1 := (Fsevents.base_iff _ _ _).1 hb
  have h2 := (Fsevents.base_iff _ _ _).1 h
  rw [hw] at h2
  simp only at h1
  rcases h1 with ⟨e1, rfl⟩ | ⟨e1, _⟩ <;> rcases h2 with ⟨e2, rfl⟩ | ⟨e2, _⟩
  · rfl
  · rw [e1] at e2
    have := congrArg List.length e2
    simp at this
  · rw [e1] at e2
    have := congrArg List.length e2
    simp at this
  · rw [e1] at e2
    simpa using List.append_cancel_left e2.symm

theorem no_slash {tp y : Path} (ht : PathStr.Comps tp) (hy : PathStr.Comps y) (hy0 : [] ∉ y) : PathStr.str y ≠ PathStr.str tp ++ ['/'] := by
  intro h
  have h1 : PathStr.str tp ++ ['/'] = PathStr.str (tp ++ [[]]) := by simp [PathStr.str, PathStr.sep]
  have h2 : PathStr.Comps (tp ++ [[]]) := PathStr.Comps.append.2 ⟨ht, by intro b hb; simp at hb; subst hb; simp⟩
  rw [h1] at h
  have := PathStr.str_inj hy h2 h
  rw [this] at hy0
  simp at hy0

theorem base_other {tp x y : Path} {b b' : PathStr.Str} (ht : PathStr.Comps tp) (hb : IsBase tp x b) {w : Fsevents.Watch} (hw : w.path = PathStr.str tp)
    (hx : PathStr.Comps x) (hx0 : [] ∉ x) (hy : PathStr.Comps y) (hy0 : [] ∉ y) (hne : y ≠ x) (h : w.base (PathStr.str y) = some b') : b' ≠ b := by
  rintro rfl
  have h1 := (Fsevents.base_iff _ _ _).1 hb
  have h2 := (Fsevents.base_iff _ _ _).1 h
  rw [hw] at h2
  simp only at h1
  rcases h1 with ⟨e1, h0⟩ | ⟨e1, _⟩ <;> rcases h2 with ⟨e2, h0'⟩ | ⟨e2, _⟩
  · exact hne (PathStr.str_inj hy hx (e2.trans e1.symm))
  · rw [h0] at e2; exact no_slash ht hy hy0 e2
  · rw [h0'] at e1; exact no_slash ht hx hx0 e1
  · exact hne (PathStr.str_inj hy hx (e2.trans e1.symm))

theorem count_split {i : Nat} (hi : i < 32) (e : Event) : (splitflags e).countP (fun f => decide (f = flag i)) = if flag i ⊑ e then 1 else 0 := by
  have hnd : (splitflags e).Nodup := by
    refine (Fsevents.C37_split e).2.1.imp fun {a b} h => ?_
    rintro rfl
    exact absurd h (by simp)
  by_cases h : flag i ⊑ e
  · rw [if_pos h]
    have hm : flag i ∈ splitflags e := Fsevents.mem_splitflags.2 ⟨i, hi, (sub_flag hi e).1 h, rfl⟩
    have : (splitflags e).count (flag i) = 1 := by rw [hnd.count, if_pos hm]
    rw [← this, List.count]
    apply List.countP_congr
    intro a _
    simp
  · rw [if_neg h, List.countP_eq_zero]
    intro a ha
    simp only [decide_eq_true_eq]
    rintro rfl
    obtain ⟨k, hk, hb, he⟩ := Fsevents.mem_splitflags.1 ha
    apply h
    rw [he, sub_flag hk]
    exact hb

theorem handle_path (w : Fsevents.Watch) (e : Event) (f : Bool) (r : Rep) : ∀ y ∈ (handle w e f r).2, y.path = r.path := by
  intro y hy
  unfold handle at hy
  simp only [List.mem_map] at hy
  obtain ⟨_, _, rfl⟩ := hy
  rfl

theorem handle_other {w : Fsevents.Watch} {e : Event} {f : Bool} {r : Rep} {F : Event} {x : Path} (h : r.path ≠ x) :
    (handle w e f r).2.countP (isEv F x) = 0 := by
  rw [List.countP_eq_zero]
  intro y hy
  have := handle_path w e f r y hy
  simp [isEv, this, h]

theorem handle_done {w : Fsevents.Watch} {e : Event} {f : Bool} {r : Rep} (h : r.flags &&& historyDone ≠ 0) :
    (handle w e f r).2 = [] ∧ (handle w e f r).1.prev = w.prev := by
  unfold handle Fsevents.Watch.dispatch1
  rw [if_pos h]
  exact ⟨rfl, rfl⟩

theorem handle_foreign {w : Fsevents.Watch} {e : Event} {f : Bool} {r : Rep} {F : Event} {p x : Path} (hr : r.Ok) (hp : PathStr.Comps p)
    (hw : w.path = PathStr.str p) (hx : ¬ p <+: x) : (handle w e f r).2.countP (isEv F x) = 0 := by
  by_cases h1 : r.path = x
  · by_cases h2 : r.flags &&& historyDone ≠ 0
    · rw [(handle_done h2).1]; rfl
    · have hc : PathStr.Comps r.path := (hr.resolve_left h2).2
      have hb : ({ w with events := e, isrec := f } : Fsevents.Watch).base (PathStr.str r.path) = none := by
        rcases hbb : ({ w with events := e, isrec := f } : Fsevents.Watch).base (PathStr.str r.path) with _ | b
        · rfl
        · have := (Fsevents.base_str { w with events := e, isrec := f } hp hc hw).1 ⟨b, hbb⟩
          rw [h1] at this
          exact absurd this.1 hx
      unfold handle
      simp only [Fsevents.dispatch1_eq, hb]
      simp
  · exact handle_other h1

theorem handle_flushed {w : Fsevents.Watch} {e : Event} {f : Bool} {r : Rep} :
    (handle w e f r).1.flushed = true ↔ w.flushed = true ∨ r.flags &&& historyDone ≠ 0 := by
  unfold handle
  exact Fsevents.dispatch1_flushed { w with events := e, isrec := f } ⟨PathStr.str r.path, r.flags⟩

theorem handle_prev (w : Fsevents.Watch) (e : Event) (f : Bool) (r : Rep) (b : PathStr.Str) :
    (handle w e f r).1.prev.get? b = w.prev.get? b ∨
    (r.flags &&& historyDone = 0 ∧ ({ w with events := e, isrec := f } : Fsevents.Watch).base (PathStr.str r.path) = some b) := by
  unfold handle Fsevents.Watch.dispatch1
  by_cases h1 : r.flags &&& historyDone ≠ 0
  · rw [if_pos h1]; exact .inl rfl
  rw [if_neg h1]
  by_cases h2 : w.flushed = false
  · rw [if_pos h2]; exact .inl rfl
  rw [if_neg h2]
  by_cases h3 : r.flags &&& Fsevents.failure ≠ 0 ∧ Fsevents.failure &&& e = 0
  · rw [if_pos h3]; exact .inl rfl
  rw [if_neg h3]
  rcases hb : ({ w with events := e, isrec := f } : Fsevents.Watch).base (PathStr.str r.path) with _ | b'
  · exact .inl rfl
  · by_cases he : b = b'
    · subst he; exact .inr ⟨by simpa using h1, rfl⟩
    · exact .inl (Fsevents.prev_strip_ne { w with events := e, isrec := f } he r.flags)

theorem handle_mine {w : Fsevents.Watch} {e : Event} {f : Bool} {r : Rep} {i : Nat} (hi : i < 32) {tp x : Path} {b : PathStr.Str}
    (htp : PathStr.Comps tp) (hx : PathStr.Comps x) (hb : IsBase tp x b) (hw : w.path = PathStr.str tp) (hin : Inside f tp x) (hfl : w.flushed = true)
    (he : flag i ⊑ e) (h1 : r.path = x) (h2 : r.flags &&& historyDone = 0) (h3 : r.flags &&& Fsevents.failure = 0) :
    (handle w e f r).2.countP (isEv (flag i) x) = (if visible (flag i) (Last.of ((w.prev.get? b).getD 0)) r.flags then 1 else 0) ∧
    Last.of (((handle w e f r).1.prev.get? b).getD 0) = next (Last.of ((w.prev.get? b).getD 0)) r.flags := by
  subst h1
  have hbase : ({ w with events := e, isrec := f } : Fsevents.Watch).base (PathStr.str r.path) = some b := by
    obtain ⟨b', hb'⟩ := (Fsevents.base_str { w with events := e, isrec := f } htp hx hw).2 hin
    rw [hb', base_fix hb (w := { w with events := e, isrec := f }) hw hb']
  obtain ⟨s1, s2⟩ := strip_spec hi ((w.prev.get? b).getD 0) r.flags
  constructor
  · unfold handle
    simp only [Fsevents.dispatch1_eq, hbase]
    rw [if_neg (by simp [h2, h3, hfl])]
    rw [List.map_map, List.countP_map, ← s1]
    have : (isEv (flag i) r.path ∘ (fun y : Fsevents.FSEvent × Event => info r y.2) ∘ fun f => (⟨PathStr.str r.path, r.flags⟩, f)) =
        fun f => decide (f = flag i) := by
      funext y
      simp [isEv, info]
    rw [this, count_split hi]
    simp only [Fsevents.strip_eq]
    by_cases hs : flag i ⊑ (stripVal ((w.prev.get? b).getD 0) r.flags).1
    · have h6 : flag i ⊑ (stripVal ((w.prev.get? b).getD 0) r.flags).1 &&& e := by
        intro j hj; rw [BitVec.getLsbD_and, hs j hj, he j hj]; rfl
      exact (if_pos h6).trans (if_pos (decide_eq_true hs)).symm
    · have h6 : ¬ flag i ⊑ (stripVal ((w.prev.get? b).getD 0) r.flags).1 &&& e := by
        intro h; apply hs; intro j hj; have := h j hj; rw [BitVec.getLsbD_and, Bool.and_eq_true] at this; exact this.1
      exact (if_neg h6).trans (if_neg (by simpa using hs)).symm
  · rw [← s2, ← Fsevents.prev_strip { w with events := e, isrec := f } b r.flags]
    congr 2
    unfold handle Fsevents.Watch.dispatch1
    rw [if_neg (not_not.2 h2), if_neg (by simp [hfl]), if_neg (fun h => h.1 h3)]
    simp only [hbase]

/-! ### The history is over -/

/-- FSEvents reported the end of the history for the stream `k`. -/
def Marked (k : Nat) (reps : List (Nat × List Rep)) : Prop :=
  ∃ batch, (k, batch) ∈ reps ∧ ∃ r ∈ batch, r.flags &&& historyDone ≠ 0 ∧ r.flags &&& wrapped = 0

structure Flushed (reps : List (Nat × List Rep)) (s : MSt) : Prop where
  le : ∀ k batch, (k, batch) ∈ reps → k ≤ s.str.i
  fl : ∀ k w, s.str.m.get? k = some w → Marked k reps → (s.heap w).flushed = true ∨
    ∃ b, s.cb = some b ∧ b.k = k ∧ b.w = w ∧ ∃ r ∈ b.evs, r.flags &&& historyDone ≠ 0

theorem Flushed.still {reps : List (Nat × List Rep)} {s s' : MSt} (h : Flushed reps s) (hi : s'.str.i = s.str.i) (hm : ∀ k w, s'.str.m.get? k = some w → s.str.m.get? k = some w)
    (hf : ∀ w, (s.heap w).flushed = true → (s'.heap w).flushed = true)
    (hc : ∀ b, s.cb = some b → (∃ r ∈ b.evs, r.flags &&& historyDone ≠ 0) →
      (s'.heap b.w).flushed = true ∨ ∃ b', s'.cb = some b' ∧ b'.k = b.k ∧ b'.w = b.w ∧ ∃ r ∈ b'.evs, r.flags &&& historyDone ≠ 0) : Flushed reps s' where
  le := by rw [hi]; exact h.le
  fl := by
    intro k w hk hr
    rcases h.fl k w (hm k w hk) hr with h1 | ⟨b, h1, rfl, rfl, h2⟩
    · exact .inl (hf w h1)
    · exact hc b h1 h2

theorem Flushed.step {cfg : Sched.Cfg} {base ops o : List ROp} {s s' : MSt} {reps r : List (Nat × List Rep)} {g : List (Key × EventInfo)}
    (hj : J base ops s) (hs : MStep cfg true s o r g s') (h : Flushed reps s) : Flushed (reps ++ r) s' := by
  have keep : ∀ b, s.cb = some b → (∃ r ∈ b.evs, r.flags &&& historyDone ≠ 0) →
      (s.heap b.w).flushed = true ∨ ∃ b', s.cb = some b' ∧ b'.k = b.k ∧ b'.w = b.w ∧ ∃ r ∈ b'.evs, r.flags &&& historyDone ≠ 0 :=
    fun b hb hr => .inr ⟨b, hb, rfl, rfl, hr⟩
  have hput : ∀ (n : Nat) (v : Fsevents.Watch), v.flushed = (s.heap n).flushed → ∀ w, (Mac.put s.heap n v w).flushed = (s.heap w).flushed := by
    intro n v hv w
    unfold Mac.put
    split
    · next he => rw [he]; exact hv
    · rfl
  have hnew : ∀ (p : Path) (x : Streams.Start) (v : Fsevents.Watch) (cb : Option Cb), cb = s.cb → (Streams.watch s.str p x).2 = true →
      ∀ s'' : MSt, s''.str = (Streams.watch s.str p x).1 → s''.heap = Mac.put s.heap s.str.n v → s''.cb = s.cb → Flushed reps s'' := by
    intro p x v cb hcb hok s'' e1 e2 e3
    obtain ⟨_, h2⟩ := watch_ok hok
    rw [h2] at e1
    refine ⟨?_, ?_⟩
    · intro k batch hk; rw [e1]; exact Nat.le_succ_of_le (h.le k batch hk)
    · intro k w hk hr
      rw [e1] at hk
      simp only [GoMap.get?_set] at hk
      split at hk
      · next he =>
        subst he
        obtain ⟨batch, hb, _⟩ := hr
        have := h.le _ _ hb
        omega
      · obtain ⟨p', hp'⟩ := hj.wf.inv.reg k w hk
        have hlt := (hj.wf.born _ _ _ hp').1
        rw [e2, e3]
        unfold Mac.put
        rw [if_neg (by omega)]
        exact h.fl k w hk hr
  cases hs with
  | report k' w' p batch hk' hb hc =>
    have ht : ∀ k, (Streams.take s.str k').m.get? k = s.str.m.get? k := by
      intro k; unfold Streams.take; split <;> rfl
    have hti : (Streams.take s.str k').i = s.str.i := by unfold Streams.take; split <;> rfl
    refine ⟨?_, ?_⟩
    · intro k b hb'
      show k ≤ (Streams.take s.str k').i
      rw [hti]
      rcases List.mem_append.1 hb' with h1 | h1
      · exact h.le k b h1
      · simp only [List.mem_singleton, Prod.mk.injEq] at h1
        rw [h1.1]
        exact hj.wf.inv.le _ _ _ hk'
    · intro k w hk ⟨b, hb', r, hr, h1, h2⟩
      simp only [ht] at hk
      rcases List.mem_append.1 hb' with h3 | h3
      · rcases h.fl k w hk ⟨b, h3, r, hr, h1, h2⟩ with h4 | ⟨b', h4, _⟩
        · exact .inl h4
        · rw [hc] at h4; cases h4
      · simp only [List.mem_singleton, Prod.mk.injEq] at h3
        obtain ⟨rfl, rfl⟩ := h3
        refine .inr ⟨{ k := k, w := w, evs := b.filter (fun r => decide (r.flags &&& wrapped = 0)) }, ?_, rfl, rfl, r, ?_, h1⟩
        · simp [enter, hk]
        · simp [hr, h2]
  | next b e f r l hc he hf hl ho =>
    rw [List.append_nil]
    refine h.still rfl (fun _ _ hk => hk) ?_ ?_
    · intro w hw
      simp only [Mac.put]
      split
      · next hx => subst hx; exact handle_flushed.2 (.inl hw)
      · exact hw
    · intro b' hb' ⟨r', hr', h1⟩
      rw [hc] at hb'
      cases hb'
      rw [hl] at hr'
      rcases List.mem_cons.1 hr' with h2 | h2
      · subst h2
        refine .inl ?_
        simp only [Mac.put, if_true]
        exact handle_flushed.2 (.inr h1)
      · exact .inr ⟨_, rfl, rfl, rfl, r', h2, h1⟩
  | loadEvents b hc hb =>
    rw [List.append_nil]
    refine h.still rfl (fun _ _ hk => hk) (fun _ hw => hw) ?_
    intro b' hb' hr
    rw [hc] at hb'; cases hb'
    exact .inr ⟨_, rfl, rfl, rfl, hr⟩
  | loadRec b e hc he hb =>
    rw [List.append_nil]
    refine h.still rfl (fun _ _ hk => hk) (fun _ hw => hw) ?_
    intro b' hb' hr
    rw [hc] at hb'; cases hb'
    exact .inr ⟨_, rfl, rfl, rfl, hr⟩
  | send b o l hc ho hq =>
    rw [List.append_nil]
    refine h.still rfl (fun _ _ hk => hk) (fun _ hw => hw) ?_
    intro b' hb' hr
    rw [hc] at hb'; cases hb'
    exact .inr ⟨_, rfl, rfl, rfl, hr⟩
  | done b e f hc he hf hl ho =>
    rw [List.append_nil]
    refine h.still rfl (fun _ _ hk => hk) (fun _ hw => hw) ?_
    intro b' hb' ⟨r, hr, _⟩
    rw [hc] at hb'; cases hb'
    rw [hl] at hr; cases hr
  | watch c p e f x rest ho hc ht =>
    rw [List.append_nil]
    exact hnew p x _ _ rfl (hj.planned ht).1 _ rfl rfl rfl
  | arrive p e x hc =>
    rw [List.append_nil]
    exact hnew p x _ _ rfl (hj.move _ _ _ hc).2.1 _ rfl rfl rfl
  | unwatch c p rest ho hc ht =>
    obtain ⟨w, k, h1, h2⟩ := unwatch_ok (hj.planned ht).1
    rw [List.append_nil]
    refine h.still ?_ ?_ (fun _ hw => hw) keep
    · simp only [h2, Streams.stopStream]
    · intro k' w' hk
      simp only [h2, Streams.stopStream, GoMap.get?_del] at hk
      split at hk
      · cases hk
      · exact hk
  | leave p p' old new ok rest hp hc ht hn hu =>
    obtain ⟨w, k, h1, h2⟩ := unwatch_ok hu
    rw [List.append_nil]
    refine h.still ?_ ?_ (fun _ hw => hw) keep
    · simp only [h2, Streams.stopStream]
    · intro k' w' hk
      simp only [h2, Streams.stopStream, GoMap.get?_del] at hk
      split at hk
      · cases hk
      · exact hk
  | swap c p old new f w k rest ho hc ht hw he =>
    rw [List.append_nil]
    have := hput w { s.heap w with events := new } rfl
    exact h.still rfl (fun _ _ hk => hk) (fun w' hw' => by simp only [this]; exact hw') (by simp only [this]; exact keep)
  | store w f hc =>
    rw [List.append_nil]
    have := hput w { s.heap w with isrec := f } rfl
    exact h.still rfl (fun _ _ hk => hk) (fun w' hw' => by simp only [this]; exact hw') (by simp only [this]; exact keep)
  | mark p e w k rest hc ht hw =>
    rw [List.append_nil]
    have := hput w { s.heap w with isrec := true } rfl
    exact h.still rfl (fun _ _ hk => hk) (fun w' hw' => by simp only [this]; exact hw') (by simp only [this]; exact keep)
  | go l sys' htr hl => rw [List.append_nil]; exact h.still rfl (fun _ _ hk => hk) (fun _ hw => hw) keep
  | plan r ops' t new i hr hp ht hn => rw [List.append_nil]; exact h.still rfl (fun _ _ hk => hk) (fun _ hw => hw) keep
  | refuse c rest ht hc hf => rw [List.append_nil]; exact h.still rfl (fun _ _ hk => hk) (fun _ hw => hw) keep
  | effect i r a b t hcalls hp ht hc => rw [List.append_nil]; exact h.still rfl (fun _ _ hk => hk) (fun _ hw => hw) keep

theorem MRun.flushed {cfg : Sched.Cfg} {ops : List ROp} {s : MSt} {reps sg} (h : MRun cfg true [] MSt.init ops reps sg s) : Flushed reps s := by
  induction h with
  | refl => exact ⟨by simp, by intro k w hk; cases hk⟩
  | step h1 hs _ ih => exact ih.step (h1.j J.init) hs

/-! ### Counting -/

/-- Flags of the changes of `x` in these reports. -/
def flagsIn (x : Path) (l : List Rep) : List Event := (l.filter (about x)).map (·.flags)

/-- Flags of the changes of `x` that FSEvents reported for the stream `k`, oldest first. -/
def flagsOf (k : Nat) (x : Path) (reps : List (Nat × List Rep)) : List Event :=
  reps.flatMap fun b => if b.1 = k then flagsIn x b.2 else []

theorem flagsIn_cons (x : Path) (r : Rep) (l : List Rep) : flagsIn x (r :: l) = (if about x r then [r.flags] else []) ++ flagsIn x l := by
  unfold flagsIn
  by_cases h : about x r = true <;> simp [h]

theorem flagsIn_filter (x : Path) (l : List Rep) : flagsIn x (l.filter fun r => decide (r.flags &&& wrapped = 0)) = flagsIn x l := by
  unfold flagsIn
  rw [List.filter_filter]
  congr 1
  apply List.filter_congr
  intro r _
  unfold about
  cases decide (r.path = x) <;> cases decide (r.flags &&& historyDone = 0) <;> cases decide (r.flags &&& wrapped = 0) <;> rfl

/-- Those that the callback still has to handle. -/
def pend (k : Nat) (x : Path) (s : MSt) : List Event :=
  match s.cb with
  | some b => if b.k = k then flagsIn x b.evs else []
  | none => []

/-- Events that the callback still has to send. -/
def outN (F : Event) (x : Path) (s : MSt) : Nat :=
  match s.cb with
  | some b => b.out.countP (isEv F x)
  | none => 0

def lastOf (w : Nat) (b : PathStr.Str) (s : MSt) : Last := Last.of (((s.heap w).prev.get? b).getD 0)

/-- The callback that is running, seen from `x`. -/
structure Side (x : Path) (deep : Bool) (F : Event) (w k : Nat) (str : Streams.S) (b : Cb) : Prop where
  ok : ∀ r ∈ b.evs, r.Ok ∧ r.flags &&& wrapped = 0
  who : (b.k = k ∧ b.w = w ∧ (∀ e, b.events = some e → F ⊑ e) ∧ (∀ f, b.isrec = some f → deep = true → f = true) ∧
      ∀ r ∈ b.evs, about x r = true → r.flags &&& Fsevents.failure = 0) ∨
    (b.k ≠ k ∧ ∃ p, (b.k, b.w, p) ∈ str.born ∧ ¬ p <+: x)

section
variable {cfg : Sched.Cfg} {base ops o : List ROp} {s s' : MSt} {reps r : List (Nat × List Rep)} {sg g : List (Key × EventInfo)} {c : Nat}
  {x q tp : Path} {i w k K : Nat} {b0 : PathStr.Str} {m0 : Last}

/-- What holds at every moment of the stretch. -/
structure Cnt (c : Nat) (x tp : Path) (i w k K : Nat) (b0 : PathStr.Str) (m0 : Last) (reps : List (Nat × List Rep)) (sg : List (Key × EventInfo)) (s : MSt) : Prop where
  car : Carries x tp (decide (tp.length + 1 < x.length)) (flag i) s.sys.tree.world.log
  tab : s.str.table.get? tp = some (w, k)
  flushed : (s.heap w).flushed = true
  side : ∀ b, s.cb = some b → Side x (decide (tp.length + 1 < x.length)) (flag i) w k s.str b
  fit : Fit K c (isEv (flag i) x) s.sys
  run : (pend k x s).foldl next (lastOf w b0 s) = (flagsOf k x reps).foldl next m0
  sum : sg.countP (isSig c (isEv (flag i) x)) + due K c (isEv (flag i) x) s.sys + K * outN (flag i) x s + K * shows (flag i) (lastOf w b0 s) (pend k x s) =
    K * shows (flag i) m0 (flagsOf k x reps)

theorem flagsOf_append (k : Nat) (x : Path) (a b : List (Nat × List Rep)) : flagsOf k x (a ++ b) = flagsOf k x a ++ flagsOf k x b := by
  simp [flagsOf]

/-- Steps that do not touch what is counted. -/
theorem Cnt.still (h : Cnt c x tp i w k K b0 m0 reps sg s) (hcar : Carries x tp (decide (tp.length + 1 < x.length)) (flag i) s'.sys.tree.world.log)
    (htab : s'.str.table.get? tp = some (w, k)) (hfl : (s'.heap w).flushed = (s.heap w).flushed) (hprev : (s'.heap w).prev = (s.heap w).prev)
    (hcb : s'.cb = s.cb) (hborn : ∀ y ∈ s.str.born, y ∈ s'.str.born) (hd : s'.sys.disp = s.sys.disp) (hq : s'.sys.cq = s.sys.cq) :
    Cnt c x tp i w k K b0 m0 reps sg s' := by
  refine ⟨hcar, htab, hfl.trans h.flushed, ?_, ?_, ?_, ?_⟩
  · intro b hb
    rw [hcb] at hb
    have h1 := h.side b hb
    refine ⟨h1.ok, h1.who.imp id fun ⟨h2, p, h3, h4⟩ => ⟨h2, p, hborn _ h3, h4⟩⟩
  · intro j ei d a hm; rw [hd] at hm; exact h.fit j ei d a hm
  · have := h.run
    simpa only [pend, lastOf, hcb, hprev] using this
  · have := h.sum
    simpa only [pend, lastOf, outN, hcb, hprev, due, hd, hq] using this

theorem Cnt.step (hj : J base ops s) (hs : MStep cfg true s o r g s') (hsafe : ∀ op ∈ o, Safe (rregOf (base ++ ops)) s.sys.tree.world.log op)
    (hc : ∀ op ∈ ops ++ o, Spares c tp op) (htpx : tp <+: x) (hr : Rests (rregOf base) c q tp (decide (tp.length + 1 < x.length)) (flag i))
    (hi : i < 32) (hx : PathStr.Comps x) (hx0 : [] ∉ x) (hb0 : IsBase tp x b0)
    (hfail : ∀ batch, (k, batch) ∈ r → ∀ y ∈ batch, about x y = true → y.flags &&& Fsevents.failure = 0)
    (hK : ∀ ei, isEv (flag i) x ei = true → (Y.sends s.sys.tree ei).count (.user c) = K)
    (h : Cnt c x tp i w k K b0 m0 reps sg s) : Cnt c x tp i w k K b0 m0 (reps ++ r) (sg ++ g) s' := by
  have hc' : ∀ op ∈ ops, Spares c tp op := fun o ho => hc o (by simp [ho])
  have hcar := hj.carries_step hs hc' htpx hr h.car
  have htab := hj.tab_step hs hsafe hc htpx hr h.car h.tab
  have hold := hj.hold hc' htpx hr h.car h.tab
  have hborn := (hj.wf.inv.tab _ _ _ h.tab).1
  obtain ⟨hlt, hpath, htpc⟩ := hj.wf.born _ _ _ hborn
  have hsum := h.sum
  cases hs with
  | go l sys' htr hl =>
    obtain ⟨h3, h4⟩ := due_step (f := isEv (flag i) x) htr hl hK h.fit
    rw [List.append_nil]
    refine ⟨hcar, htab, h.flushed, h.side, h4, h.run, ?_⟩
    simp only [List.countP_append]
    simp only [outN, pend, lastOf] at hsum ⊢
    omega
  | report k' w' p batch hk hb hcb =>
    rw [List.append_nil]
    have hpend : pend k x s = [] := by simp [pend, hcb]
    have hout : outN (flag i) x s = 0 := by simp [outN, hcb]
    have hbornt : (Streams.take s.str k').born = s.str.born := by unfold Streams.take; split <;> rfl
    have hpend' : pend k x { s with str := Streams.take s.str k', cb := enter s.str k' batch } = flagsOf k x [(k', batch)] := by
      simp only [pend, enter, flagsOf, List.flatMap_cons, List.flatMap_nil, List.append_nil]
      cases hm : s.str.m.get? k' with
      | some w'' => simp only [Option.map_some, flagsIn_filter]
      | none =>
        simp only [Option.map_none]
        rw [if_neg]
        rintro rfl
        rw [(hj.wf.inv.tab _ _ _ h.tab).2.1] at hm
        cases hm
    have hout' : outN (flag i) x { s with str := Streams.take s.str k', cb := enter s.str k' batch } = 0 := by
      simp only [outN, enter]
      cases s.str.m.get? k' with
      | some w'' => rfl
      | none => rfl
    refine ⟨hcar, htab, h.flushed, ?_, h.fit, ?_, ?_⟩
    · intro b hb'
      have hb' : enter s.str k' batch = some b := hb'
      unfold enter at hb'
      rcases hm : s.str.m.get? k' with _ | w''
      · rw [hm] at hb'; cases hb'
      · rw [hm] at hb'
        simp only [Option.map_some, Option.some.injEq] at hb'
        subst hb'
        refine ⟨?_, ?_⟩
        · intro y hy
          simp only [List.mem_filter, decide_eq_true_eq] at hy
          exact ⟨hb y hy.1, hy.2⟩
        · by_cases hkk : k' = k
          · subst hkk
            rw [(hj.wf.inv.tab _ _ _ h.tab).2.1] at hm
            cases hm
            refine .inl ⟨rfl, rfl, (by intro e he; cases he), (by intro f hf; cases hf), ?_⟩
            intro y hy
            simp only [List.mem_filter] at hy
            exact hfail batch (by simp) y hy.1
          · refine .inr ⟨hkk, ?_⟩
            obtain ⟨p', hp'⟩ := hj.wf.clean _ _ hm
            refine ⟨p', by simp only [hbornt]; exact (hj.wf.inv.tab _ _ _ hp').1, fun hpx => ?_⟩
            have := hold.one _ _ _ hp' hpx
            subst this
            rw [h.tab] at hp'
            cases hp'
            exact hkk rfl
    · rw [hpend', flagsOf_append, List.foldl_append, ← h.run, hpend]
      rfl
    · rw [hpend', hout', flagsOf_append, shows_append, ← h.run]
      rw [hpend, hout] at hsum
      rw [hpend]
      simp only [shows, List.foldl_nil, lastOf] at hsum ⊢
      rw [Nat.mul_add]
      omega
  | loadEvents b hcb hbe =>
    rw [List.append_nil, List.append_nil]
    have h1 := h.side b hcb
    refine ⟨hcar, htab, h.flushed, ?_, h.fit, ?_, ?_⟩
    · intro b' hb'
      cases hb'
      refine ⟨h1.ok, h1.who.imp (fun ⟨a1, a2, a3, a4, a5⟩ => ⟨a1, a2, ?_, a4, a5⟩) id⟩
      intro e he
      cases he
      rw [a2]
      exact hold.ev
    · have := h.run
      simpa only [pend, lastOf, hcb] using this
    · simpa only [pend, lastOf, hcb, outN] using hsum
  | loadRec b e hcb he hbr =>
    rw [List.append_nil, List.append_nil]
    have h1 := h.side b hcb
    refine ⟨hcar, htab, h.flushed, ?_, h.fit, ?_, ?_⟩
    · intro b' hb'
      cases hb'
      refine ⟨h1.ok, h1.who.imp (fun ⟨a1, a2, a3, a4, a5⟩ => ⟨a1, a2, a3, ?_, a5⟩) id⟩
      intro f hf
      cases hf
      rw [a2]
      exact hold.wide
    · have := h.run
      simpa only [pend, lastOf, hcb] using this
    · simpa only [pend, lastOf, hcb, outN] using hsum
  | send b ei l hcb ho hq =>
    rw [List.append_nil, List.append_nil]
    have h1 := h.side b hcb
    refine ⟨hcar, htab, h.flushed, ?_, h.fit, ?_, ?_⟩
    · intro b' hb'
      cases hb'
      exact ⟨h1.ok, h1.who⟩
    · have := h.run
      simpa only [pend, lastOf, hcb] using this
    · simp only [pend, lastOf, hcb, outN, ho, due, List.countP_append, List.countP_cons, List.countP_nil, Nat.mul_add] at hsum ⊢
      omega
  | done b e f hcb he hf hl ho =>
    rw [List.append_nil, List.append_nil]
    refine ⟨hcar, htab, h.flushed, ?_, h.fit, ?_, ?_⟩
    · intro b' hb'; cases hb'
    · have := h.run
      simp only [pend, lastOf, hcb, hl, flagsIn] at this ⊢
      rw [← this]
      split <;> rfl
    · simp only [pend, lastOf, hcb, outN, ho, hl, flagsIn] at hsum ⊢
      rw [← hsum]
      split <;> rfl
  | next b e f y l hcb he hf hl ho =>
    rw [List.append_nil, List.append_nil]
    have h1 := h.side b hcb
    have hok := h1.ok y (by rw [hl]; simp)
    have hside' : ∀ b', some { b with evs := l, out := (handle (s.heap b.w) e f y).2 } = some b' →
        Side x (decide (tp.length + 1 < x.length)) (flag i) w k s.str b' := by
      intro b' hb'
      cases hb'
      refine ⟨fun z hz => h1.ok z (by rw [hl]; simp [hz]), h1.who.imp (fun ⟨a1, a2, a3, a4, a5⟩ => ⟨a1, a2, a3, a4, ?_⟩) id⟩
      intro z hz
      exact a5 z (by rw [hl]; simp [hz])
    rcases h1.who with ⟨rfl, rfl, a3, a4, a5⟩ | ⟨a1, p, a2, a3⟩
    · -- the stream itself
      have hfl' : (handle (s.heap b.w) e f y).1.flushed = true := handle_flushed.2 (.inl h.flushed)
      have hrun := h.run
      by_cases hab : about x y = true
      · have hab' := hab
        simp only [about, Bool.and_eq_true, decide_eq_true_eq] at hab'
        have hin : Inside f tp x := by
          refine ⟨htpx, ?_⟩
          by_cases hd : tp.length + 1 < x.length
          · exact .inl (a4 f hf (by simpa using hd))
          · exact .inr (by omega)
        obtain ⟨m1, m2⟩ := handle_mine hi htpc hx hb0 hpath hin h.flushed (a3 e he) hab'.1.1 hab'.1.2 (a5 y (by rw [hl]; simp) hab)
        refine ⟨hcar, htab, ?_, hside', h.fit, ?_, ?_⟩
        · simp only [Mac.put, if_true]; exact hfl'
        · simp only [pend, lastOf, hcb, hl, if_true, flagsIn_cons, hab, List.cons_append, List.nil_append, List.foldl_cons, Mac.put] at hrun ⊢
          rw [m2]; exact hrun
        · simp only [pend, lastOf, hcb, hl, ho, outN, if_true, flagsIn_cons, hab, List.cons_append, List.nil_append, shows, Mac.put, List.countP_nil, Nat.mul_add] at hsum ⊢
          rw [m2, m1]
          omega
      · have hprev : (handle (s.heap b.w) e f y).1.prev.get? b0 = (s.heap b.w).prev.get? b0 ∧
            (handle (s.heap b.w) e f y).2.countP (isEv (flag i) x) = 0 := by
          by_cases hd : y.flags &&& historyDone ≠ 0
          · obtain ⟨d1, d2⟩ := handle_done (w := s.heap b.w) (e := e) (f := f) hd
            rw [d1, d2]; exact ⟨rfl, rfl⟩
          · have hne : y.path ≠ x := by
              intro hp
              apply hab
              simp only [about, Bool.and_eq_true, decide_eq_true_eq]
              exact ⟨⟨hp, by simpa using hd⟩, hok.2⟩
            obtain ⟨hg, hcy⟩ := hok.1.resolve_left hd
            refine ⟨?_, handle_other hne⟩
            rcases handle_prev (s.heap b.w) e f y b0 with hp | ⟨_, hp⟩
            · exact hp
            · exact absurd rfl (base_other htpc hb0 (w := { s.heap b.w with events := e, isrec := f }) hpath hx hx0 hcy hg.2 hne hp)
        refine ⟨hcar, htab, ?_, hside', h.fit, ?_, ?_⟩
        · simp only [Mac.put, if_true]; exact hfl'
        · simp only [pend, lastOf, hcb, hl, if_true, flagsIn_cons, hab, Bool.false_eq_true, if_false, List.nil_append, Mac.put] at hrun ⊢
          rw [hprev.1]; exact hrun
        · simp only [pend, lastOf, hcb, hl, ho, outN, if_true, flagsIn_cons, hab, Bool.false_eq_true, if_false, List.nil_append, Mac.put, List.countP_nil] at hsum ⊢
          rw [hprev.1, hprev.2]
          exact hsum
    · -- another one
      have hbw : b.w ≠ w := by
        intro hbw
        rw [hbw] at a2
        exact a1 (hj.wf.uniq _ _ _ _ _ a2 hborn)
      obtain ⟨_, hp', hpc⟩ := hj.wf.born _ _ _ a2
      have hz : (handle (s.heap b.w) e f y).2.countP (isEv (flag i) x) = 0 := handle_foreign hok.1 hpc hp' a3
      have hput : Mac.put s.heap b.w (handle (s.heap b.w) e f y).1 w = s.heap w := by
        unfold Mac.put; rw [if_neg (fun h => hbw h.symm)]
      refine ⟨hcar, htab, ?_, hside', h.fit, ?_, ?_⟩
      · simp only [hput]; exact h.flushed
      · have hrun := h.run
        simp only [pend, lastOf, hcb, if_neg a1, hput] at hrun ⊢
        exact hrun
      · simp only [pend, lastOf, hcb, ho, outN, if_neg a1, hput, hz, List.countP_nil] at hsum ⊢
        exact hsum
  | plan r ops' t new j hr' hp ht hn => rw [List.append_nil, List.append_nil]; exact h.still hcar htab rfl rfl rfl (fun _ hy => hy) rfl rfl
  | watch cl p e f y rest ho hca ht =>
    rw [List.append_nil, List.append_nil]
    obtain ⟨_, h2⟩ := watch_ok (hj.planned ht).1
    have hput : Mac.put s.heap s.str.n { path := PathStr.str p, events := e, isrec := f } w = s.heap w := by
      unfold Mac.put; rw [if_neg (by omega)]
    exact h.still hcar htab (by simp only [hput]) (by simp only [hput]) rfl (by simp only [h2]; exact fun _ hy => List.mem_cons_of_mem _ hy) rfl rfl
  | arrive p e y hca =>
    rw [List.append_nil, List.append_nil]
    obtain ⟨_, h2⟩ := watch_ok (hj.move _ _ _ hca).2.1
    have hput : Mac.put s.heap s.str.n { path := PathStr.str p, events := e, isrec := true } w = s.heap w := by
      unfold Mac.put; rw [if_neg (by omega)]
    exact h.still hcar htab (by simp only [hput]) (by simp only [hput]) rfl (by simp only [h2]; exact fun _ hy => List.mem_cons_of_mem _ hy) rfl rfl
  | unwatch cl p rest ho hca ht =>
    rw [List.append_nil, List.append_nil]
    obtain ⟨_, _, _, h2⟩ := unwatch_ok (hj.planned ht).1
    exact h.still hcar htab rfl rfl rfl (by simp only [h2]; exact fun _ hy => hy) rfl rfl
  | leave p p' old new ok rest hp hca ht hn hu =>
    rw [List.append_nil, List.append_nil]
    obtain ⟨_, _, _, h2⟩ := unwatch_ok hu
    exact h.still hcar htab rfl rfl rfl (by simp only [h2]; exact fun _ hy => hy) rfl rfl
  | swap cl p old new f w' k' rest ho hca ht hw he =>
    rw [List.append_nil, List.append_nil]
    refine h.still hcar htab ?_ ?_ rfl (fun _ hy => hy) rfl rfl <;> · simp only [Mac.put]; split <;> simp_all
  | store w' f hca =>
    rw [List.append_nil, List.append_nil]
    refine h.still hcar htab ?_ ?_ rfl (fun _ hy => hy) rfl rfl <;> · simp only [Mac.put]; split <;> simp_all
  | mark p e w' k' rest hca ht hw =>
    rw [List.append_nil, List.append_nil]
    refine h.still hcar htab ?_ ?_ rfl (fun _ hy => hy) rfl rfl <;> · simp only [Mac.put]; split <;> simp_all
  | refuse cl rest ht hca hf => rw [List.append_nil, List.append_nil]; exact h.still hcar htab rfl rfl rfl (fun _ hy => hy) rfl rfl
  | effect j r a b t hcalls hp ht hca => rw [List.append_nil, List.append_nil]; exact h.still hcar htab rfl rfl rfl (fun _ hy => hy) rfl rfl
end

/-! ### C96 -/

section
variable {cfg : Sched.Cfg} {base ops o : List ROp} {s s' : MSt} {reps r : List (Nat × List Rep)} {sg g : List (Key × EventInfo)} {c : Nat}
  {x q tp : Path} {i w k K : Nat} {b0 : PathStr.Str} {m0 : Last}

theorem J.copies (h : J base ops s) (hc : ∀ op ∈ ops, Spares c tp op) {F : Event} (hF : F &&& I.internal = 0) (hlen : 2 ≤ x.length) (hx0 : [] ∉ x)
    {ei : EventInfo} (hei : isEv F x ei = true) : (Y.sends s.sys.tree ei).count (.user c) = copies (rregOf base) c F x := by
  obtain ⟨ops₀, ops₁, rfl, h2, _⟩ := h.tree
  simp only [isEv, Bool.and_eq_true, decide_eq_true_eq] at hei
  obtain ⟨h1, h3⟩ := hei
  have := (Rec.C02_delivery_exact factsI h2.hist.1 (ei := ei) (by rw [h3]; exact hlen) (by rw [h3]; exact hx0)
    (by rw [h1]; exact hF) (fun hw => absurd hw (by decide))).1 c (fun o ho => (h2.hist.2 o ho).for c)
  rw [h1, h3] at this
  exact Eq.trans this (Linux.copies_congr fun q _ => calm_reg (fun o ho => hc o (by simp [ho])) q)

theorem MRun.cnt (hj : J base [] s) (h : MRun cfg true base s ops reps sg s') (hc : ∀ op ∈ ops, Spares c tp op) (htpx : tp <+: x)
    (hr : Rests (rregOf base) c q tp (decide (tp.length + 1 < x.length)) (flag i)) (hi : i < 32) (hx : PathStr.Comps x) (hx0 : [] ∉ x)
    (hlen : 2 ≤ x.length) (hF : flag i &&& I.internal = 0) (hb0 : IsBase tp x b0)
    (hfail : ∀ batch, (k, batch) ∈ reps → ∀ y ∈ batch, about x y = true → y.flags &&& Fsevents.failure = 0)
    (h0 : Cnt c x tp i w k (copies (rregOf base) c (flag i) x) b0 m0 [] [] s) :
    Cnt c x tp i w k (copies (rregOf base) c (flag i) x) b0 m0 reps sg s' := by
  induction h with
  | refl => exact h0
  | step h1 hs hsafe ih =>
    have hc' := fun op ho => hc op (List.mem_append_left _ ho)
    have hj' := h1.j hj
    refine (ih hc' fun batch hb => hfail batch (List.mem_append_left _ hb)).step hj' hs (hsafe rfl) hc htpx hr hi hx hx0 hb0
      (fun batch hb => hfail batch (List.mem_append_right _ hb)) (fun ei hei => hj'.copies hc' hF hlen hx0 hei)
end

/-- **C96.**  The whole program on macOS, in any execution from the start in which no call of Watch fails, no call of FSEvents fails and
every Watch and Stop is harmless in the sense of C26: any number of goroutines call Watch and Stop, any schedule of these, of the
goroutine of the tree and of the callbacks.  In a moment in which nothing is on its way let `c` be registered for the flag `flag i` of
`x`.  Then a stream `k` runs on a path `tp` at or above `x`, for a watch that has the flag.  If the watch is recursive, or `x` is `tp` or
directly in it, and FSEvents has told the stream that its history is done, then until there is a Watch or Stop with `c` or a Watch of a
path above `tp`: the stream runs at every moment, and when nothing is on its way again the flag has been signalled to `c` for the reports of the stream about
`x` exactly as often as they show it, once for each registration of `c` that covers it.  Which reports show the flag is decided by the
reports alone, except for what the stream last showed of `x` before. -/
theorem C96_mac_signalled {cfg : Sched.Cfg} {ops₀ : List ROp} {reps₀ : List (Nat × List Rep)} {sg₀ : List (Key × EventInfo)} {s : MSt}
    (h0 : MRun cfg true [] MSt.init ops₀ reps₀ sg₀ s) (hplan : s.plan = none) (hq : s.Quiet) {c i : Nat} (hi : i < 32)
    (hF : flag i &&& I.internal = 0) {x : Path} (hx : PathStr.Comps x) (hx0 : [] ∉ x) (hlen : 2 ≤ x.length)
    (hreg : 1 ≤ copies (rregOf ops₀) c (flag i) x) :
    ∃ tp w k, tp <+: x ∧ s.str.table.get? tp = some (w, k) ∧ (k, tp) ∈ s.str.kern ∧ flag i ⊑ (s.heap w).events ∧
      ((tp.length + 1 < x.length → (s.heap w).isrec = true) → Marked k reps₀ →
        ∃ m : Last, ∀ ops reps sg s', MRun cfg true ops₀ s ops reps sg s' → (∀ op ∈ ops, Spares c tp op) →
          (k, tp) ∈ s'.str.kern ∧
          ((∀ batch, (k, batch) ∈ reps → ∀ y ∈ batch, about x y = true → y.flags &&& Fsevents.failure = 0) → s'.Quiet →
            sg.countP (Gets c (flag i) x) = copies (rregOf ops₀) c (flag i) x * shows (flag i) m (flagsOf k x reps))) := by
  have hj : J ops₀ [] s := (h0.j J.init).rebase hplan
  obtain ⟨hsafe, hlog, hidle⟩ : SafeHist I ops₀ s.sys.tree ∧ s.log = s.sys.tree.world.log ∧ s.caller = .idle := by
    obtain ⟨a, b, h1, h2, h3 | ⟨r, t, h3, _⟩⟩ := hj.tree
    · obtain ⟨rfl, rfl⟩ := List.append_eq_nil_iff.1 h1.symm
      exact ⟨by simpa using h2, h3.2.2.1, h3.2.2.2.1⟩
    · rw [hplan] at h3; cases h3
  have hmir := (Rec.C26_mirror_partial factsI hsafe).1
  obtain ⟨q, E, gg, h1, h2, h3⟩ := copies_inv hreg
  obtain ⟨tp, E', f, h4, h5, h6⟩ := Rec.mirror_covered hmir c q E gg h1
  have hqx : q <+: x := by
    rcases h3 with rfl | rfl | ⟨_, h⟩
    · exact List.prefix_rfl
    · exact List.dropLast_prefix _
    · exact h.trans (List.dropLast_prefix _)
  have htpx : tp <+: x := h4.trans hqx
  have hview := hj.view
  rw [settle_idle hidle] at hview
  have h7 : Mac.view s tp = some (E', f) := by rw [hview, hlog]; exact h5
  obtain ⟨⟨w, k⟩, h8, h9⟩ : ∃ y, s.str.table.get? tp = some y ∧ ((s.heap y.1).events, (s.heap y.1).isrec) = (E', f) := by
    simpa [Mac.view] using h7
  simp only [Prod.mk.injEq] at h9
  have hFE : flag i ⊑ E' := Event.Sub.trans h2 h6
  have hborn := (hj.wf.inv.tab _ _ _ h8).1
  obtain ⟨_, hpath, htpc⟩ := hj.wf.born _ _ _ hborn
  refine ⟨tp, w, k, htpx, h8, (hj.wf.inv.tab _ _ _ h8).2.2, by rw [h9.1]; exact hFE, fun hdeep hmark => ?_⟩
  have hr : Rests (rregOf ops₀) c q tp (decide (tp.length + 1 < x.length)) (flag i) := by
    refine ⟨h4, E, gg, h1, h2, fun hd => ?_⟩
    simp only [decide_eq_true_eq] at hd
    rcases h3 with rfl | rfl | ⟨h, _⟩
    · left; rintro rfl; omega
    · left; rintro rfl; simp only [List.length_dropLast] at hd; omega
    · exact .inr h
  have hcar : Carries x tp (decide (tp.length + 1 < x.length)) (flag i) s.sys.tree.world.log := by
    refine ⟨fun t ht hne => ?_, E', f, h5, hFE, fun hd => ?_⟩
    · by_contra hn
      have htp : osRec s.sys.tree.world.log tp ≠ none := by rw [h5]; simp
      rcases List.prefix_or_prefix_of_prefix ht htpx with h | h
      · exact hne (hmir.apart _ _ hn htp h)
      · exact hne (hmir.apart _ _ htp hn h).symm
    · rw [← h9.2]; exact hdeep (by simpa using hd)
  obtain ⟨b0, hb0⟩ : ∃ b0, IsBase tp x b0 :=
    (Fsevents.base_str { path := PathStr.str tp, events := 0, isrec := true } htpc hx rfl).2 ⟨htpx, .inl rfl⟩
  have hfl : (s.heap w).flushed = true := by
    rcases h0.flushed.fl k w (hj.wf.inv.tab _ _ _ h8).2.1 hmark with h | ⟨b, h, _⟩
    · exact h
    · rw [hq.1] at h; cases h
  have hcnt : Cnt c x tp i w k (copies (rregOf ops₀) c (flag i) x) b0 (lastOf w b0 s) [] [] s := by
    refine ⟨hcar, h8, hfl, (by intro b hb; rw [hq.1] at hb; cases hb), ?_, ?_, ?_⟩
    · intro j ei d a hm; rw [hq.2.2] at hm; cases hm
    · simp [pend, hq.1, flagsOf]
    · simp [pend, hq.1, flagsOf, outN, due, hq.2.1, hq.2.2, shows]
  refine ⟨lastOf w b0 s, fun ops reps sg s' h hc => ⟨?_, fun hfail hq' => ?_⟩⟩
  · have key : Carries x tp (decide (tp.length + 1 < x.length)) (flag i) s'.sys.tree.world.log ∧ s'.str.table.get? tp = some (w, k) := by
      clear hq
      induction h with
      | refl => exact ⟨hcar, h8⟩
      | step h1 hs hsafe ih =>
        have hc' := fun op ho => hc op (List.mem_append_left _ ho)
        obtain ⟨i1, i2⟩ := ih hc'
        have hj' := h1.j hj
        exact ⟨hj'.carries_step hs hc' htpx hr i1, hj'.tab_step hs (hsafe rfl) hc htpx hr i1 i2⟩
    exact ((h.j hj).wf.inv.tab _ _ _ key.2).2.2
  · have hgets : sg.countP (Gets c (flag i) x) = sg.countP (isSig c (isEv (flag i) x)) := by
      apply List.countP_congr
      intro y _
      simp [Gets, isSig, isEv, Bool.and_assoc]
    have := (h.cnt hj hc htpx hr hi hx hx0 hlen hF hb0 hfail hcnt).sum
    rw [hgets]
    simpa [pend, outN, due, hq'.1, hq'.2.1, hq'.2.2, shows] using this

/-! ### The parts -/

theorem rstep_weaken {P : Platform} {b : Bool} {s s' : St} {op : ROp} (h : Rec.RStep P b s op s') : Rec.RStep P false s op s' := by
  cases h with
  | watch h1 h2 => exact .watch h1 h2
  | stop _ => exact .stop (by intro h; cases h)
  | shuffle h => exact .shuffle h

theorem rsteps_snoc {P : Platform} {b : Bool} {s t : St} {ops : List ROp} {op : ROp} (h : Rec.RSteps P b s (ops ++ [op]) t) :
    ∃ s₁, Rec.RSteps P b s ops s₁ ∧ Rec.RStep P b s₁ op t := by
  generalize ho : ops ++ [op] = l at h
  cases h with
  | nil => simp at ho
  | @snoc ops' s1 op' _ h1 h2 =>
    obtain ⟨rfl, h3⟩ := List.append_inj' ho rfl
    obtain rfl : op = op' := by simpa using h3
    exact ⟨s1, h1, h2⟩

theorem rsteps_nil {P : Platform} {b : Bool} {s t : St} (h : Rec.RSteps P b s [] t) : t = s := by
  generalize ho : ([] : List ROp) = l at h
  cases h with
  | nil => rfl
  | snoc _ _ => simp at ho

theorem Plans.step {b : Bool} {s t : St} {r : Sched.Req} {ops : List ROp} (h : Plans b s r ops t) : Y.step s r t := by
  obtain ⟨h1, _, op, h2, h3⟩ := h
  have key : ∃ s₁, (s₁ = s ∨ Rec.RStep I false s .shuffle s₁) ∧ Rec.RStep I false s₁ op t := by
    rcases h3 with rfl | rfl
    · obtain ⟨s1, h4, h5⟩ := rsteps_snoc (ops := []) h1
      exact ⟨s1, .inl (rsteps_nil h4), rstep_weaken h5⟩
    · obtain ⟨s1, h4, h5⟩ := rsteps_snoc (ops := [.shuffle]) h1
      obtain ⟨s2, h6, h7⟩ := rsteps_snoc (ops := []) h4
      obtain rfl := rsteps_nil h6
      exact ⟨s1, .inr (rstep_weaken h7), rstep_weaken h5⟩
  obtain ⟨s₁, h4, h5⟩ := key
  refine ⟨s₁, h4, ?_⟩
  cases r with
  | watch p isrec c e => obtain ⟨_, res, rfl⟩ := h2; exact ⟨res, h5⟩
  | stop c => obtain rfl := h2; exact h5
  | internal ei => cases h2

theorem free_os {P : Platform} {cfg : Sched.Cfg} {s s' : Sched.State (Sched.recTree P)} {l : Sched.Lab (Sched.recTree P).Req} (h : Sched.Tr (Sched.recTree P) cfg s l s') (hl : Free l) :
    s'.os = s.os := by
  cases h <;> first | rfl | exact hl.elim

structure Parts (cfg : Sched.Cfg) (sg : List (Key × EventInfo)) (s : MSt) : Prop where
  exec : ∃ t, Sched.Exec Y cfg t s.sys ∧ Linux.signals t = sg
  os : s.sys.os = []
  plan : ∀ r t, s.plan = some (r, t) → Y.step s.sys.tree r t
  hist : ∃ l, Streams.Hist l s.str
  cb : ∀ b, s.cb = some b → (b.k, b.w) ∈ s.str.busy ∧ (∀ r ∈ b.evs, r.Ok) ∧ ∀ o ∈ b.out, NonRec.GoodPath o.path

theorem take_busy {s : Streams.S} {k w : Nat} (h : s.m.get? k = some w) : (k, w) ∈ (Streams.take s k).busy := by
  unfold Streams.take; rw [h]; simp

theorem watch_busy (s : Streams.S) (p : Path) (x : Streams.Start) : (Streams.watch s p x).1.busy = s.busy := by
  unfold Streams.watch; split
  · rfl
  · split <;> rfl

theorem unwatch_busy (s : Streams.S) (p : Path) : (Streams.unwatch s p).1.busy = s.busy := by
  unfold Streams.unwatch; split <;> rfl

/-- Every execution of the whole program is, without the watcher, an execution of `Sched` with the same signals, and without the tree a history
of `Streams`.  So all that is proved of these (C05, C30, C46, C76) holds of the whole program. -/
theorem C96_parts {cfg : Sched.Cfg} {safe : Bool} {ops : List ROp} {reps : List (Nat × List Rep)} {sg : List (Key × EventInfo)} {s : MSt}
    (h : MRun cfg safe [] MSt.init ops reps sg s) :
    (∃ t, Sched.Exec Y cfg t s.sys ∧ Linux.signals t = sg) ∧ ∃ l, Streams.Hist l s.str := by
  suffices h' : Parts cfg sg s from ⟨h'.exec, h'.hist⟩
  have sig1 : ∀ t l, Linux.signals (t ++ [l]) = Linux.signals t ++ sigs l := by intro t l; simp [Linux.signals]
  induction h with
  | refl => exact ⟨⟨[], .nil, rfl⟩, rfl, (by intro r t h; cases h), ⟨_, .nil⟩, (by intro b h; cases h)⟩
  | step _ hs _ ih =>
    obtain ⟨⟨t, h1, h2⟩, h3, h4, ⟨l, h5⟩, h6⟩ := ih
    cases hs with
    | go l' sys' htr hfree =>
      refine ⟨⟨t ++ [l'], h1.snoc htr, by rw [sig1, h2]⟩, ?_, ?_, ⟨l, h5⟩, h6⟩
      · exact (free_os htr hfree).trans h3
      · intro r t' hp
        simp only [free_tree htr hfree]
        exact h4 r t' hp
    | report k w p batch hk hb hcb =>
      refine ⟨⟨t, h1, by simpa using h2⟩, h3, h4, ⟨_, h5.take hk⟩, ?_⟩
      intro b hb'
      have hb' : enter _ k batch = some b := hb'
      unfold enter at hb'
      rcases hm : Streams.S.m _ |>.get? k with _ | w'
      · rw [hm] at hb'; cases hb'
      · rw [hm] at hb'
        cases hb'
        refine ⟨take_busy hm, ?_, by intro o ho; cases ho⟩
        intro r hr
        simp only [List.mem_filter] at hr
        exact hb r hr.1
    | loadEvents b hcb hb => exact ⟨⟨t, h1, by simpa using h2⟩, h3, h4, ⟨l, h5⟩, by rintro _ ⟨⟩; exact h6 b hcb⟩
    | loadRec b e hcb he hb => exact ⟨⟨t, h1, by simpa using h2⟩, h3, h4, ⟨l, h5⟩, by rintro _ ⟨⟩; exact h6 b hcb⟩
    | next b e f r l' hcb he hf hl ho =>
      refine ⟨⟨t, h1, by simpa using h2⟩, h3, h4, ⟨l, h5⟩, ?_⟩
      rintro _ ⟨⟩
      obtain ⟨g1, g2, g3⟩ := h6 b hcb
      refine ⟨g1, fun y hy => g2 y (by rw [hl]; simp [hy]), ?_⟩
      intro o ho'
      by_cases hd : r.flags &&& historyDone ≠ 0
      · rw [(handle_done hd).1] at ho'; cases ho'
      · rw [handle_path _ _ _ _ _ ho']
        exact ((g2 r (by rw [hl]; simp)).resolve_left hd).1
    | send b o l' hcb ho hc =>
      obtain ⟨g1, g2, g3⟩ := h6 b hcb
      have hok := g3 o (by rw [ho]; simp)
      refine ⟨⟨t ++ [.report [o]] ++ [.push o], ?_, ?_⟩, h3, h4, ⟨l, h5⟩, ?_⟩
      · have h6 := (h1.snoc (.report [o] (by simpa using hok) h3)).snoc (.push o [] rfl hc)
        simp only [h3] at h6 ⊢
        exact h6
      · rw [sig1, sig1, h2]; simp [sigs]
      · rintro _ ⟨⟩
        exact ⟨g1, g2, fun y hy => g3 y (by rw [ho]; simp [hy])⟩
    | done b e f hcb he hf hl ho =>
      exact ⟨⟨t, h1, by simpa using h2⟩, h3, h4, ⟨_, h5.done (h6 b hcb).1⟩, by intro b' hb'; cases hb'⟩
    | plan r ops' t' new i hr hp ht hn => exact ⟨⟨t, h1, by simpa using h2⟩, h3, by rintro r t ⟨⟩; exact ht.step, ⟨l, h5⟩, h6⟩
    | watch c p e f x rest ho hc ht =>
      exact ⟨⟨t, h1, by simpa using h2⟩, h3, h4, ⟨_, h5.watch p x⟩, by simp only [watch_busy]; exact h6⟩
    | arrive p e x hc => exact ⟨⟨t, h1, by simpa using h2⟩, h3, h4, ⟨_, h5.watch p x⟩, by simp only [watch_busy]; exact h6⟩
    | unwatch c p rest ho hc ht => exact ⟨⟨t, h1, by simpa using h2⟩, h3, h4, ⟨_, h5.unwatch p⟩, by simp only [unwatch_busy]; exact h6⟩
    | leave p p' old new ok rest hp hc ht hn hu =>
      exact ⟨⟨t, h1, by simpa using h2⟩, h3, h4, ⟨_, h5.unwatch p⟩, by simp only [unwatch_busy]; exact h6⟩
    | swap c p old new f w k rest ho hc ht hw he => exact ⟨⟨t, h1, by simpa using h2⟩, h3, h4, ⟨l, h5⟩, h6⟩
    | store w f hc => exact ⟨⟨t, h1, by simpa using h2⟩, h3, h4, ⟨l, h5⟩, h6⟩
    | mark p e w k rest hc ht hw => exact ⟨⟨t, h1, by simpa using h2⟩, h3, h4, ⟨l, h5⟩, h6⟩
    | refuse c rest ht hc hf => exact ⟨⟨t, h1, by simpa using h2⟩, h3, h4, ⟨l, h5⟩, h6⟩
    | effect i r a b t' hcalls hp ht hc =>
      refine ⟨⟨t ++ [.effect i r], h1.snoc (.effect i r a b t' hcalls (h4 _ _ hp) fun _ => h3), by rw [sig1, h2]; rfl⟩, h3, ?_, ⟨l, h5⟩, h6⟩
      intro r t h; cases h

/-! ### The premises can be met -/

namespace Ex

def d : Path := [['d']]
def f : Path := [['d'], ['f']]
def cfg : Sched.Cfg := ⟨2, 2, true, false⟩
def C : Event := created
def W : Event := modified
def op1 : ROp := .watch d false 1 C true
def op2 : ROp := .watch d false 2 W true
def req1 : Sched.Req := .watch d false 1 C
def req2 : Sched.Req := .watch d false 2 W
def t1 : St := (Rec.watchOp I .ok Rec.init d false 1 C).1
def t2 : St := (Rec.watchOp I .ok t1 d false 2 W).1
/-- The marker, and two changes of `/d/f`: created; then written, with the first flag still set. -/
def mk : Rep := { path := [], flags := historyDone }
def r1 : Rep := { path := f, flags := C }
def r2 : Rep := { path := f, flags := C ||| W }
def ei : EventInfo := { event := C, path := f, isDir := some false }

theorem good : NonRec.GoodPath d := by simp [d, NonRec.GoodPath]
theorem comps : PathStr.Comps d := by simp [d, PathStr.Comps, PathStr.sep]
theorem uC : NonRec.UserEvents I C := by unfold NonRec.UserEvents; decide
theorem uW : NonRec.UserEvents I W := by unfold NonRec.UserEvents; decide

theorem step1 : Rec.RStep I true Rec.init op1 t1 := Rec.RStep.watch (O := .ok) good uC
theorem step2 : Rec.RStep I true t1 op2 t2 := Rec.RStep.watch (O := .ok) good uW
theorem rOk {r : Rep} (h : r.path = f) : r.Ok := by
  refine .inr ?_; rw [h]; simp [f, NonRec.GoodPath, PathStr.Comps, PathStr.sep]

def w0 : Fsevents.Watch := { path := PathStr.str d, events := C, isrec := false }
def w1 : Fsevents.Watch := { w0 with flushed := true }
def str1 : Streams.S := (Streams.watch {} d .ok).1

def w2 : Fsevents.Watch := { w1 with events := C ||| W }

theorem out1 : (handle w2 C false r1).2 = [ei] := by
  unfold handle Fsevents.Watch.dispatch1
  simp only [Fsevents.splitflags_eq]
  decide

theorem out2 : (handle (handle w2 C false r1).1 C false r2).2 = [] := by
  unfold handle Fsevents.Watch.dispatch1
  simp only [Fsevents.splitflags_eq]
  decide

/-- Channel 1 watches `/d` for Create; the history of the stream is done. -/
def s1 : MSt :=
  { sys := { Sched.State.init Y with tree := t1, next := 1 }, str := str1,
    heap := put (put (MSt.init.heap) 0 w0) 0 (handle w0 C false mk).1, log := [(.watch d C, true)] }

theorem run1 : MRun cfg true [] MSt.init [op1] [(1, [mk])] [] s1 := by
  have h := MRun.refl (cfg := cfg) (safe := true) (pre := []) (s := MSt.init)
  have h := h.step (.go _ _ (.call (Y := Y) req1 (show NonRec.GoodPath d ∧ NonRec.UserEvents I C from ⟨good, uC⟩) trivial) trivial) (by simp)
  have h := h.step (.go _ _ (.lock 0 req1 [] [] rfl (by rintro ⟨_, _, _, _, h⟩; cases h)
    (by rintro ⟨_, _, h | h⟩ <;> cases h <;> contradiction) (by rintro ⟨_, h | h⟩ <;> cases h)) trivial) (by simp)
  have h := h.step (.plan req1 [op1] t1 [(.watch d C, true)] 0 (.head _) rfl
    ⟨Rec.RSteps.nil.snoc step1, by decide, op1, ⟨comps, _, rfl⟩, .inl rfl⟩ rfl) (by
      intro _ op hop
      simp only [List.mem_singleton] at hop
      subst hop
      exact ⟨rfl, .inr fun x _ hx => absurd rfl hx⟩)
  have h := h.step (.watch (.watch d C) d C false .ok [] (.inl ⟨rfl, rfl⟩) rfl rfl) (by simp)
  have h := h.step (.effect 0 req1 [] [] t1 rfl rfl rfl rfl) (by simp)
  have h := h.step (.go _ _ (.unlock 0 req1 [] [] rfl) trivial) (by simp)
  have h := h.step (.go _ _ (.ret 0 req1 [] [] rfl) trivial) (by simp)
  have h := h.step (.report 1 0 d [mk] (.head _) (by intro r hr; simp only [List.mem_singleton] at hr; subst hr; exact .inl (by decide)) rfl) (by simp)
  have h := h.step (.loadEvents _ rfl rfl) (by simp)
  have h := h.step (.loadRec _ C rfl rfl rfl) (by simp)
  have h := h.step (.next _ C false mk [] rfl rfl rfl rfl rfl) (by simp)
  have h := h.step (.done _ C false rfl rfl rfl rfl (by decide)) (by simp)
  exact h

/-- Meanwhile channel 2 watches `/d` for Write, and the reports are handled while that call runs. -/
theorem run2 : ∃ s', MRun cfg true [op1] s1 [op2] [(1, [r1, r2])] [(.user 1, ei)] s' ∧ s'.Quiet := by
  have h := MRun.refl (cfg := cfg) (safe := true) (pre := [op1]) (s := s1)
  have h := h.step (.report 1 0 d [r1, r2] (.head _) (by
    intro r hr; simp only [List.mem_cons, List.not_mem_nil, or_false] at hr; rcases hr with rfl | rfl <;> exact rOk rfl) rfl) (by simp)
  have h := h.step (.go _ _ (.call (Y := Y) req2 (show NonRec.GoodPath d ∧ NonRec.UserEvents I W from ⟨good, uW⟩) trivial) trivial) (by simp)
  have h := h.step (.go _ _ (.lock 1 req2 [] [] rfl (by rintro ⟨_, _, _, _, h⟩; cases h)
    (by rintro ⟨_, _, h | h⟩ <;> cases h <;> contradiction) (by rintro ⟨_, h | h⟩ <;> cases h)) trivial) (by simp)
  have h := h.step (.loadEvents _ rfl rfl) (by simp)
  have h := h.step (.plan req2 [op2] t2 [(.rewatch d C (C ||| W), true)] 1 (.head _) rfl
    ⟨Rec.RSteps.nil.snoc step2, by decide, op2, ⟨comps, _, rfl⟩, .inl rfl⟩ rfl) (by
      intro _ op hop
      simp only [List.mem_singleton] at hop
      subst hop
      exact ⟨rfl, .inl ⟨d, List.prefix_rfl, by decide⟩⟩)
  have h := h.step (.swap (.rewatch d C (C ||| W)) d C (C ||| W) false 0 1 [] (.inl ⟨rfl, rfl⟩) rfl rfl rfl rfl) (by simp)
  have h := h.step (.loadRec _ C rfl rfl rfl) (by simp)
  have h := h.step (.next _ C false r1 [r2] rfl rfl rfl rfl rfl) (by simp)
  have h := h.step (.send _ ei [] rfl out1 (by decide)) (by simp)
  have h := h.step (.next _ C false r2 [] rfl rfl rfl rfl rfl) (by simp)
  have h := h.step (.store 0 false rfl) (by simp)
  have h := h.step (.done _ C false rfl rfl rfl rfl out2) (by simp)
  have h := h.step (.go _ _ (.spawn ei [] rfl) trivial) (by simp)
  have h := h.step (.effect 1 req2 [] [] t2 rfl rfl rfl rfl) (by simp)
  have h := h.step (.go _ _ (.unlock 1 req2 [] [] rfl) trivial) (by simp)
  have h := h.step (.go _ _ (.rlock 2 ei [] [] rfl (by rintro ⟨_, _, h | h⟩ <;> cases h <;> contradiction)
    (by rintro ⟨_, h | h⟩ <;> cases h)
    (by rintro _ (⟨_, _, h⟩ | ⟨_, h⟩) <;> cases h <;> contradiction)) trivial) (by simp)
  have h := h.step (.go _ _ (.pick 2 ei [] (.user 1) [] [] rfl (by decide)) trivial) (by simp)
  have h := h.step (.go _ _ (.send 2 ei [] (.user 1) [] [] rfl) trivial) (by simp)
  have hs : Rec.sends I t2.root ei = [.user 1] := by decide
  have h := h.step (.go _ _ (.fin 2 ei [.user 1] [] [] rfl (by intro k; exact Nat.le_of_eq (congrArg (List.count k) hs)) (by decide)) trivial) (by simp)
  exact ⟨_, h, rfl, rfl, rfl⟩

/-- The theorem gives the one signal. -/
example : ∃ (s' : MSt) (tp : Path) (k : Nat) (m : Last), MRun cfg true [op1] s1 [op2] [(1, [r1, r2])] [(.user 1, ei)] s' ∧ (k, tp) ∈ s'.str.kern ∧
    [(Key.user 1, ei)].countP (Gets 1 (flag 8) f) = copies (rregOf [op1]) 1 (flag 8) f * shows (flag 8) m (flagsOf k f [(1, [r1, r2])]) := by
  obtain ⟨s', h, hq⟩ := run2
  obtain ⟨tp, w, k, h1, h2, h3, h4, h5⟩ := C96_mac_signalled run1 rfl ⟨rfl, rfl, rfl⟩ (c := 1) (i := 8) (by omega) (by decide) (x := f)
    (by simp [f, PathStr.Comps, PathStr.sep]) (by simp [f]) (by decide) (by decide)
  have h2' : s1.str.table = [(d, (0, 1))] := rfl
  rw [h2'] at h2
  have h2 := GoMap.mem_of_get? h2
  simp only [List.mem_singleton, Prod.mk.injEq] at h2
  obtain ⟨rfl, rfl, rfl⟩ := h2
  obtain ⟨m, h6⟩ := h5 (fun h => absurd h (by decide)) ⟨[mk], by simp, mk, by simp, by decide, by decide⟩
  obtain ⟨h7, h8⟩ := h6 _ _ _ s' h (by
    intro op hop
    simp only [List.mem_singleton] at hop
    subst hop
    simp [op2, Spares])
  refine ⟨s', _, _, m, h, h7, h8 ?_ hq⟩
  intro batch hb y hy _
  simp only [List.mem_singleton, Prod.mk.injEq] at hb
  rw [hb.2] at hy
  simp only [List.mem_cons, List.not_mem_nil, or_false] at hy
  rcases hy with rfl | rfl <;> decide

/-- What a stream shows of a file that is created, written, removed and created again, if FSEvents keeps the flags. -/
example : shows created .fresh [created, created ||| modified, created ||| modified ||| removed, created ||| modified ||| removed] = 2 ∧
    shows removed .fresh [created, created ||| modified, created ||| modified ||| removed, created ||| modified ||| removed] = 1 ∧
    shows modified .fresh [created, created ||| modified, created ||| modified ||| removed, created ||| modified ||| removed] = 2 := by decide

end Ex

end Mac
end Verif
