/-
Invariants of the Windows watcher for executions without errors and without the races of C60-C62.
-/
import Verif.PropsReaddcw2

namespace Verif
namespace Dcw
open Platform (readdcw)

/-! ### Counting packets -/

def Wd.slots (wd : Wd) : List Nat := wd.g0.toList ++ wd.g1.toList

/-- Outstanding reads, packets in the queue and in the hand of the loop. -/
def tok (s : St) (g : Nat) : Nat :=
  s.reads.countP (fun r => decide (r.g = g)) + s.queue.count g + (if s.loop = .got g then 1 else 0)

/-- The packets of which `loopstate` has still to hear. -/
def pend (s : St) (g : Nat) : Nat := tok s g + (if s.loop = .st g then 1 else 0)

/-- What holds of the memory in every state. -/
structure Base (s : St) : Prop where
  rd : ∀ r ∈ s.reads, (s.grips r.g).handle = some r.h ∧ r.native = encode (s.grips r.g).filter ∧ r.sub = (s.grips r.g).recursive
  tok : ∀ g, tok s g ≤ 1
  inj : ∀ g g' h, (s.grips g).handle = some h → (s.grips g').handle = some h → g = g'
  open' : ∀ g h, (s.grips g).handle = some h → h ∈ s.opened ∧ h < s.nh
  closed : ∀ h ∈ s.opened, ∃ g, (s.grips g).handle = some h
  own : ∀ g, (0 < pend s g ∨ (s.grips g).handle ≠ none) → (s.grips g).parent < s.nw ∧ g ∈ (s.wds (s.grips g).parent).slots
  slot : ∀ w < s.nw, ∀ g ∈ (s.wds w).slots, g < s.ng ∧ (s.grips g).parent = w ∧ (s.grips g).path = (s.wds w).path ∧
    (s.grips g).linked = true
  nd : ∀ w < s.nw, (s.wds w).slots.Nodup
  tab : ∀ p w, s.m.get? p = some w → w < s.nw ∧ (s.wds w).path = p

theorem upd_same {α : Type} (f : Nat → α) (k : Nat) (v : α) : upd f k v k = v := by simp [upd]
theorem upd_ne {α : Type} (f : Nat → α) {k x : Nat} (v : α) (h : x ≠ k) : upd f k v x = f x := by simp [upd, h]
theorem upd_upd {α : Type} (f : Nat → α) (k : Nat) (v v' : α) : upd (upd f k v) k v' = upd f k v' := by
  funext x; unfold upd; split <;> rfl

theorem Base.init : Base St.init where
  rd := by intro r h; cases h
  tok := by intro g; simp [Dcw.tok, St.init]
  inj := by intro g g' h h1; cases h1
  open' := by intro g h h1; cases h1
  closed := by intro h h1; cases h1
  own := by
    intro g h
    rcases h with h | h
    · simp [pend, Dcw.tok, St.init] at h
    · exact absurd rfl h
  slot := by intro w h; cases h
  nd := by intro w h; cases h
  tab := by intro p w h; cases h

/-! ### Closing -/

theorem filter_h {s : St} (hb : Base s) {g h : Nat} (hg : (s.grips g).handle = some h) (r : Read) (hr : r ∈ s.reads) :
    r.h = h ↔ r.g = g := by
  have h1 := (hb.rd r hr).1
  constructor
  · intro e; rw [e] at h1; exact hb.inj _ _ _ h1 hg
  · intro e; rw [e, hg] at h1; exact (Option.some.inj h1).symm

/-- What `closeOne` does. -/
theorem closeOne_base {s : St} (hb : Base s) (o : Option Nat) :
    Base (closeOne s o).1 ∧ (∀ g, tok (closeOne s o).1 g = tok s g) ∧ (closeOne s o).2 = true ∧
    (closeOne s o).1.wds = s.wds ∧ (closeOne s o).1.nw = s.nw ∧ (closeOne s o).1.ng = s.ng ∧ (closeOne s o).1.m = s.m ∧
    (closeOne s o).1.loop = s.loop ∧
    (∀ g, (closeOne s o).1.grips g = if o = some g then { s.grips g with handle := none } else s.grips g) := by
  unfold closeOne
  cases o with
  | none => exact ⟨hb, fun _ => rfl, rfl, rfl, rfl, rfl, rfl, rfl, fun _ => by simp⟩
  | some g =>
    simp only
    cases hh : (s.grips g).handle with
    | none =>
      refine ⟨hb, fun _ => rfl, rfl, rfl, rfl, rfl, rfl, rfl, fun x => ?_⟩
      by_cases hx : g = x
      · subst hx
        rw [if_pos rfl]
        generalize s.grips g = v at hh
        cases v; simp only at hh; subst hh; rfl
      · rw [if_neg (by simpa using hx)]
    | some h =>
      simp only
      have hf1 : s.reads.filter (fun r => decide (r.h ≠ h)) = s.reads.filter (fun r => decide (r.g ≠ g)) := by
        apply List.filter_congr
        intro r hr
        simp [filter_h hb hh r hr]
      have hf2 : s.reads.filter (fun r => decide (r.h = h)) = s.reads.filter (fun r => decide (r.g = g)) := by
        apply List.filter_congr
        intro r hr
        simp [filter_h hb hh r hr]
      have hop := hb.open' g h hh
      have htok : ∀ x, tok { s.setGrip g { s.grips g with handle := none } with
          opened := s.opened.filter (· ≠ h)
          reads := s.reads.filter (·.h ≠ h)
          queue := s.queue ++ (s.reads.filter (·.h = h)).map (·.g) } x = tok s x := by
        intro x
        unfold tok
        simp only [St.setGrip]
        rw [hf1, hf2, List.count_append]
        congr 1
        have h3 : List.count x ((s.reads.filter fun r => decide (r.g = g)).map (·.g)) =
            s.reads.countP (fun r => decide (r.g = g) && decide (r.g = x)) := by
          rw [List.count, List.countP_map, List.countP_filter]
          apply List.countP_congr
          intro r _
          simp only [Function.comp, Bool.and_eq_true, beq_iff_eq, decide_eq_true_eq]
          exact and_comm
        have h4 : (s.reads.filter fun r => decide (r.g ≠ g)).countP (fun r => decide (r.g = x)) =
            s.reads.countP (fun r => decide (r.g = x) && decide (r.g ≠ g)) := List.countP_filter ..
        rw [h3, h4]
        have h5 : s.reads.countP (fun r => decide (r.g = x)) =
            s.reads.countP (fun r => decide (r.g = x) && decide (r.g ≠ g)) +
              s.reads.countP (fun r => decide (r.g = g) && decide (r.g = x)) := by
          generalize s.reads = l
          induction l with
          | nil => rfl
          | cons r l ih =>
            simp only [List.countP_cons]
            rw [ih]
            have hd : decide (r.g ≠ g) = !decide (r.g = g) := decide_not
            rw [hd]
            cases decide (r.g = x) <;> cases decide (r.g = g) <;> simp <;> omega
        omega
      refine ⟨⟨?_, ?_, ?_, ?_, ?_, ?_, ?_, hb.nd, hb.tab⟩, htok, decide_eq_true hop.1, rfl, rfl, rfl, rfl, rfl, fun x => ?_⟩
      · intro r hr
        simp only [St.setGrip] at hr ⊢
        rw [hf1, List.mem_filter] at hr
        rw [upd_ne _ _ (by simpa using hr.2)]
        exact hb.rd r hr.1
      · intro x; rw [htok]; exact hb.tok x
      · intro x y k h1 h2
        simp only [St.setGrip] at h1 h2
        by_cases hx : x = g
        · subst hx; rw [upd_same] at h1; cases h1
        · by_cases hy : y = g
          · subst hy; rw [upd_same] at h2; cases h2
          · rw [upd_ne _ _ hx] at h1; rw [upd_ne _ _ hy] at h2; exact hb.inj _ _ _ h1 h2
      · intro x k h1
        simp only [St.setGrip] at h1 ⊢
        by_cases hx : x = g
        · subst hx; rw [upd_same] at h1; cases h1
        · rw [upd_ne _ _ hx] at h1
          have h2 := hb.open' x k h1
          refine ⟨List.mem_filter.2 ⟨h2.1, decide_eq_true fun e => ?_⟩, h2.2⟩
          subst e
          exact hx (hb.inj _ _ _ h1 hh)
      · intro k hk
        simp only [St.setGrip] at hk ⊢
        rw [List.mem_filter] at hk
        obtain ⟨x, hx⟩ := hb.closed k hk.1
        refine ⟨x, ?_⟩
        rw [upd_ne]
        · exact hx
        · rintro rfl
          rw [hh] at hx
          have := Option.some.inj hx
          simp [this] at hk
      · intro x hx
        have h1 : (upd s.grips g { s.grips g with handle := none } x).parent = (s.grips x).parent := by
          unfold upd; split
          · rename_i e; rw [e]
          · rfl
        simp only [St.setGrip]
        rw [h1]
        apply hb.own
        rcases hx with hx | hx
        · left
          unfold pend at hx ⊢
          rw [htok] at hx
          exact hx
        · right
          simp only [St.setGrip] at hx
          by_cases e : x = g
          · subst e; rw [upd_same] at hx; exact absurd rfl hx
          · rw [upd_ne _ _ e] at hx; exact hx
      · intro w hw x hx
        have h1 := hb.slot w hw x hx
        simp only [St.setGrip]
        unfold upd
        split
        · rename_i e; subst e; exact h1
        · exact h1
      · simp only [St.setGrip, upd, Option.some.injEq]
        by_cases e : x = g
        · subst e; simp
        · rw [if_neg e, if_neg (Ne.symm e)]

/-- What `closeHandle` does. -/
theorem closeHandle_base {s : St} (hb : Base s) {w : Nat} (hw : w < s.nw) :
    Base (closeHandle s w).1 ∧ (∀ g, tok (closeHandle s w).1 g = tok s g) ∧ (closeHandle s w).2 = true ∧
    (closeHandle s w).1.wds = s.wds ∧ (closeHandle s w).1.nw = s.nw ∧ (closeHandle s w).1.ng = s.ng ∧
    (closeHandle s w).1.m = s.m ∧ (closeHandle s w).1.loop = s.loop ∧
    (∀ g, (closeHandle s w).1.grips g =
      if g ∈ (s.wds w).slots then { s.grips g with handle := none } else s.grips g) := by
  obtain ⟨a1, a2, a3, a4, a5, a6, a7, a8, a9⟩ := closeOne_base hb (s.wds w).g0
  obtain ⟨b1, b2, b3, b4, b5, b6, b7, b8, b9⟩ := closeOne_base a1 (s.wds w).g1
  unfold closeHandle
  refine ⟨b1, fun g => (b2 g).trans (a2 g), by simp [a3, b3], b4.trans a4, b5.trans a5, b6.trans a6, b7.trans a7, b8.trans a8,
    fun g => ?_⟩
  simp only
  rw [b9, a9]
  unfold Wd.slots
  have hn := hb.nd w hw
  unfold Wd.slots at hn
  simp only [List.mem_append, Option.mem_toList]
  by_cases h0 : (s.wds w).g0 = some g <;> by_cases h1 : (s.wds w).g1 = some g <;> simp [h0, h1]

/-! ### Opening -/

/-- The state after a handle was opened for the slot `i` of the entry `w` with the memory `g`. -/
def put (s : St) (w : Nat) (i : Bool) (g ng : Nat) (f : Event) : St :=
  { s with
    grips := upd s.grips g { handle := some s.nh, filter := f, recursive := (s.wds w).recursive, path := (s.wds w).path,
                             parent := w, linked := true }
    ng := ng
    wds := upd s.wds w { (s.wds w).setSlot i (some g) with count := (s.wds w).count + 1 }
    nh := s.nh + 1
    opened := s.nh :: s.opened
    reads := s.reads ++ [⟨s.nh, g, encode f, (s.wds w).recursive⟩] }

theorem setSlot_count (wd : Wd) (i : Bool) (g : Option Nat) : (wd.setSlot i g).count = wd.count := by cases i <;> rfl

theorem updateGrip_new {s : St} {w : Nat} {i : Bool} {f : Event} (hs : (s.wds w).slot i = none) (hf : encode f ≠ 0) :
    updateGrip s w i false f {} = (put s w i s.ng (s.ng + 1) f, true) := by
  unfold updateGrip
  simp only [Bool.false_eq_true, if_false, hs]
  have hr : newGrip s w f {} =
      ({ put s w i s.ng (s.ng + 1) f with wds := s.wds }, some s.ng) := by
    unfold newGrip register readDirChanges
    have hc : (True ∧ encode f ≠ 0 ∧ s.nh ∈ s.nh :: s.opened) = True :=
      eq_true ⟨trivial, hf, List.mem_cons_self⟩
    simp only [if_true, St.setGrip, upd_same, hc]
    simp only [if_true, Bool.false_eq_true, if_false, upd_upd, upd_same, put]
  rw [hr]
  simp only [Option.isSome_some, if_true, St.setWd, upd_same, upd_upd, setSlot_count]
  rfl

theorem updateGrip_old {s : St} {w : Nat} {i : Bool} {f : Event} {g : Nat} (hs : (s.wds w).slot i = some g) (hf : encode f ≠ 0)
    (hp : (s.grips g).parent = w) (hq : (s.grips g).path = (s.wds w).path) (hl : (s.grips g).linked = true) :
    updateGrip s w i false f {} = (put s w i g s.ng f, true) := by
  unfold updateGrip
  simp only [Bool.false_eq_true, if_false, hs]
  have hss : (s.wds w).setSlot i (some g) = s.wds w := by
    cases i <;> simp only [Wd.setSlot, Wd.slot] at hs ⊢ <;> rw [← hs]
  unfold register readDirChanges
  have hc : (True ∧ encode f ≠ 0 ∧ s.nh ∈ s.nh :: s.opened) = True :=
    eq_true ⟨trivial, hf, List.mem_cons_self⟩
  simp only [if_true, St.setGrip, upd_same, hc]
  simp only [if_true, St.setWd, put, hss, hp, hq, hl, upd_upd]

theorem slots_set (wd : Wd) (i : Bool) {g : Nat} (h : wd.slot i = none ∨ wd.slot i = some g) (x : Nat) :
    x ∈ (wd.setSlot i (some g)).slots ↔ x = g ∨ x ∈ wd.slots := by
  unfold Wd.slots
  cases i <;> simp only [Wd.setSlot, Wd.slot] at h ⊢ <;> rcases h with h | h <;> simp [h] <;> grind

theorem tok_put {s : St} {w : Nat} {i : Bool} {g ng : Nat} {f : Event} (x : Nat) :
    tok (put s w i g ng f) x = tok s x + if x = g then 1 else 0 := by
  unfold tok put
  simp only [List.countP_append, List.countP_singleton]
  by_cases h : x = g
  · subst h; simp; omega
  · have : ¬ g = x := fun e => h e.symm
    simp [h, this]

theorem put_base {s : St} (hb : Base s) {w : Nat} {i : Bool} {g ng : Nat} {f : Event} (hw : w < s.nw)
    (hs : (s.wds w).slot i = none ∨ (s.wds w).slot i = some g) (hp : pend s g = 0) (hh : (s.grips g).handle = none)
    (hg : g < ng) (hng : s.ng ≤ ng) (hnew : g ∈ (s.wds w).slots ∨ s.ng ≤ g) (hnd : (s.wds w).slot i = none → s.ng ≤ g) :
    Base (put s w i g ng f) := by
  have hset := slots_set (s.wds w) i hs
  have hother : ∀ w' < s.nw, w' ≠ w → g ∉ (s.wds w').slots := by
    intro w' hw' hne hm
    have h1 := hb.slot w' hw' g hm
    rcases hnew with h | h
    · have h2 := hb.slot w hw g h
      exact hne (h1.2.1.symm.trans h2.2.1)
    · omega
  have hnr : ∀ r ∈ s.reads, r.g ≠ g := by
    intro r hr e
    have h0 : tok s g = 0 := by unfold pend at hp; omega
    unfold Dcw.tok at h0
    have h1 : s.reads.countP (fun r => decide (r.g = g)) = 0 := by omega
    rw [List.countP_eq_zero] at h1
    exact h1 r hr (decide_eq_true e)
  refine ⟨?_, ?_, ?_, ?_, ?_, ?_, ?_, ?_, ?_⟩
  · intro r hr
    simp only [Dcw.put, List.mem_append, List.mem_singleton] at hr ⊢
    rcases hr with hr | rfl
    · rw [upd_ne _ _ (hnr r hr)]; exact hb.rd r hr
    · simp only [upd_same]; exact ⟨trivial, trivial, trivial⟩
  · intro x
    rw [tok_put]
    by_cases h : x = g
    · subst h
      have h0 : Dcw.tok s x = 0 := by unfold pend at hp; omega
      simp [h0]
    · rw [if_neg h]; exact hb.tok x
  · intro x y k h1 h2
    simp only [Dcw.put] at h1 h2
    by_cases hx : x = g
    · by_cases hy : y = g
      · rw [hx, hy]
      · subst hx
        rw [upd_same] at h1; rw [upd_ne _ _ hy] at h2
        have := (hb.open' _ _ h2).2
        simp only at h1
        have := Option.some.inj h1
        omega
    · by_cases hy : y = g
      · subst hy
        rw [upd_same] at h2; rw [upd_ne _ _ hx] at h1
        have := (hb.open' _ _ h1).2
        have := Option.some.inj h2
        omega
      · rw [upd_ne _ _ hx] at h1; rw [upd_ne _ _ hy] at h2; exact hb.inj _ _ _ h1 h2
  · intro x k h1
    simp only [Dcw.put] at h1 ⊢
    by_cases hx : x = g
    · subst hx; rw [upd_same] at h1
      have := Option.some.inj h1
      subst this
      exact ⟨by simp, by omega⟩
    · rw [upd_ne _ _ hx] at h1
      have := hb.open' _ _ h1
      exact ⟨by simp [this.1], by omega⟩
  · intro k hk
    simp only [Dcw.put, List.mem_cons] at hk ⊢
    rcases hk with rfl | hk
    · exact ⟨g, by rw [upd_same]⟩
    · obtain ⟨x, hx⟩ := hb.closed k hk
      refine ⟨x, ?_⟩
      rw [upd_ne]
      · exact hx
      · rintro rfl; rw [hh] at hx; cases hx
  · intro x hx
    by_cases e : x = g
    · subst e
      simp only [Dcw.put, upd_same]
      exact ⟨hw, (hset x).2 (.inl rfl)⟩
    · have h1 : (s.grips x).parent < s.nw ∧ x ∈ (s.wds (s.grips x).parent).slots := by
        apply hb.own
        rcases hx with hx | hx
        · left
          unfold pend at hx ⊢
          rw [tok_put, if_neg e] at hx
          exact hx
        · right
          simp only [Dcw.put] at hx
          rw [upd_ne _ _ e] at hx
          exact hx
      simp only [Dcw.put]
      rw [upd_ne _ _ e]
      refine ⟨h1.1, ?_⟩
      by_cases hpw : (s.grips x).parent = w
      · rw [hpw, upd_same]
        rw [hpw] at h1
        exact (hset x).2 (.inr h1.2)
      · rw [upd_ne _ _ hpw]; exact h1.2
  · intro w' hw' x hx
    simp only [Dcw.put] at hw' hx ⊢
    by_cases hww : w' = w
    · subst hww
      rw [upd_same] at hx ⊢
      have hpath : ({ (s.wds w').setSlot i (some g) with count := (s.wds w').count + 1 } : Wd).path = (s.wds w').path := by
        cases i <;> rfl
      rw [hpath]
      rcases (hset x).1 hx with rfl | hx
      · rw [upd_same]; exact ⟨hg, rfl, rfl, rfl⟩
      · by_cases e : x = g
        · subst e; rw [upd_same]; exact ⟨hg, rfl, rfl, rfl⟩
        · rw [upd_ne _ _ e]
          have := hb.slot w' hw' x hx
          exact ⟨by omega, this.2⟩
    · rw [upd_ne _ _ hww] at hx ⊢
      have hne : x ≠ g := by rintro rfl; exact hother w' hw' hww hx
      rw [upd_ne _ _ hne]
      have := hb.slot w' hw' x hx
      exact ⟨by omega, this.2⟩
  · intro w' hw'
    simp only [Dcw.put] at hw' ⊢
    by_cases hww : w' = w
    · subst hww
      rw [upd_same]
      have hn := hb.nd w' hw'
      rcases hs with hs | hs
      · have hng' : g ∉ (s.wds w').slots := fun hm => by
          have := (hb.slot w' hw' g hm).1
          have := hnd hs
          omega
        unfold Wd.slots at hn hng' ⊢
        cases i <;> simp only [Wd.setSlot, Wd.slot] at hs ⊢ <;> rw [hs] at hn hng' <;> simp at hn hng' ⊢
        · exact ⟨hng', hn⟩
        · cases hg0 : (s.wds w').g0 with
          | none => simp
          | some y =>
            rw [hg0] at hng'
            simp
            exact fun e => hng' (by rw [e])
      · have : (s.wds w').setSlot i (some g) = s.wds w' := by
          cases i <;> simp only [Wd.setSlot, Wd.slot] at hs ⊢ <;> rw [← hs]
        rw [this]; exact hn
    · rw [upd_ne _ _ hww]; exact hb.nd w' hw'
  · intro q w' hq
    have h1 := hb.tab q w' hq
    refine ⟨h1.1, ?_⟩
    simp only [Dcw.put]
    by_cases hww : w' = w
    · subst hww; rw [upd_same]
      have hpath : ({ (s.wds w').setSlot i (some g) with count := (s.wds w').count + 1 } : Wd).path = (s.wds w').path := by
        cases i <;> rfl
      rw [hpath]; exact h1.2
    · rw [upd_ne _ _ hww]; exact h1.2

/-- A slot whose handle is closed and of which nothing is outstanding is given up. -/
theorem reset_base {s : St} (hb : Base s) {w : Nat} {i : Bool}
    (h : ∀ g, (s.wds w).slot i = some g → pend s g = 0 ∧ (s.grips g).handle = none) :
    Base (s.setWd w ((s.wds w).setSlot i none)) := by
  have hsub : ∀ x ∈ ((s.wds w).setSlot i none).slots, x ∈ (s.wds w).slots := by
    intro x hx
    unfold Wd.slots at hx ⊢
    cases i <;> simp [Wd.setSlot] at hx ⊢
    · exact .inr hx
    · exact .inl hx
  have hsup : ∀ x ∈ (s.wds w).slots, x ∈ ((s.wds w).setSlot i none).slots ∨ (s.wds w).slot i = some x := by
    intro x hx
    unfold Wd.slots at hx ⊢
    cases i <;> simp [Wd.setSlot, Wd.slot] at hx ⊢
    · exact hx.symm
    · exact hx
  have hpath : ((s.wds w).setSlot i none).path = (s.wds w).path := by cases i <;> rfl
  refine ⟨hb.rd, hb.tok, hb.inj, hb.open', hb.closed, ?_, ?_, ?_, ?_⟩
  · intro x hx
    have h1 := hb.own x hx
    refine ⟨h1.1, ?_⟩
    simp only [St.setWd]
    by_cases hpw : (s.grips x).parent = w
    · rw [hpw] at h1 ⊢
      rw [upd_same]
      rcases hsup x h1.2 with h2 | h2
      · exact h2
      · have h3 := h x h2
        rcases hx with hx | hx
        · have : pend s x = 0 := h3.1
          have hx' : 0 < pend s x := hx
          omega
        · exact absurd h3.2 hx
    · rw [upd_ne _ _ hpw]; exact h1.2
  · intro w' hw' x hx
    simp only [St.setWd] at hx ⊢
    by_cases hww : w' = w
    · subst hww
      rw [upd_same] at hx ⊢
      rw [hpath]
      exact hb.slot w' hw' x (hsub x hx)
    · rw [upd_ne _ _ hww] at hx ⊢; exact hb.slot w' hw' x hx
  · intro w' hw'
    simp only [St.setWd]
    by_cases hww : w' = w
    · subst hww
      rw [upd_same]
      have hn := hb.nd w' hw'
      unfold Wd.slots at hn ⊢
      cases i <;> simp [Wd.setSlot]
      · cases (s.wds w').g1 <;> simp
      · cases (s.wds w').g0 <;> simp
    · rw [upd_ne _ _ hww]; exact hb.nd w' hw'
  · intro q w' hq
    have h1 := hb.tab q w' hq
    refine ⟨h1.1, ?_⟩
    simp only [St.setWd]
    by_cases hww : w' = w
    · subst hww; rw [upd_same, hpath]; exact h1.2
    · rw [upd_ne _ _ hww]; exact h1.2

end Dcw
end Verif
