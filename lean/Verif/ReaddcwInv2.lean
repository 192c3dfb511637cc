/-
The Windows watcher: opening the handles of an entry.
-/
import Verif.ReaddcwInv

namespace Verif
namespace Dcw
open Platform (readdcw)

/-! ### One handle -/

theorem fresh {s : St} (hb : Base s) {g : Nat} (h : s.ng ≤ g) : pend s g = 0 ∧ (s.grips g).handle = none := by
  have key : ¬ (0 < pend s g ∨ (s.grips g).handle ≠ none) := by
    intro hx
    have h1 := hb.own g hx
    have := (hb.slot _ h1.1 g h1.2).1
    omega
  constructor
  · cases hp : pend s g with
    | zero => rfl
    | succ n => exact absurd (.inl (by omega)) key
  · cases hh : (s.grips g).handle with
    | none => rfl
    | some k => exact absurd (.inr (by rw [hh]; simp)) key

theorem mem_slots {wd : Wd} {g : Nat} : g ∈ wd.slots ↔ ∃ i, wd.slot i = some g := by
  unfold Wd.slots
  simp only [List.mem_append, Option.mem_toList, Option.mem_def]
  constructor
  · rintro (h | h)
    · exact ⟨false, h⟩
    · exact ⟨true, h⟩
  · rintro ⟨i, h⟩
    cases i
    · exact .inl h
    · exact .inr h

/-- What a successful `updateGrip` does to the slot `i` of the entry `w`; `o` is what the slot is afterwards. -/
structure Eff (s s' : St) (w : Nat) (i b : Bool) (f : Event) (o : Option Nat) : Prop where
  base : Base s'
  nw : s'.nw = s.nw
  m : s'.m = s.m
  queue : s'.queue = s.queue
  loop : s'.loop = s.loop
  ng : s.ng ≤ s'.ng
  wds : ∀ w', w' ≠ w → s'.wds w' = s.wds w'
  wd : s'.wds w = { (s.wds w).setSlot i o with count := (s.wds w).count + if b then 0 else 1 }
  reset : b = true → o = none
  up : b = false → ∃ g h, o = some g ∧ ((s.wds w).slot i = some g ∨ s.ng ≤ g) ∧ (s'.grips g).handle = some h ∧
    (s'.grips g).filter = f ∧ (s'.grips g).recursive = (s.wds w).recursive ∧ tok s' g = 1
  rest : ∀ x, o ≠ some x → s'.grips x = s.grips x ∧ tok s' x = tok s x

theorem updateGrip_ok {s : St} (hb : Base s) {w : Nat} (hw : w < s.nw) (i b : Bool) (f : Event)
    (hfree : ∀ g, (s.wds w).slot i = some g → pend s g = 0 ∧ (s.grips g).handle = none) (hf : b = false → encode f ≠ 0) :
    ∃ s' o, updateGrip s w i b f {} = (s', true) ∧ Eff s s' w i b f o := by
  cases b with
  | true =>
    refine ⟨_, none, rfl, reset_base hb hfree, rfl, rfl, rfl, rfl, Nat.le_refl _, fun w' h => ?_, ?_, fun _ => rfl, ?_, fun x _ => ⟨rfl, rfl⟩⟩
    · simp only [St.setWd]; rw [upd_ne _ _ h]
    · simp only [St.setWd]; rw [upd_same]
      cases i <;> simp [Wd.setSlot]
    · intro h; cases h
  | false =>
    cases hs : (s.wds w).slot i with
    | none =>
      have hfr := fresh hb (Nat.le_refl s.ng)
      refine ⟨_, some s.ng, updateGrip_new hs (hf rfl), put_base hb hw (.inl hs) hfr.1 hfr.2 (by omega) (by omega)
        (.inr (Nat.le_refl _)) (fun _ => Nat.le_refl _), rfl, rfl, rfl, rfl, by simp [put], fun w' h => ?_, ?_, ?_, ?_, ?_⟩
      · simp only [put]; rw [upd_ne _ _ h]
      · simp only [put]; rw [upd_same]; rfl
      · intro h; cases h
      · intro _
        refine ⟨s.ng, s.nh, rfl, .inr (Nat.le_refl _), ?_, ?_, ?_, ?_⟩
        · simp only [put]; rw [upd_same]
        · simp only [put]; rw [upd_same]
        · simp only [put]; rw [upd_same]
        · rw [tok_put, if_pos rfl]
          have := hfr.1
          unfold pend at this
          omega
      · intro x hx
        have hx' : x ≠ s.ng := fun e => hx (by rw [e])
        refine ⟨?_, ?_⟩
        · simp only [put]; rw [upd_ne _ _ hx']
        · rw [tok_put, if_neg hx']; rfl
    | some g =>
      have hfr := hfree g hs
      have hmem : g ∈ (s.wds w).slots := mem_slots.2 ⟨i, hs⟩
      obtain ⟨hlt, hpar, hpath, hl⟩ := hb.slot w hw g hmem
      refine ⟨_, some g, updateGrip_old hs (hf rfl) hpar hpath hl, put_base hb hw (.inr hs) hfr.1 hfr.2 hlt (Nat.le_refl _)
        (.inl hmem) (fun h => by rw [hs] at h; cases h), rfl, rfl, rfl, rfl, Nat.le_refl _, fun w' h => ?_, ?_, ?_, ?_, ?_⟩
      · simp only [put]; rw [upd_ne _ _ h]
      · simp only [put]; rw [upd_same]; rfl
      · intro h; cases h
      · intro _
        refine ⟨g, s.nh, rfl, .inl hs, ?_, ?_, ?_, ?_⟩
        · simp only [put]; rw [upd_same]
        · simp only [put]; rw [upd_same]
        · simp only [put]; rw [upd_same]
        · rw [tok_put, if_pos rfl]
          have := hfr.1
          unfold pend at this
          omega
      · intro x hx
        have hx' : x ≠ g := fun e => hx (by rw [e])
        refine ⟨?_, ?_⟩
        · simp only [put]; rw [upd_ne _ _ hx']
        · rw [tok_put, if_neg hx']; rfl

/-! ### Both handles -/

/-- Whether a set needs the handle, and with which filter. -/
def has : Bool → Event → Bool
  | false, e => hasFile e
  | true, e => hasDir e

def filt : Bool → Event → Event
  | false, e => fileFilter e
  | true, e => dirFilter e

/-- The handles of the entry are open for the set, each with one packet on its way. -/
def Up (s : St) (w : Nat) (F : Event) : Prop :=
  ∀ i, (has i F = false ∧ (s.wds w).slot i = none) ∨
    (has i F = true ∧ ∃ g h, (s.wds w).slot i = some g ∧ (s.grips g).handle = some h ∧ (s.grips g).filter = filt i F ∧
      (s.grips g).recursive = (s.wds w).recursive ∧ tok s g = 1)

/-- The number of handles for a set. -/
def cnt (F : Event) : BitVec 8 := (if hasFile F then 1 else 0) + if hasDir F then 1 else 0

/-- What a successful `recreate` does. -/
structure Rec (s s' : St) (w : Nat) : Prop where
  base : Base s'
  nw : s'.nw = s.nw
  m : s'.m = s.m
  queue : s'.queue = s.queue
  loop : s'.loop = s.loop
  ng : s.ng ≤ s'.ng
  wds : ∀ w', w' ≠ w → s'.wds w' = s.wds w'
  filter : (s'.wds w).filter = (s.wds w).filter &^ onlyStates
  recu : (s'.wds w).recursive = (s.wds w).recursive
  path : (s'.wds w).path = (s.wds w).path
  count : (s'.wds w).count = cnt (s.wds w).filter
  up : Up s' w (s.wds w).filter
  rest : ∀ x, x < s.ng → x ∉ (s.wds w).slots → s'.grips x = s.grips x ∧ tok s' x = tok s x

theorem dirFilter_ne (F : Event) : encode (dirFilter F) ≠ 0 := by rw [encode_dirFilter]; decide

theorem Base.setWd {s : St} (hb : Base s) (w : Nat) (wd : Wd) (hs : wd.slots = (s.wds w).slots) (hp : wd.path = (s.wds w).path) :
    Base (s.setWd w wd) := by
  refine ⟨hb.rd, hb.tok, hb.inj, hb.open', hb.closed, ?_, ?_, ?_, ?_⟩
  · intro x hx
    have h1 := hb.own x hx
    refine ⟨h1.1, ?_⟩
    simp only [St.setWd]
    by_cases e : (s.grips x).parent = w
    · rw [e, upd_same, hs]; rw [e] at h1; exact h1.2
    · rw [upd_ne _ _ e]; exact h1.2
  · intro w' hw' x hx
    simp only [St.setWd] at hx ⊢
    by_cases e : w' = w
    · subst e; rw [upd_same] at hx ⊢; rw [hp]; rw [hs] at hx; exact hb.slot _ hw' x hx
    · rw [upd_ne _ _ e] at hx ⊢; exact hb.slot _ hw' x hx
  · intro w' hw'
    simp only [St.setWd]
    by_cases e : w' = w
    · subst e; rw [upd_same, hs]; exact hb.nd _ hw'
    · rw [upd_ne _ _ e]; exact hb.nd _ hw'
  · intro q w' hq
    have h1 := hb.tab q w' hq
    refine ⟨h1.1, ?_⟩
    simp only [St.setWd]
    by_cases e : w' = w
    · subst e; rw [upd_same, hp]; exact h1.2
    · rw [upd_ne _ _ e]; exact h1.2

theorem pend_of {s s' : St} {x : Nat} (h : tok s' x = tok s x) (hl : s'.loop = s.loop) : pend s' x = pend s x := by
  unfold pend; rw [h, hl]

theorem recreate_ok {s : St} (hb : Base s) {w : Nat} (hw : w < s.nw) (hc : (s.wds w).count = 0)
    (hfree : ∀ g ∈ (s.wds w).slots, pend s g = 0 ∧ (s.grips g).handle = none)
    (hF : hasFile (s.wds w).filter = true → encode (fileFilter (s.wds w).filter) ≠ 0) :
    ∃ s', recreate s w {} {} = (s', true) ∧ Rec s s' w := by
  obtain ⟨s1, o0, h1, E0⟩ := updateGrip_ok hb hw false (!hasFile (s.wds w).filter) (fileFilter (s.wds w).filter)
    (fun g hg => hfree g (mem_slots.2 ⟨_, hg⟩)) (fun h => hF (by simpa using h))
  have hwd1 := E0.wd
  have hf1 : (s1.wds w).filter = (s.wds w).filter := by rw [hwd1]; rfl
  have hg1 : (s1.wds w).slot true = (s.wds w).slot true := by rw [hwd1]; rfl
  have hg0 : (s1.wds w).slot false = o0 := by rw [hwd1]; rfl
  have hr1 : (s1.wds w).recursive = (s.wds w).recursive := by rw [hwd1]; rfl
  have hp1 : (s1.wds w).path = (s.wds w).path := by rw [hwd1]; rfl
  -- the second slot is not touched by the first
  have hne : ∀ g, (s.wds w).slot true = some g → o0 ≠ some g := by
    intro g hg e
    have hn := E0.base.nd w (by rw [E0.nw]; exact hw)
    unfold Wd.slots at hn
    have h2 : (s1.wds w).g0 = some g := hg0.trans e
    have h3 : (s1.wds w).g1 = some g := hg1.trans hg
    rw [h2, h3] at hn
    simp at hn
  obtain ⟨s2, o1, h2, E1⟩ := updateGrip_ok E0.base (w := w) (by rw [E0.nw]; exact hw) true (!hasDir (s1.wds w).filter)
    (dirFilter (s1.wds w).filter)
    (fun g hg => by
      rw [hg1] at hg
      have h3 := E0.rest g (hne g hg)
      have h4 := hfree g (mem_slots.2 ⟨_, hg⟩)
      rw [h3.1]
      exact ⟨(pend_of h3.2 E0.loop).trans h4.1, h4.2⟩)
    (fun _ => dirFilter_ne _)
  have hwd2 := E1.wd
  have hd0 : (s2.wds w).slot false = o0 := by rw [hwd2]; exact hg0
  have hd1 : (s2.wds w).slot true = o1 := by rw [hwd2]; rfl
  have hr2 : (s2.wds w).recursive = (s.wds w).recursive := by rw [hwd2]; exact hr1
  have hp2 : (s2.wds w).path = (s.wds w).path := by rw [hwd2]; exact hp1
  have hf2 : (s2.wds w).filter = (s.wds w).filter := by rw [hwd2]; exact hf1
  have hne2 : ∀ g, o0 = some g → o1 ≠ some g := by
    intro g hg e
    have hn := E1.base.nd w (by rw [E1.nw, E0.nw]; exact hw)
    unfold Wd.slots at hn
    have h2 : (s2.wds w).g0 = some g := hd0.trans hg
    have h3 : (s2.wds w).g1 = some g := hd1.trans e
    rw [h2, h3] at hn
    simp at hn
  refine ⟨s2.setWd w { s2.wds w with filter := (s2.wds w).filter &^ onlyStates }, ?_, ?_⟩
  · unfold recreate
    simp only [h1, if_true, h2]
  · refine ⟨Base.setWd E1.base _ _ rfl rfl, E1.nw.trans E0.nw, E1.m.trans E0.m, E1.queue.trans E0.queue, E1.loop.trans E0.loop,
      Nat.le_trans E0.ng E1.ng, ?_, ?_, ?_, ?_, ?_, ?_, ?_⟩
    · intro w' h
      simp only [St.setWd]
      rw [upd_ne _ _ h, E1.wds _ h, E0.wds _ h]
    · simp only [St.setWd, upd_same, hf2]
    · simp only [St.setWd, upd_same, hr2]
    · simp only [St.setWd, upd_same, hp2]
    · simp only [St.setWd, upd_same]
      rw [hwd2]
      simp only
      rw [hwd1]
      simp only [hc, Wd.setSlot, cnt]
      cases hasFile (s.wds w).filter <;> cases hasDir (s.wds w).filter <;> simp
    · intro i
      cases i with
      | false =>
        cases hh : hasFile (s.wds w).filter with
        | false =>
          left
          refine ⟨hh, ?_⟩
          simp only [St.setWd, upd_same]
          exact hd0.trans (E0.reset (by rw [hh]; rfl))
        | true =>
          right
          obtain ⟨g, h, e1, -, e2, e3, e4, e5⟩ := E0.up (by rw [hh]; rfl)
          refine ⟨hh, g, h, ?_⟩
          have h3 := E1.rest g (hne2 g e1)
          refine ⟨?_, ?_, ?_, ?_, ?_⟩
          · simp only [St.setWd, upd_same]; exact hd0.trans e1
          · simp only [St.setWd]; rw [h3.1]; exact e2
          · simp only [St.setWd]; rw [h3.1]; exact e3
          · simp only [St.setWd, upd_same]; rw [h3.1, hr2]; exact e4
          · exact h3.2.trans e5
      | true =>
        cases hh : hasDir (s.wds w).filter with
        | false =>
          left
          refine ⟨hh, ?_⟩
          simp only [St.setWd, upd_same]
          exact hd1.trans (E1.reset (by rw [hf1, hh]; rfl))
        | true =>
          right
          obtain ⟨g, h, e1, -, e2, e3, e4, e5⟩ := E1.up (by rw [hf1, hh]; rfl)
          refine ⟨hh, g, h, ?_⟩
          refine ⟨?_, ?_, ?_, ?_, ?_⟩
          · simp only [St.setWd, upd_same]; exact hd1.trans e1
          · simp only [St.setWd]; exact e2
          · simp only [St.setWd]; rw [e3, hf1]; rfl
          · simp only [St.setWd, upd_same]; rw [hr2, e4, hr1]
          · exact e5
    · intro x hx hxs
      have hx0 : o0 ≠ some x := by
        intro e
        cases hb0 : (!hasFile (s.wds w).filter) with
        | true => rw [E0.reset hb0] at e; cases e
        | false =>
          obtain ⟨g, h, e1, e2, -⟩ := E0.up hb0
          rw [e1] at e
          have := Option.some.inj e
          subst this
          rcases e2 with e2 | e2
          · exact hxs (mem_slots.2 ⟨_, e2⟩)
          · omega
      have hx1 : o1 ≠ some x := by
        intro e
        cases hb0 : (!hasDir (s1.wds w).filter) with
        | true => rw [E1.reset hb0] at e; cases e
        | false =>
          obtain ⟨g, h, e1, e2, -⟩ := E1.up hb0
          rw [e1] at e
          have := Option.some.inj e
          subst this
          rcases e2 with e2 | e2
          · rw [hg1] at e2; exact hxs (mem_slots.2 ⟨_, e2⟩)
          · have := E0.ng; omega
      have h3 := E0.rest x hx0
      have h4 := E1.rest x hx1
      exact ⟨h4.1.trans h3.1, h4.2.trans h3.2⟩

/-! ### When the directory cannot be opened -/

/-- The port and the read do not fail, and no event arrives before the entry is known to the loop; opening the directory may
fail. -/
def Ans.Calm (a : Ans) : Prop := a.port = true ∧ a.read = true ∧ a.early = false

theorem Ans.Calm.cases {a : Ans} (h : a.Calm) : a = {} ∨ a.create = false := by
  obtain ⟨c, p, r, e⟩ := a
  obtain ⟨h1, h2, h3⟩ := h
  simp only at h1 h2 h3
  subst h1 h2 h3
  cases c
  · exact .inr rfl
  · exact .inl rfl

/-- What a failed `recreate` does to a new entry. -/
structure Fail (s s' : St) (w : Nat) : Prop where
  base : Base s'
  nw : s'.nw = s.nw
  m : s'.m = s.m
  loop : s'.loop = s.loop
  ng : s.ng ≤ s'.ng
  wds : ∀ w', w' ≠ w → s'.wds w' = s.wds w'
  filter : (s'.wds w).filter = (s.wds w).filter
  path : (s'.wds w).path = (s.wds w).path
  down : ∀ g ∈ (s'.wds w).slots, (s'.grips g).handle = none
  rest : ∀ x, x < s.ng → x ∉ (s.wds w).slots → s'.grips x = s.grips x ∧ tok s' x = tok s x

theorem Base.lost {s : St} (hb : Base s) (v : Grip) (hv : v.handle = none) :
    Base { s.setGrip s.ng v with ng := s.ng + 1 } := by
  have hfr := fresh hb (Nat.le_refl s.ng)
  have hnr : ∀ r ∈ s.reads, r.g ≠ s.ng := by
    intro r hr e
    have h0 : Dcw.tok s s.ng = 0 := by have := hfr.1; unfold pend at this; omega
    unfold Dcw.tok at h0
    have h1 : s.reads.countP (fun r => decide (r.g = s.ng)) = 0 := by omega
    rw [List.countP_eq_zero] at h1
    exact h1 r hr (decide_eq_true e)
  have hup : ∀ x h, (upd s.grips s.ng v x).handle = some h → x ≠ s.ng ∧ (s.grips x).handle = some h := by
    intro x h hx
    by_cases e : x = s.ng
    · subst e; rw [upd_same, hv] at hx; cases hx
    · rw [upd_ne _ _ e] at hx; exact ⟨e, hx⟩
  refine ⟨?_, hb.tok, ?_, ?_, ?_, ?_, ?_, hb.nd, hb.tab⟩
  · intro r hr
    simp only [St.setGrip]
    rw [upd_ne _ _ (hnr r hr)]; exact hb.rd r hr
  · intro x y k h1 h2
    exact hb.inj _ _ _ (hup _ _ h1).2 (hup _ _ h2).2
  · intro x k h1
    exact hb.open' _ _ (hup _ _ h1).2
  · intro k hk
    obtain ⟨x, hx⟩ := hb.closed k hk
    refine ⟨x, ?_⟩
    simp only [St.setGrip]
    rw [upd_ne]
    · exact hx
    · rintro rfl; rw [hfr.2] at hx; cases hx
  · intro x hx
    have e : x ≠ s.ng := by
      rintro rfl
      rcases hx with hx | hx
      · have h0 := hfr.1
        have : 0 < pend s s.ng := hx
        omega
      · simp only [St.setGrip] at hx
        rw [upd_same] at hx
        exact hx hv
    simp only [St.setGrip] at hx ⊢
    rw [upd_ne _ _ e] at hx ⊢
    exact hb.own x hx
  · intro w' hw' x hx
    have h1 := hb.slot w' hw' x hx
    simp only [St.setGrip]
    rw [upd_ne _ _ (by omega)]
    exact ⟨by omega, h1.2⟩

theorem setSlot_none {wd : Wd} {i : Bool} (h : wd.slot i = none) : wd.setSlot i none = wd := by
  cases i <;> simp only [Wd.slot, Wd.setSlot] at h ⊢ <;> rw [← h]

theorem updateGrip_fail {s : St} (hb : Base s) {w : Nat} (hw : w < s.nw) {i : Bool} {f : Event} {a : Ans}
    (hs : (s.wds w).slot i = none) (ha : a.create = false) :
    ∃ s', updateGrip s w i false f a = (s', false) ∧ Fail s s' w := by
  let v : Grip := { filter := f, recursive := (s.wds w).recursive, path := (s.wds w).path, parent := w }
  let s1 : St := { s.setGrip s.ng v with ng := s.ng + 1 }
  have hb1 : Base s1 := Base.lost hb v rfl
  have he : updateGrip s w i false f a = ((closeHandle s1 w).1, false) := by
    unfold updateGrip
    simp only [Bool.false_eq_true, if_false, hs]
    have hr : newGrip s w f a = (s1, none) := by
      unfold newGrip register
      simp only [ha, Bool.false_eq_true, if_false, St.setGrip, upd_upd, upd_same, s1, v]
    rw [hr]
    simp only [Option.isSome_none, Bool.false_eq_true, if_false]
    have : s1.setWd w ((s1.wds w).setSlot i none) = s1 := by
      have h1 : (s1.wds w).setSlot i none = s1.wds w := setSlot_none hs
      rw [h1]
      have h2 : upd s1.wds w (s1.wds w) = s1.wds := by
        funext x; unfold upd; split
        · rename_i e; rw [e]
        · rfl
      simp only [St.setWd, h2]
    rw [this]
  obtain ⟨b1, b2, -, b4, b5, b6, b7, b8, b9⟩ := closeHandle_base hb1 (w := w) hw
  refine ⟨_, he, b1, b5, b7, b8, ?_, fun w' _ => by rw [b4]; rfl, by rw [b4]; rfl, by rw [b4]; rfl, ?_, ?_⟩
  · rw [b6]; simp [s1]
  · intro g hg
    rw [b4] at hg
    rw [b9, if_pos hg]
  · intro x hx hxs
    have hxs' : x ∉ (s1.wds w).slots := hxs
    rw [b9, if_neg hxs']
    refine ⟨?_, b2 x⟩
    simp only [s1, St.setGrip]
    rw [upd_ne _ _ (by omega)]

theorem recreate_calm {s : St} (hb : Base s) {w : Nat} (hw : w < s.nw) (hc : (s.wds w).count = 0) (hn : (s.wds w).slots = [])
    (hF : hasFile (s.wds w).filter = true → encode (fileFilter (s.wds w).filter) ≠ 0) {a0 a1 : Ans} (h0 : a0.Calm) (h1 : a1.Calm) :
    (∃ s', recreate s w a0 a1 = (s', true) ∧ Rec s s' w) ∨ (∃ s', recreate s w a0 a1 = (s', false) ∧ Fail s s' w) := by
  have hno : ∀ i, (s.wds w).slot i = none := by
    intro i
    cases hs : (s.wds w).slot i with
    | none => rfl
    | some g =>
      have : g ∈ (s.wds w).slots := mem_slots.2 ⟨i, hs⟩
      rw [hn] at this; cases this
  have hfree : ∀ g ∈ (s.wds w).slots, pend s g = 0 ∧ (s.grips g).handle = none := by
    intro g hg; rw [hn] at hg; cases hg
  obtain ⟨sr, hr, hR⟩ := recreate_ok hb hw hc hfree hF
  -- the first handle
  have hA : updateGrip s w false (!hasFile (s.wds w).filter) (fileFilter (s.wds w).filter) a0 =
      updateGrip s w false (!hasFile (s.wds w).filter) (fileFilter (s.wds w).filter) {} ∨
      (hasFile (s.wds w).filter = true ∧ a0.create = false) := by
    rcases h0.cases with h | h
    · left; rw [h]
    · cases hh : hasFile (s.wds w).filter with
      | false => left; rfl
      | true => right; exact ⟨rfl, h⟩
  rcases hA with hA | ⟨hA, hA'⟩
  · obtain ⟨s1, o0, e1, E0⟩ := updateGrip_ok hb hw false (!hasFile (s.wds w).filter) (fileFilter (s.wds w).filter)
      (fun g hg => hfree g (mem_slots.2 ⟨_, hg⟩)) (fun h => hF (by simpa using h))
    have hB : updateGrip s1 w true (!hasDir (s1.wds w).filter) (dirFilter (s1.wds w).filter) a1 =
        updateGrip s1 w true (!hasDir (s1.wds w).filter) (dirFilter (s1.wds w).filter) {} ∨
        (hasDir (s1.wds w).filter = true ∧ a1.create = false) := by
      rcases h1.cases with h | h
      · left; rw [h]
      · cases hh : hasDir (s1.wds w).filter with
        | false => left; rfl
        | true => right; exact ⟨rfl, h⟩
    rcases hB with hB | ⟨hB, hB'⟩
    · left
      refine ⟨sr, ?_, hR⟩
      rw [← hr]
      unfold recreate
      rw [hA, e1]
      simp only [hB]
    · right
      have hs1 : (s1.wds w).slot true = none := by
        have : (s1.wds w).slot true = (s.wds w).slot true := by rw [E0.wd]; rfl
        rw [this]; exact hno _
      obtain ⟨s2, e2, F⟩ := updateGrip_fail E0.base (w := w) (by rw [E0.nw]; exact hw) (i := true)
        (f := dirFilter (s1.wds w).filter) hs1 hB'
      refine ⟨s2, ?_, F.base, F.nw.trans E0.nw, F.m.trans E0.m, F.loop.trans E0.loop, Nat.le_trans E0.ng F.ng, ?_, ?_, ?_, F.down, ?_⟩
      · unfold recreate
        rw [hA, e1]
        simp only [if_true, hB, Bool.not_true, e2, Bool.false_eq_true, if_false]
      · intro w' h; rw [F.wds _ h, E0.wds _ h]
      · rw [F.filter, E0.wd]; rfl
      · rw [F.path, E0.wd]; rfl
      · intro x hx _
        have hx0 : o0 ≠ some x := by
          intro e
          cases hb0 : (!hasFile (s.wds w).filter) with
          | true => rw [E0.reset hb0] at e; cases e
          | false =>
            obtain ⟨g, h, e1, e2, -⟩ := E0.up hb0
            rw [e1] at e
            have := Option.some.inj e
            subst this
            rcases e2 with e2 | e2
            · rw [hno] at e2; cases e2
            · omega
        have h3 := E0.rest x hx0
        have hxs : x ∉ (s1.wds w).slots := by
          intro hm
          obtain ⟨i, hi⟩ := mem_slots.1 hm
          cases i with
          | false =>
            have : (s1.wds w).slot false = o0 := by rw [E0.wd]; rfl
            rw [this] at hi; exact hx0 hi
          | true => rw [hs1] at hi; cases hi
        have h4 := F.rest x (Nat.lt_of_lt_of_le hx E0.ng) hxs
        exact ⟨h4.1.trans h3.1, h4.2.trans h3.2⟩
  · right
    obtain ⟨s1, e1, F⟩ := updateGrip_fail hb hw (i := false) (f := fileFilter (s.wds w).filter) (hno _) hA'
    refine ⟨s1, ?_, F⟩
    unfold recreate
    simp only [hA, Bool.not_true, e1, Bool.false_eq_true, if_false]

end Dcw
end Verif
