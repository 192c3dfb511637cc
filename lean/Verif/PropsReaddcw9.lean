/-
Windows: Unwatch of a directory that is gone releases everything (C124).
-/
import Verif.PropsReaddcw7
import Verif.ReaddcwSane

namespace Verif
namespace Dcw
open Platform (readdcw)

/-! ### Specification -/

/-- The directory a call is for. -/
def Op.target : Op → Option Path
  | .watch p _ _ _ => some p
  | .rewatch p _ _ _ _ => some p
  | .unwatch p _ => some p
  | .tau => none

/-- What the loop and the kernel do from `s` on, with calls for directories other than `p`, legal or not, and any outcome of system calls. -/
inductive Elsewhere (p : Path) (s : St) : St → Prop
  | refl : Elsewhere p s s
  | step {t u : St} {o : Op} : Elsewhere p s t → Step t o u → o.target ≠ some p → Elsewhere p s u

/-! ### Closing -/

theorem closeOne_eff (s : St) (o : Option Nat) :
    (closeOne s o).1.wds = s.wds ∧ (closeOne s o).1.m = s.m ∧ (closeOne s o).1.loop = s.loop ∧
    (∀ g, (closeOne s o).1.grips g = if o = some g then { s.grips g with handle := none } else s.grips g) ∧
    (∀ r ∈ (closeOne s o).1.reads, r ∈ s.reads ∧ ∀ g, o = some g → (s.grips g).handle ≠ some r.h) ∧
    (∀ h ∈ (closeOne s o).1.opened, h ∈ s.opened ∧ ∀ g, o = some g → (s.grips g).handle ≠ some h) ∧
    (∀ g ∈ (closeOne s o).1.queue, g ∈ s.queue ∨ ∃ r ∈ s.reads, r.g = g) := by
  unfold closeOne
  cases o with
  | none =>
    exact ⟨rfl, rfl, rfl, fun _ => by simp, fun r hr => ⟨hr, fun _ h => by cases h⟩, fun h hh => ⟨hh, fun _ h => by cases h⟩, fun g hg => .inl hg⟩
  | some g =>
    simp only
    cases hh : (s.grips g).handle with
    | none =>
      refine ⟨rfl, rfl, rfl, fun x => ?_, fun r hr => ⟨hr, fun x hx => ?_⟩, fun h hr => ⟨hr, fun x hx => ?_⟩, fun g hg => .inl hg⟩
      · by_cases hx : g = x
        · subst hx
          rw [if_pos rfl]
          generalize s.grips g = v at hh
          cases v; simp only at hh; subst hh; rfl
        · rw [if_neg (by simpa using hx)]
      · cases hx; rw [hh]; exact nofun
      · cases hx; rw [hh]; exact nofun
    | some h =>
      simp only [St.setGrip]
      refine ⟨trivial, trivial, trivial, fun x => ?_, fun r hr => ?_, fun k hk => ?_, fun x hx => ?_⟩
      · by_cases e : g = x
        · subst e; rw [upd_same, if_pos rfl]
        · rw [upd_ne _ _ (Ne.symm e), if_neg (by simpa using e)]
      · rw [List.mem_filter] at hr
        refine ⟨hr.1, fun x hx => ?_⟩
        cases hx
        rw [hh]
        intro e
        exact (of_decide_eq_true hr.2) (Option.some.inj e).symm
      · rw [List.mem_filter] at hk
        refine ⟨hk.1, fun x hx => ?_⟩
        cases hx
        rw [hh]
        intro e
        exact (of_decide_eq_true hk.2) (Option.some.inj e).symm
      · rcases List.mem_append.1 hx with hx | hx
        · exact .inl hx
        · obtain ⟨r, hr, rfl⟩ := List.mem_map.1 hx
          exact .inr ⟨r, (List.mem_filter.1 hr).1, rfl⟩

theorem slots_iff (wd : Wd) (g : Nat) : g ∈ wd.slots ↔ wd.g0 = some g ∨ wd.g1 = some g := by
  unfold Wd.slots
  simp [Option.mem_toList]

theorem closeHandle_eff (s : St) (w : Nat) :
    (closeHandle s w).1.wds = s.wds ∧ (closeHandle s w).1.m = s.m ∧ (closeHandle s w).1.loop = s.loop ∧
    (∀ g, (closeHandle s w).1.grips g = if g ∈ (s.wds w).slots then { s.grips g with handle := none } else s.grips g) ∧
    (∀ r ∈ (closeHandle s w).1.reads, r ∈ s.reads ∧ ∀ g ∈ (s.wds w).slots, (s.grips g).handle ≠ some r.h) ∧
    (∀ h ∈ (closeHandle s w).1.opened, h ∈ s.opened ∧ ∀ g ∈ (s.wds w).slots, (s.grips g).handle ≠ some h) ∧
    (∀ g ∈ (closeHandle s w).1.queue, g ∈ s.queue ∨ ∃ r ∈ s.reads, r.g = g) := by
  obtain ⟨a1, a2, a3, a4, a5, a6, a7⟩ := closeOne_eff s (s.wds w).g0
  obtain ⟨b1, b2, b3, b4, b5, b6, b7⟩ := closeOne_eff (closeOne s (s.wds w).g0).1 (s.wds w).g1
  unfold closeHandle
  simp only
  refine ⟨b1.trans a1, b2.trans a2, b3.trans a3, fun g => ?_, fun r hr => ?_, fun h hh => ?_, fun g hg => ?_⟩
  · rw [b4, a4]
    by_cases h0 : (s.wds w).g0 = some g <;> by_cases h1 : (s.wds w).g1 = some g
    · rw [if_pos h0, if_pos h1, if_pos ((slots_iff _ _).2 (.inl h0))]
    · rw [if_pos h0, if_neg h1, if_pos ((slots_iff _ _).2 (.inl h0))]
    · rw [if_neg h0, if_pos h1, if_pos ((slots_iff _ _).2 (.inr h1))]
    · rw [if_neg h0, if_neg h1, if_neg]
      rw [slots_iff]
      rintro (h | h)
      · exact h0 h
      · exact h1 h
  · obtain ⟨c1, c2⟩ := b5 r hr
    obtain ⟨d1, d2⟩ := a5 r c1
    refine ⟨d1, fun g hg => ?_⟩
    rcases (slots_iff _ _).1 hg with h | h
    · exact d2 g h
    · by_cases h0 : (s.wds w).g0 = some g
      · exact d2 g h0
      · have := c2 g h
        rw [a4, if_neg h0] at this
        exact this
  · obtain ⟨c1, c2⟩ := b6 h hh
    obtain ⟨d1, d2⟩ := a6 h c1
    refine ⟨d1, fun g hg => ?_⟩
    rcases (slots_iff _ _).1 hg with h | h
    · exact d2 g h
    · by_cases h0 : (s.wds w).g0 = some g
      · exact d2 g h0
      · have := c2 g h
        rw [a4, if_neg h0] at this
        exact this
  · rcases b7 g hg with h | ⟨r, hr, rfl⟩
    · exact a7 g h
    · exact .inr ⟨r, (a5 r hr).1, rfl⟩

/-! ### The invariant -/

/-- The kernel, the queue or the loop has the memory of the grip. -/
def Busy (s : St) (g : Nat) : Prop := (∃ r ∈ s.reads, r.g = g) ∨ g ∈ s.queue ∨ s.loop = .got g ∨ s.loop = .st g

/-- The packets of the grips in `S`, in the queue or with the loop. -/
def packets (S : List Nat) (s : St) : Nat :=
  s.queue.countP (fun g => decide (g ∈ S)) + (match s.loop with | .idle => 0 | .got g => if g ∈ S then 1 else 0 | .st g => if g ∈ S then 1 else 0)

/-- A grip of another entry. -/
structure Other (p : Path) (w : Nat) (s : St) (g : Nat) : Prop where
  ne : (s.grips g).parent ≠ w
  lt : (s.grips g).parent < s.nw
  ng : g < s.ng
  path : (s.grips g).path = (s.wds (s.grips g).parent).path
  old : (s.grips g).path ≠ p ∨ (s.grips g).handle = none ∧ (s.wds (s.grips g).parent).state ≠ stRewatch

/-- While the entry `w` of the directory `p` is ended; `s₀` is the state in which Unwatch returned. -/
structure Ends (p : Path) (w : Nat) (s₀ s : St) : Prop where
  wlt : w < s.nw
  wp : (s.wds w).path = p
  nh : s₀.nh ≤ s.nh
  h0 : ∀ g ∈ (s₀.wds w).slots, ∀ h, (s₀.grips g).handle = some h → h < s₀.nh
  slots : (s.wds w).slots = (s₀.wds w).slots
  st : (s.wds w).filter &&& onlyStates = stUnwatch
  lk : ∀ g ∈ (s₀.wds w).slots, (s.grips g).linked = true
  sp : ∀ u, ∀ g ∈ (s.wds u).slots, g < s.ng ∧ (s.grips g).parent = u ∧ (s.grips g).path = (s.wds u).path
  rd : ∀ r ∈ s.reads, (r.g ∈ (s₀.wds w).slots → (s.grips r.g).handle = some r.h) ∧ (r.g ∉ (s₀.wds w).slots → (s.grips r.g).path ≠ p)
  oth : ∀ g, Busy s g → g ∉ (s₀.wds w).slots → Other p w s g
  tab : ∀ q u, s.m.get? q = some u → (s.wds u).path = q ∧ u < s.nw
  main : ((s.m.get? p = some w ∨ s.m.get? p = none) ∧ 0 < (s.wds w).count.toNat ∧ (s.wds w).count.toNat ≤ packets (s₀.wds w).slots s ∧
      ∀ g ∈ (s₀.wds w).slots, (s.grips g).handle = (s₀.grips g).handle) ∨
    (s.m.get? p = none ∧ (∀ g ∈ (s₀.wds w).slots, (s.grips g).handle = none) ∧
      ∀ g ∈ (s₀.wds w).slots, ∀ h, (s₀.grips g).handle = some h → h ∉ s.opened)

section
variable {p : Path} {w : Nat} {s₀ s : St}

theorem Ends.own (h : Ends p w s₀ s) {g : Nat} (hg : g ∈ (s₀.wds w).slots) :
    g < s.ng ∧ (s.grips g).parent = w ∧ (s.grips g).path = p := by
  have := h.sp w g (h.slots ▸ hg)
  exact ⟨this.1, this.2.1, this.2.2.trans h.wp⟩

/-- Reads end and begin, packets come and go. -/
theorem Ends.flow (h : Ends p w s₀ s) {R : List Read} {Q : List Nat} {L : Loop}
    (hr : ∀ r ∈ R, r ∈ s.reads ∨ ((r.g ∈ (s₀.wds w).slots → (s.grips r.g).handle = some r.h) ∧ (r.g ∉ (s₀.wds w).slots → (s.grips r.g).path ≠ p)))
    (hb : ∀ g, Busy { s with reads := R, queue := Q, loop := L } g → Busy s g ∨ (g ∉ (s₀.wds w).slots → Other p w s g))
    (hp : packets (s₀.wds w).slots s ≤ packets (s₀.wds w).slots { s with reads := R, queue := Q, loop := L }) :
    Ends p w s₀ { s with reads := R, queue := Q, loop := L } := by
  refine ⟨h.wlt, h.wp, h.nh, h.h0, h.slots, h.st, h.lk, h.sp, fun r hx => ?_, fun g hg hn => ?_, h.tab, ?_⟩
  · rcases hr r hx with e | e
    · exact h.rd r e
    · exact e
  · have : Other p w s g := by
      rcases hb g hg with e | e
      · exact h.oth g e hn
      · exact e hn
    exact ⟨this.ne, this.lt, this.ng, this.path, this.old⟩
  · rcases h.main with ⟨h1, h2, h3, h4⟩ | h1
    · exact .inl ⟨h1, h2, Nat.le_trans h3 hp, h4⟩
    · exact .inr h1

theorem Ends.setWd (h : Ends p w s₀ s) {v : Nat} (hv : v ≠ w) {x : Wd}
    (hp : v < s.nw → x.path = (s.wds v).path ∧ ((s.wds v).path ≠ p ∨ x.state ≠ stRewatch))
    (hx : ∀ g ∈ x.slots, g < s.ng ∧ (s.grips g).parent = v ∧ (s.grips g).path = x.path) : Ends p w s₀ (s.setWd v x) := by
  have hw : upd s.wds v x w = s.wds w := upd_ne _ _ (Ne.symm hv)
  refine ⟨h.wlt, by simp only [St.setWd]; rw [hw]; exact h.wp, h.nh, h.h0, by simp only [St.setWd]; rw [hw]; exact h.slots,
    by simp only [St.setWd]; rw [hw]; exact h.st, h.lk, fun u g hg => ?_, h.rd, fun g hg hn => ?_, fun q u hu => ?_, ?_⟩
  · simp only [St.setWd] at hg ⊢
    by_cases e : u = v
    · subst e; rw [upd_same] at hg ⊢; exact hx g hg
    · rw [upd_ne _ _ e] at hg ⊢; exact h.sp u g hg
  · have ho := h.oth g hg hn
    refine ⟨ho.ne, ho.lt, ho.ng, ?_, ?_⟩ <;> simp only [St.setWd] <;> by_cases e : (s.grips g).parent = v
    · rw [e, upd_same, (hp (e ▸ ho.lt)).1, ← e]; exact ho.path
    · rw [upd_ne _ _ e]; exact ho.path
    · rw [e, upd_same]
      rcases ho.old with k | ⟨k, _⟩
      · exact .inl k
      · rcases (hp (e ▸ ho.lt)).2 with k2 | k2
        · left; rw [ho.path, e]; exact k2
        · exact .inr ⟨k, k2⟩
    · rw [upd_ne _ _ e]; exact ho.old
  · simp only [St.setWd] at hu ⊢
    obtain ⟨h1, h2⟩ := h.tab q u hu
    by_cases e : u = v
    · subst e; rw [upd_same]; exact ⟨(hp h2).1.trans h1, h2⟩
    · rw [upd_ne _ _ e]; exact ⟨h1, h2⟩
  · simp only [St.setWd]; rw [hw]; exact h.main

theorem Ends.setGrip (h : Ends p w s₀ s) {g : Nat} (hg : g ∉ (s₀.wds w).slots) {x : Grip} (hx : x.parent = (s.grips g).parent)
    (hy : x.path = (s.grips g).path) (hp : (s.grips g).path ≠ p ∨ x.handle = (s.grips g).handle ∨ x.handle = none) :
    Ends p w s₀ (s.setGrip g x) := by
  have hS : ∀ k ∈ (s₀.wds w).slots, upd s.grips g x k = s.grips k := fun k hk => upd_ne _ _ fun e => hg (e ▸ hk)
  have hpp : ∀ k, (upd s.grips g x k).parent = (s.grips k).parent ∧ (upd s.grips g x k).path = (s.grips k).path := by
    intro k
    by_cases e : k = g
    · subst e; rw [upd_same]; exact ⟨hx, hy⟩
    · rw [upd_ne _ _ e]; exact ⟨rfl, rfl⟩
  refine ⟨h.wlt, h.wp, h.nh, h.h0, h.slots, h.st, fun k hk => ?_, fun u k hk => ?_, fun r hr => ⟨fun k => ?_, fun k => ?_⟩, fun k hk hn => ?_, h.tab, ?_⟩
  · simp only [St.setGrip]; rw [hS k hk]; exact h.lk k hk
  · simp only [St.setGrip]; rw [(hpp k).1, (hpp k).2]; exact h.sp u k hk
  · simp only [St.setGrip]; rw [hS _ k]; exact (h.rd r hr).1 k
  · simp only [St.setGrip]; rw [(hpp _).2]; exact (h.rd r hr).2 k
  · have ho := h.oth k hk hn
    refine ⟨?_, ?_, ho.ng, ?_, ?_⟩ <;> simp only [St.setGrip]
    · rw [(hpp k).1]; exact ho.ne
    · rw [(hpp k).1]; exact ho.lt
    · rw [(hpp k).1, (hpp k).2]; exact ho.path
    · rw [(hpp k).1, (hpp k).2]
      rcases ho.old with e | ⟨e, e2⟩
      · exact .inl e
      · by_cases ek : k = g
        · subst ek
          rw [upd_same]
          rcases hp with e3 | e3 | e3
          · exact .inl e3
          · exact .inr ⟨e3.trans e, e2⟩
          · exact .inr ⟨e3, e2⟩
        · rw [upd_ne _ _ ek]; exact .inr ⟨e, e2⟩
  · rcases h.main with ⟨h1, h2, h3, h4⟩ | ⟨h1, h2, h3⟩
    · exact .inl ⟨h1, h2, h3, fun k hk => by simp only [St.setGrip]; rw [hS k hk]; exact h4 k hk⟩
    · exact .inr ⟨h1, fun k hk => by simp only [St.setGrip]; rw [hS k hk]; exact h2 k hk, h3⟩

/-- A grip that was not in use. -/
theorem Ends.fresh (h : Ends p w s₀ s) (x : Grip) : Ends p w s₀ { s.setGrip s.ng x with ng := s.ng + 1 } := by
  have hk : ∀ k, k < s.ng → upd s.grips s.ng x k = s.grips k := fun k hk => upd_ne _ _ (Nat.ne_of_lt hk)
  have hS : ∀ k ∈ (s₀.wds w).slots, upd s.grips s.ng x k = s.grips k := fun k hm => hk k (h.own hm).1
  have hB : ∀ k, Busy s k → upd s.grips s.ng x k = s.grips k := by
    intro k hb
    by_cases e : k ∈ (s₀.wds w).slots
    · exact hS k e
    · exact hk k (h.oth k hb e).ng
  refine ⟨h.wlt, h.wp, h.nh, h.h0, h.slots, h.st, fun k hm => ?_, fun u k hm => ?_, fun r hr => ?_, fun k hb hn => ?_, h.tab, ?_⟩
  · simp only [St.setGrip]; rw [hS k hm]; exact h.lk k hm
  · have := h.sp u k hm
    simp only [St.setGrip]; rw [hk k this.1]; exact ⟨Nat.lt_succ_of_lt this.1, this.2⟩
  · simp only [St.setGrip]; rw [hB _ (.inl ⟨r, hr, rfl⟩)]; exact h.rd r hr
  · have ho := h.oth k hb hn
    have e := hB k hb
    exact ⟨by simp only [St.setGrip]; rw [e]; exact ho.ne, by simp only [St.setGrip]; rw [e]; exact ho.lt, Nat.lt_succ_of_lt ho.ng,
      by simp only [St.setGrip]; rw [e]; exact ho.path, by simp only [St.setGrip]; rw [e]; exact ho.old⟩
  · rcases h.main with ⟨h1, h2, h3, h4⟩ | ⟨h1, h2, h3⟩
    · exact .inl ⟨h1, h2, h3, fun k hm => by simp only [St.setGrip]; rw [hS k hm]; exact h4 k hm⟩
    · exact .inr ⟨h1, fun k hm => by simp only [St.setGrip]; rw [hS k hm]; exact h2 k hm, h3⟩

/-- New handles have new numbers. -/
theorem Ends.more (h : Ends p w s₀ s) {n m : Nat} {O : List Nat} (hn : s.nh ≤ n) (hm : s.nw ≤ m) (hO : ∀ k ∈ O, k ∈ s.opened ∨ s.nh ≤ k) :
    Ends p w s₀ { s with nh := n, nw := m, opened := O } := by
  refine ⟨Nat.lt_of_lt_of_le h.wlt hm, h.wp, Nat.le_trans h.nh hn, h.h0, h.slots, h.st, h.lk, h.sp, h.rd, fun g hg hx => ?_, fun q u hu => ?_, ?_⟩
  · have ho := h.oth g hg hx
    exact ⟨ho.ne, Nat.lt_of_lt_of_le ho.lt hm, ho.ng, ho.path, ho.old⟩
  · exact ⟨(h.tab q u hu).1, Nat.lt_of_lt_of_le (h.tab q u hu).2 hm⟩
  · rcases h.main with h1 | ⟨h1, h2, h3⟩
    · exact .inl h1
    · refine .inr ⟨h1, h2, fun g hg k hk hin => ?_⟩
      rcases hO k hin with e | e
      · exact h3 g hg k hk e
      · have := h.h0 g hg k hk
        have := h.nh
        omega

theorem Ends.table (h : Ends p w s₀ s) {M : GoMap Path Nat} (ht : ∀ q u, M.get? q = some u → (s.wds u).path = q ∧ u < s.nw)
    (hp : M.get? p = s.m.get? p ∨ M.get? p = none) : Ends p w s₀ { s with m := M } := by
  refine ⟨h.wlt, h.wp, h.nh, h.h0, h.slots, h.st, h.lk, h.sp, h.rd, fun g hg hx => ?_, ht, ?_⟩
  · have ho := h.oth g hg hx
    exact ⟨ho.ne, ho.lt, ho.ng, ho.path, ho.old⟩
  · rcases h.main with ⟨h1, h2⟩ | ⟨h1, h2⟩
    · refine .inl ⟨?_, h2⟩
      rcases hp with e | e
      · simp only; rw [e]; exact h1
      · exact .inr e
    · refine .inr ⟨?_, h2⟩
      rcases hp with e | e
      · simp only; rw [e]; exact h1
      · exact e

theorem packets_append (S : List Nat) (s : St) (R : List Read) (l : List Nat) :
    packets S s ≤ packets S { s with reads := R, queue := s.queue ++ l, loop := s.loop } := by
  unfold packets
  simp only [List.countP_append]
  omega

theorem Ends.closeOne (h : Ends p w s₀ s) {o : Option Nat} (ho : ∀ g, o = some g → g ∉ (s₀.wds w).slots) : Ends p w s₀ (closeOne s o).1 := by
  unfold Dcw.closeOne
  cases o with
  | none => exact h
  | some g =>
    simp only
    cases hh : (s.grips g).handle with
    | none => exact h
    | some k =>
      have h1 := h.setGrip (ho g rfl) (x := { s.grips g with handle := none }) rfl rfl (.inr (.inr rfl))
      have h2 := h1.more (n := s.nh) (m := s.nw) (O := s.opened.filter (· ≠ k)) (Nat.le_refl _) (Nat.le_refl _)
        (fun x hx => .inl (List.mem_filter.1 hx).1)
      have h3 := h2.flow (R := s.reads.filter (·.h ≠ k)) (Q := s.queue ++ (s.reads.filter (·.h = k)).map (·.g)) (L := s.loop)
        (fun r hr => .inl (List.mem_filter.1 hr).1) (fun x hx => .inl ?_) (packets_append _ _ _ _)
      · exact h3
      · rcases hx with ⟨r, hr, rfl⟩ | hx | hx
        · exact .inl ⟨r, (List.mem_filter.1 hr).1, rfl⟩
        · rcases List.mem_append.1 hx with hx | hx
          · exact .inr (.inl hx)
          · obtain ⟨r, hr, rfl⟩ := List.mem_map.1 hx
            exact .inl ⟨r, (List.mem_filter.1 hr).1, rfl⟩
        · exact .inr (.inr hx)

theorem Ends.slot_ne (h : Ends p w s₀ s) {v : Nat} (hv : v ≠ w) {g : Nat} (hg : g ∈ (s.wds v).slots) : g ∉ (s₀.wds w).slots :=
  fun e => hv ((h.sp v g hg).2.1.symm.trans (h.own e).2.1)

theorem Ends.closeHandle (h : Ends p w s₀ s) {v : Nat} (hv : v ≠ w) : Ends p w s₀ (closeHandle s v).1 :=
  (h.closeOne fun _ hg => h.slot_ne hv ((slots_iff _ _).2 (.inl hg))).closeOne
    fun _ hg => h.slot_ne hv ((slots_iff _ _).2 (.inr hg))

theorem readDirChanges_form (s : St) (g : Nat) (ok : Bool) : ∃ rs, (readDirChanges s g ok).1 = { s with reads := s.reads ++ rs } ∧
    ∀ r ∈ rs, r.g = g ∧ (s.grips g).handle = some r.h := by
  unfold readDirChanges
  split
  · exact ⟨[], by simp, by simp⟩
  · rename_i k hk
    split
    · refine ⟨_, rfl, ?_⟩
      intro r hr
      rw [List.mem_singleton] at hr
      subst hr
      exact ⟨rfl, hk⟩
    · exact ⟨[], by simp, by simp⟩

theorem Ends.reading (h : Ends p w s₀ s) {g : Nat} (hg : g ∉ (s₀.wds w).slots) (ho : Other p w s g) (hp : (s.grips g).path ≠ p) (ok : Bool) :
    Ends p w s₀ (readDirChanges s g ok).1 := by
  obtain ⟨rs, e, hrs⟩ := readDirChanges_form s g ok
  rw [e]
  refine h.flow (R := s.reads ++ rs) (Q := s.queue) (L := s.loop) (fun r hr => ?_) (fun x hx => ?_) (Nat.le_refl _)
  · rcases List.mem_append.1 hr with hr | hr
    · exact .inl hr
    · rw [(hrs r hr).1]; exact .inr ⟨fun e => absurd e hg, fun _ => hp⟩
  · rcases hx with ⟨r, hr, rfl⟩ | hx
    · rcases List.mem_append.1 hr with hr | hr
      · exact .inl (.inl ⟨r, hr, rfl⟩)
      · rw [(hrs r hr).1]; exact .inr fun _ => ho
    · exact .inl (.inr hx)

theorem Ends.register (h : Ends p w s₀ s) {g : Nat} (hg : g ∉ (s₀.wds w).slots) (ho : Other p w s g) (hp : (s.grips g).path ≠ p) (a : Ans) :
    Ends p w s₀ (register s g a).1 ∧ ((register s g a).1.grips g).parent = (s.grips g).parent ∧ ((register s g a).1.grips g).path = (s.grips g).path := by
  unfold Dcw.register
  split
  · have h1 := (h.setGrip hg (x := { s.grips g with handle := some s.nh }) rfl rfl (.inl hp)).more (n := s.nh + 1) (m := s.nw) (O := s.opened)
      (Nat.le_succ _) (Nat.le_refl _) (fun _ hx => .inl hx)
    have h2 := (h.setGrip hg (x := { s.grips g with handle := some s.nh }) rfl rfl (.inl hp)).more (n := s.nh + 1) (m := s.nw) (O := s.nh :: s.opened)
      (Nat.le_succ _) (Nat.le_refl _) (fun _ hx => by
        rcases List.mem_cons.1 hx with rfl | hx
        · exact .inr (Nat.le_refl _)
        · exact .inl hx)
    have hsame : upd s.grips g { s.grips g with handle := some s.nh } g = { s.grips g with handle := some s.nh } := upd_same _ _ _
    split
    · refine ⟨h2.reading hg ?_ ?_ _, ?_⟩
      · exact ⟨by simp only [St.setGrip]; rw [hsame]; exact ho.ne, by simp only [St.setGrip]; rw [hsame]; exact ho.lt, ho.ng,
          by simp only [St.setGrip]; rw [hsame]; exact ho.path, .inl (by simp only [St.setGrip]; rw [hsame]; exact hp)⟩
      · simp only [St.setGrip]; rw [hsame]; exact hp
      · rw [(readDirChanges_rest _ g a.read).1]
        simp only [St.setGrip]; rw [hsame]; exact ⟨rfl, rfl⟩
    · refine ⟨h1, ?_⟩
      simp only [St.setGrip]; rw [hsame]; exact ⟨rfl, rfl⟩
  · refine ⟨h.setGrip hg rfl rfl (.inr (.inr rfl)), ?_⟩
    simp only [St.setGrip]; rw [upd_same]; exact ⟨rfl, rfl⟩

theorem Ends.newGrip (h : Ends p w s₀ s) {v : Nat} (hv : v ≠ w) (hn : v < s.nw) (hp : (s.wds v).path ≠ p) (f : Event) (a : Ans) :
    Ends p w s₀ (newGrip s v f a).1 ∧ ∀ g, (newGrip s v f a).2 = some g →
      g < (newGrip s v f a).1.ng ∧ ((newGrip s v f a).1.grips g).parent = v ∧ ((newGrip s v f a).1.grips g).path = (s.wds v).path := by
  have hS : s.ng ∉ (s₀.wds w).slots := fun e => Nat.lt_irrefl _ (h.own e).1
  have h1 := h.fresh { filter := f, recursive := (s.wds v).recursive, path := (s.wds v).path, parent := v }
  have hsame : upd s.grips s.ng { filter := f, recursive := (s.wds v).recursive, path := (s.wds v).path, parent := v } s.ng =
    { filter := f, recursive := (s.wds v).recursive, path := (s.wds v).path, parent := v } := upd_same _ _ _
  have h2 := h1.register hS ⟨by simp only [St.setGrip]; rw [hsame]; exact hv, by simp only [St.setGrip]; rw [hsame]; exact hn, Nat.lt_succ_self _,
    by simp only [St.setGrip]; rw [hsame], .inl (by simp only [St.setGrip]; rw [hsame]; exact hp)⟩ (by simp only [St.setGrip]; rw [hsame]; exact hp) a
  have hng := (register_rest { s.setGrip s.ng { filter := f, recursive := (s.wds v).recursive, path := (s.wds v).path, parent := v } with ng := s.ng + 1 } s.ng a).2.2.2.1
  unfold Dcw.newGrip
  simp only
  generalize Dcw.register { s.setGrip s.ng { filter := f, recursive := (s.wds v).recursive, path := (s.wds v).path, parent := v } with ng := s.ng + 1 } s.ng a = R at h2 hng ⊢
  obtain ⟨h3, h4, h5⟩ := h2
  simp only [St.setGrip] at h4 h5 hng
  rw [hsame] at h4 h5
  split
  · have h6 : Ends p w s₀ { R.1 with reads := R.1.reads.filter (·.g ≠ s.ng) } :=
      h3.flow (R := R.1.reads.filter (·.g ≠ s.ng)) (Q := R.1.queue) (L := R.1.loop) (fun r hr => .inl (List.mem_filter.1 hr).1)
        (fun x hx => .inl (by
          rcases hx with ⟨r, hr, rfl⟩ | hx
          · exact .inl ⟨r, (List.mem_filter.1 hr).1, rfl⟩
          · exact .inr hx)) (Nat.le_refl _)
    split
    · refine ⟨h6.setGrip hS rfl rfl (.inr (.inl rfl)), fun g hg => ?_⟩
      cases hg
      simp only [St.setGrip]
      rw [upd_same]
      exact ⟨by omega, h4, h5⟩
    · refine ⟨h3.setGrip hS rfl rfl (.inr (.inl rfl)), fun g hg => ?_⟩
      cases hg
      simp only [St.setGrip]
      rw [upd_same]
      exact ⟨by omega, h4, h5⟩
  · exact ⟨h3, fun g hg => by cases hg⟩

theorem setSlot_mem {wd : Wd} {i : Bool} {o : Option Nat} {g : Nat} (h : g ∈ (wd.setSlot i o).slots) : o = some g ∨ g ∈ wd.slots := by
  rw [slots_iff] at h
  cases i <;> simp only [Wd.setSlot] at h
  · rcases h with h | h
    · exact .inl h
    · exact .inr ((slots_iff _ _).2 (.inr h))
  · rcases h with h | h
    · exact .inr ((slots_iff _ _).2 (.inl h))
    · exact .inl h

theorem setSlot_path (wd : Wd) (i : Bool) (o : Option Nat) : (wd.setSlot i o).path = wd.path := by cases i <;> rfl

theorem Ends.updateGrip (h : Ends p w s₀ s) {v : Nat} (hv : v ≠ w) (hn : v < s.nw) (hp : (s.wds v).path ≠ p) (i reset : Bool) (f : Event) (a : Ans) :
    Ends p w s₀ (updateGrip s v i reset f a).1 ∧ ((updateGrip s v i reset f a).1.wds v).path = (s.wds v).path := by
  unfold Dcw.updateGrip
  split
  · refine ⟨h.setWd hv (fun _ => ⟨setSlot_path _ _ _, .inl hp⟩) fun g hg => ?_, ?_⟩
    · rw [setSlot_path]
      rcases setSlot_mem hg with e | e
      · cases e
      · exact h.sp v g e
    · simp only [St.setWd]; rw [upd_same]; exact setSlot_path _ _ _
  · split
    · obtain ⟨h1, h2⟩ := h.newGrip hv hn hp f a
      obtain ⟨-, -, k3, k4, -⟩ := newGrip_rest s v f a
      generalize Dcw.newGrip s v f a = R at h1 h2 k3 k4 ⊢
      have h3 : Ends p w s₀ (R.1.setWd v ((R.1.wds v).setSlot i R.2)) := by
        refine h1.setWd hv (fun _ => ⟨setSlot_path _ _ _, .inl (k4 ▸ hp)⟩) fun g hg => ?_
        rw [setSlot_path]
        rcases setSlot_mem hg with e | e
        · obtain ⟨e1, e2, e3⟩ := h2 g e; exact ⟨e1, e2, e3.trans (by rw [k4])⟩
        · exact h1.sp v g e
      have hpa : (upd R.1.wds v ((R.1.wds v).setSlot i R.2) v).path = (s.wds v).path := by
        rw [upd_same, setSlot_path, k4]
      simp only
      split
      · refine ⟨h3.setWd hv (fun _ => ⟨rfl, .inl ?_⟩) fun g hg => h3.sp v g hg, ?_⟩
        · simp only [St.setWd]; rw [hpa]; exact hp
        · simp only [St.setWd]; rw [upd_same]; exact hpa
      · refine ⟨h3.closeHandle hv, ?_⟩
        rw [(closeHandle_rest _ v).2.2.1]; exact hpa
    · rename_i g hgs
      have hg : g ∈ (s.wds v).slots := by
        rw [slots_iff]; cases i
        · exact .inl hgs
        · exact .inr hgs
      obtain ⟨e1, e2, e3⟩ := h.sp v g hg
      have hS := h.slot_ne hv hg
      have h1 := h.setGrip hS (x := { s.grips g with filter := f, recursive := (s.wds v).recursive }) rfl rfl (.inr (.inl rfl))
      have hsame : upd s.grips g { s.grips g with filter := f, recursive := (s.wds v).recursive } g =
        { s.grips g with filter := f, recursive := (s.wds v).recursive } := upd_same _ _ _
      have hpn : (s.grips g).path ≠ p := by rw [e3]; exact hp
      have h2 := (h1.register hS ⟨by simp only [St.setGrip]; rw [hsame]; exact e2 ▸ hv, by simp only [St.setGrip]; rw [hsame]; exact e2 ▸ hn, e1,
        by simp only [St.setGrip]; rw [hsame]; simp only; rw [e2]; exact e3, .inl (by simp only [St.setGrip]; rw [hsame]; exact hpn)⟩
        (by simp only [St.setGrip]; rw [hsame]; exact hpn) a).1
      have k4 := (register_rest (s.setGrip g { s.grips g with filter := f, recursive := (s.wds v).recursive }) g a).2.2.2.2.2.1
      simp only
      generalize Dcw.register (s.setGrip g { s.grips g with filter := f, recursive := (s.wds v).recursive }) g a = R at h2 k4 ⊢
      have k4 : R.1.wds = s.wds := k4
      split
      · refine ⟨h2.setWd hv (fun _ => ⟨rfl, .inl (k4 ▸ hp)⟩) fun g hg => h2.sp v g hg, ?_⟩
        simp only [St.setWd]; rw [upd_same, k4]
      · refine ⟨h2.closeHandle hv, ?_⟩
        rw [(closeHandle_rest _ v).2.2.1, k4]

theorem Ends.recreate (h : Ends p w s₀ s) {v : Nat} (hv : v ≠ w) (hn : v < s.nw) (hp : (s.wds v).path ≠ p) (a0 a1 : Ans) :
    Ends p w s₀ (recreate s v a0 a1).1 ∧ ((recreate s v a0 a1).1.wds v).path = (s.wds v).path ∧ (recreate s v a0 a1).1.nw = s.nw := by
  unfold Dcw.recreate
  simp only
  obtain ⟨h1, h2⟩ := h.updateGrip hv hn hp false (!hasFile (s.wds v).filter) (fileFilter (s.wds v).filter) a0
  have n1 := (updateGrip_wds s v false (!hasFile (s.wds v).filter) (fileFilter (s.wds v).filter) a0).1
  generalize Dcw.updateGrip s v false (!hasFile (s.wds v).filter) (fileFilter (s.wds v).filter) a0 = R at h1 h2 n1 ⊢
  split
  · obtain ⟨h3, h4⟩ := h1.updateGrip hv (n1 ▸ hn) (h2 ▸ hp) true (!hasDir (R.1.wds v).filter) (dirFilter (R.1.wds v).filter) a1
    have n2 := (updateGrip_wds R.1 v true (!hasDir (R.1.wds v).filter) (dirFilter (R.1.wds v).filter) a1).1
    generalize Dcw.updateGrip R.1 v true (!hasDir (R.1.wds v).filter) (dirFilter (R.1.wds v).filter) a1 = Q at h3 h4 n2 ⊢
    split
    · refine ⟨h3.setWd hv (fun _ => ⟨rfl, .inl ?_⟩) fun g hg => h3.sp v g hg, ?_, n2.trans n1⟩
      · rw [h4, h2]; exact hp
      · simp only [St.setWd]; rw [upd_same]; exact h4.trans h2
    · exact ⟨h3, h4.trans h2, n2.trans n1⟩
  · exact ⟨h1, h2, n1⟩

/-! ### Steps -/

theorem Ends.entry (h : Ends p w s₀ s) {q : Path} (hq : q ≠ p) {u : Nat} (hu : s.m.get? q = some u) :
    u ≠ w ∧ u < s.nw ∧ (s.wds u).path = q ∧ (s.wds u).path ≠ p := by
  obtain ⟨h1, h2⟩ := h.tab q u hu
  exact ⟨fun e => hq (h1.symm.trans (e ▸ h.wp)), h2, h1, fun e => hq (h1.symm.trans e)⟩

theorem nonState_tab {s : St} {q : Path} {u : Nat} (h : nonState s q = some u) : s.m.get? q = some u := by
  unfold nonState at h
  split at h
  · cases h
  · rename_i hm
    split at h
    · cases h
    · rw [hm]; exact h

theorem Ends.watch (h : Ends p w s₀ s) {q : Path} (hq : q ≠ p) (e : Event) (r : Bool) (a0 a1 : Ans) : Ends p w s₀ (watch s q e r a0 a1).1 := by
  unfold Dcw.watch
  split
  · split
    · rename_i u hu
      obtain ⟨h1, h2, h3, h4⟩ := h.entry hq hu
      exact h.setWd h1 (fun _ => ⟨rfl, .inl h4⟩) fun g hg => h.sp u g hg
    · have hne : s.nw ≠ w := fun e => Nat.lt_irrefl _ (e ▸ h.wlt)
      have h1 := (h.setWd hne (x := { filter := e, recursive := r, path := q }) (fun hx => absurd hx (Nat.lt_irrefl _))
        (fun g hg => by simp [Wd.slots] at hg)).more (n := s.nh) (m := s.nw + 1) (O := s.opened) (Nat.le_refl _) (Nat.le_succ _) (fun _ hx => .inl hx)
      have hpa : (upd s.wds s.nw { filter := e, recursive := r, path := q } s.nw).path = q := by rw [upd_same]
      have h2 := h1.recreate hne (Nat.lt_succ_self _) (by simp only [St.setWd]; rw [hpa]; exact hq) a0 a1
      have key : ∀ R : St × Bool, Ends p w s₀ R.1 ∧ (R.1.wds s.nw).path = q ∧ R.1.nw = s.nw + 1 →
          Ends p w s₀ (if R.2 = true then ({ R.1 with m := R.1.m.set q s.nw }, true) else (R.1, false)).1 := by
        rintro R ⟨h3, h4, h5⟩
        split
        · refine h3.table (fun x u hu => ?_) (.inl ?_)
          · rw [GoMap.get?_set] at hu
            split at hu
            · rename_i e; cases hu; exact ⟨h4.trans e, by omega⟩
            · exact h3.tab x u hu
          · rw [GoMap.get?_set, if_neg hq]
        · exact h3
      exact key _ ⟨h2.1, h2.2.1.trans hpa, h2.2.2⟩
  · exact h

theorem Ends.rewatch (h : Ends p w s₀ s) {q : Path} (hq : q ≠ p) {old new : Event} {r ok : Bool} {s' : St}
    (he : rewatch s q old new r = some (s', ok)) : Ends p w s₀ s' := by
  unfold Dcw.rewatch at he
  split at he
  · split at he
    · cases he; exact h
    · rename_i u hu
      obtain ⟨h1, h2, h3, h4⟩ := h.entry hq (nonState_tab hu)
      split at he
      · have e1 := h.setWd h1 (x := { s.wds u with filter := stRewatch ||| new, recursive := r }) (fun _ => ⟨rfl, .inl h4⟩) fun g hg => h.sp u g hg
        have e2 := e1.closeHandle h1
        have e3 := (closeHandle_rest (s.setWd u { s.wds u with filter := stRewatch ||| new, recursive := r }) u).2.2.1
        simp only at he
        generalize Dcw.closeHandle (s.setWd u { s.wds u with filter := stRewatch ||| new, recursive := r }) u = R at e2 e3 he
        split at he
        · cases he; exact e2
        · cases he
          refine e2.setWd h1 (fun _ => ⟨rfl, .inl ?_⟩) fun g hg => e2.sp u g hg
          rw [e3]; simp only [St.setWd]; rw [upd_same]; exact h4
      · cases he
  · cases he; exact h

theorem Ends.unwatch (h : Ends p w s₀ s) {q : Path} (hq : q ≠ p) (gone : Bool) : Ends p w s₀ (unwatch s q gone).1 := by
  unfold Dcw.unwatch
  split
  · exact h
  · rename_i u hu
    obtain ⟨h1, h2, h3, h4⟩ := h.entry hq (nonState_tab hu)
    have e1 := h.setWd h1 (x := { s.wds u with filter := (s.wds u).filter ||| stUnwatch }) (fun _ => ⟨rfl, .inl h4⟩) fun g hg => h.sp u g hg
    simp only
    split
    · rw [List.append_assoc]
      refine e1.flow (R := s.reads) (Q := s.queue ++ ((s.wds u).g0.toList ++ (s.wds u).g1.toList)) (L := s.loop) (fun r hr => .inl hr)
        (fun x hx => ?_) (packets_append _ _ _ _)
      rcases hx with hx | hx | hx
      · exact .inl (.inl hx)
      · rcases List.mem_append.1 hx with hx | hx
        · exact .inl (.inr (.inl hx))
        · right; intro _
          obtain ⟨k1, k2, k3⟩ := h.sp u x hx
          refine ⟨k2 ▸ h1, k2 ▸ h2, k1, ?_, .inl (by rw [← k3] at h4; exact h4)⟩
          simp only [St.setWd]; rw [k2, upd_same]; exact k3
      · exact .inl (.inr (.inr hx))
    · exact e1

theorem Ends.step {s' : St} {o : Op} (h : Ends p w s₀ s) (hs : Step s o s') (ho : o.target ≠ some p) : Ends p w s₀ s' := by
  cases hs with
  | watch q e r a0 a1 => exact h.watch (fun e => ho (e ▸ rfl)) e r a0 a1
  | rewatch q old new r _ ok he => exact h.rewatch (fun e => ho (e ▸ rfl)) he
  | unwatch q gone => exact h.unwatch (fun e => ho (e ▸ rfl)) gone
  | complete r hr =>
    refine h.flow (R := s.reads.erase r) (Q := s.queue ++ [r.g]) (L := s.loop) (fun x hx => .inl (List.mem_of_mem_erase hx)) (fun g hg => .inl ?_)
      (packets_append _ _ _ _)
    rcases hg with ⟨x, hx, rfl⟩ | hg | hg
    · exact .inl ⟨x, List.mem_of_mem_erase hx, rfl⟩
    · rcases List.mem_append.1 hg with hg | hg
      · exact .inr (.inl hg)
      · rw [List.mem_singleton] at hg
        exact .inl ⟨r, hr, hg.symm⟩
    · exact .inr (.inr hg)
  | take =>
    unfold take
    split
    · rename_i g q hlo hq
      split
      · refine h.flow (R := s.reads) (Q := q) (L := .got g) (fun r hr => .inl hr) (fun x hx => .inl ?_) ?_
        · rcases hx with hx | hx | hx | hx
          · exact .inl hx
          · exact .inr (.inl (by rw [hq]; exact List.mem_cons_of_mem _ hx))
          · cases hx; exact .inr (.inl (by rw [hq]; exact List.mem_cons_self))
          · cases hx
        · unfold packets
          rw [hlo, hq]
          simp only [List.countP_cons, decide_eq_true_eq]
          omega
      · rename_i hlk
        have hg : g ∉ (s₀.wds w).slots := fun hg => hlk (h.lk g hg)
        refine h.flow (R := s.reads) (Q := q) (L := s.loop) (fun r hr => .inl hr) (fun x hx => .inl ?_) ?_
        · rcases hx with hx | hx | hx
          · exact .inl hx
          · exact .inr (.inl (by rw [hq]; exact List.mem_cons_of_mem _ hx))
          · exact .inr (.inr hx)
        · unfold packets
          rw [hq]
          simp [hg]
    · exact h
  | again ok =>
    unfold again
    split
    · rename_i g hlo
      have hbg : Busy s g := .inr (.inr (.inl hlo))
      obtain ⟨rs, hk, hrs⟩ := readDirChanges_form s g ok
      rw [hk]
      refine h.flow (R := s.reads ++ rs) (Q := s.queue) (L := .st g) (fun r hr => ?_) (fun x hx => .inl ?_) ?_
      · rcases List.mem_append.1 hr with hr | hr
        · exact .inl hr
        · right
          rw [(hrs r hr).1]
          refine ⟨fun _ => (hrs r hr).2, fun hn => ?_⟩
          rcases (h.oth g hbg hn).old with e | ⟨e, _⟩
          · exact e
          · rw [(hrs r hr).2] at e; cases e
      · rcases hx with ⟨r, hr, rfl⟩ | hx | hx | hx
        · rcases List.mem_append.1 hr with hr | hr
          · exact .inl ⟨r, hr, rfl⟩
          · rw [(hrs r hr).1]; exact hbg
        · exact .inr (.inl hx)
        · cases hx
        · cases hx; exact hbg
      · unfold packets
        rw [hlo]
        exact Nat.le_refl _
    · exact h
  | state a0 a1 _ hst =>
    unfold loopstate at hst
    split at hst
    · rename_i g hlo
      have hbg : Busy s g := .inr (.inr (.inr hlo))
      simp only at hst
      by_cases hg : g ∈ (s₀.wds w).slots
      · obtain ⟨-, hpa, hpath⟩ := h.own hg
        rw [hpa, h.st, if_neg (by decide), hpath] at hst
        have hb : ∀ x, Busy { s with loop := .idle } x → Busy s x := by
          rintro x (hx | hx | hx | hx)
          · exact .inl hx
          · exact .inr (.inl hx)
          · cases hx
          · cases hx
        -- the entry with one packet less
        generalize hv : { s.wds w with count := (s.wds w).count - 1 } = v at hst
        have hvs : v.slots = (s₀.wds w).slots := by rw [← hv]; exact h.slots
        have hvf : v.filter &&& onlyStates = stUnwatch := by rw [← hv]; exact h.st
        have hvp : v.path = p := by rw [← hv]; exact h.wp
        have hwd : ∀ u, u ≠ w → upd s.wds w v u = s.wds u := fun u hu => upd_ne _ _ hu
        have hpth : ∀ u, (upd s.wds w v u).path = (s.wds u).path ∧ (upd s.wds w v u).slots = (s.wds u).slots := by
          intro u
          by_cases e : u = w
          · subst e; rw [upd_same]; exact ⟨hvp.trans h.wp.symm, hvs.trans h.slots.symm⟩
          · rw [hwd u e]; exact ⟨rfl, rfl⟩
        by_cases hz : (s.wds w).count - 1 = 0
        · rw [if_pos hz, if_neg (by decide), if_pos rfl] at hst
          cases hst
          obtain ⟨c1, c2, c3, c4, c5, c6, c7⟩ := closeHandle_eff ({ s with loop := .idle }.setWd w v) w
          obtain ⟨d1, d2, -, d4, -, -⟩ := closeHandle_rest ({ s with loop := .idle }.setWd w v) w
          have hwv : ({ s with loop := .idle }.setWd w v).wds w = v := by simp only [St.setWd]; rw [upd_same]
          rw [hwv, hvs] at c4 c5 c6
          generalize Dcw.closeHandle ({ s with loop := .idle }.setWd w v) w = R at c1 c2 c3 c4 c5 c6 c7 d1 d2 d4 ⊢
          simp only [St.setWd] at c1 c2 c3 c4 c5 c6 c7 d1 d2 d4 hwv
          have hgr : ∀ x, (R.1.grips x).parent = (s.grips x).parent ∧ (R.1.grips x).path = (s.grips x).path ∧ (R.1.grips x).linked = (s.grips x).linked := by
            intro x
            rw [c4]
            split <;> exact ⟨rfl, rfl, rfl⟩
          refine ⟨by simp only; rw [d2]; exact h.wlt, by simp only; rw [c1, hwv]; exact hvp, by simp only; rw [d4]; exact h.nh, h.h0,
            by simp only; rw [c1, hwv]; exact hvs, by simp only; rw [c1, hwv]; exact hvf, fun x hx => by simp only; rw [(hgr x).2.2]; exact h.lk x hx,
            fun u x hx => ?_, fun r hr => ⟨fun k => ?_, fun k => ?_⟩, fun x hx hxs => ?_, fun q u hu => ?_, .inr ⟨?_, fun x hx => ?_, fun x hx k hk hm => ?_⟩⟩
          · simp only at hx ⊢
            rw [c1, (hpth u).2] at hx
            rw [(hgr x).1, (hgr x).2.1, c1, (hpth u).1, d1]
            exact h.sp u x hx
          · obtain ⟨r1, r2⟩ := c5 r hr
            exact absurd ((h.rd r r1).1 k) (r2 r.g k)
          · simp only; rw [(hgr _).2.1]; exact (h.rd r (c5 r hr).1).2 k
          · have hxb : Busy s x := by
              rcases hx with ⟨r, hr, rfl⟩ | hx | hx | hx
              · exact .inl ⟨r, (c5 r hr).1, rfl⟩
              · rcases c7 x hx with hq | ⟨r, hr, rfl⟩
                · exact .inr (.inl hq)
                · exact .inl ⟨r, hr, rfl⟩
              · simp only at hx; rw [c3] at hx; cases hx
              · simp only at hx; rw [c3] at hx; cases hx
            have ho := h.oth x hxb hxs
            have e : R.1.grips x = s.grips x := by rw [c4, if_neg hxs]
            refine ⟨by simp only; rw [e]; exact ho.ne, by simp only; rw [e, d2]; exact ho.lt, by simp only; rw [d1]; exact ho.ng, ?_, ?_⟩
            · simp only; rw [e, c1, hwd _ ho.ne]; exact ho.path
            · simp only; rw [e, c1, hwd _ ho.ne]; exact ho.old
          · simp only at hu ⊢
            rw [c2, GoMap.get?_del] at hu
            split at hu
            · cases hu
            · rw [c1, (hpth u).1, d2]; exact h.tab q u hu
          · simp only; rw [c2, GoMap.get?_del, if_pos rfl]
          · simp only; rw [c4, if_pos hx]
          · rcases h.main with ⟨_, _, _, h4⟩ | ⟨_, _, h4⟩
            · exact (c6 k hm).2 x hx ((h4 x hx).trans hk)
            · exact h4 x hx k hk (c6 k hm).1
        · rw [if_neg hz] at hst
          cases hst
          have hwv : upd s.wds w v w = v := upd_same _ _ _
          refine ⟨h.wlt, by simp only [St.setWd]; rw [hwv]; exact hvp, h.nh, h.h0, by simp only [St.setWd]; rw [hwv]; exact hvs,
            by simp only [St.setWd]; rw [hwv]; exact hvf, h.lk, fun u x hx => ?_, h.rd, fun x hx hxs => ?_, fun q u hu => ?_, ?_⟩
          · simp only [St.setWd] at hx ⊢
            rw [(hpth u).2] at hx
            rw [(hpth u).1]; exact h.sp u x hx
          · have ho := h.oth x (hb x hx) hxs
            exact ⟨ho.ne, ho.lt, ho.ng, by simp only [St.setWd]; rw [hwd _ ho.ne]; exact ho.path, by simp only [St.setWd]; rw [hwd _ ho.ne]; exact ho.old⟩
          · simp only [St.setWd] at hu ⊢
            rw [(hpth u).1]; exact h.tab q u hu
          · rcases h.main with ⟨h1, h2, h3, h4⟩ | h1
            · obtain ⟨e1, e2⟩ := count_pred hz h2
              refine .inl ⟨h1, ?_, ?_, h4⟩
              · simp only [St.setWd]; rw [hwv, ← hv]; exact e1
              · simp only [St.setWd]
                rw [hwv, ← hv]
                simp only
                unfold packets at h3 ⊢
                rw [hlo] at h3
                simp only [if_pos hg] at h3 ⊢
                omega
            · exact .inr h1
      · have ho := h.oth g hbg hg
        have hI : Ends p w s₀ { s with loop := .idle } := by
          refine h.flow (R := s.reads) (Q := s.queue) (L := .idle) (fun r hr => .inl hr) (fun x hx => .inl ?_) ?_
          · rcases hx with hx | hx | hx | hx
            · exact .inl hx
            · exact .inr (.inl hx)
            · cases hx
            · cases hx
          · unfold packets
            rw [hlo]
            simp [hg]
        generalize hu : (s.grips g).parent = u at hst ho
        have hune : u ≠ w := hu ▸ ho.ne
        have hult : u < s.nw := hu ▸ ho.lt
        have hup : (s.grips g).path = (s.wds u).path := hu ▸ ho.path
        split at hst
        · cases hst; exact hI
        · have hold : (s.wds u).path ≠ p ∨ (s.wds u).state ≠ stRewatch := by
            rcases ho.old with e | ⟨_, e⟩
            · exact .inl (hup ▸ e)
            · exact .inr (hu ▸ e)
          have h1 : Ends p w s₀ ({ s with loop := .idle }.setWd u { s.wds u with count := (s.wds u).count - 1 }) :=
            hI.setWd hune (fun _ => ⟨rfl, hold⟩) fun x hx => h.sp u x hx
          have hpa : (upd s.wds u { s.wds u with count := (s.wds u).count - 1 } u).path = (s.wds u).path := by rw [upd_same]
          split at hst
          · split at hst
            · rename_i hre
              cases hst
              refine (h1.recreate hune hult ?_ a0 a1).1
              simp only [St.setWd]; rw [hpa]
              rcases hold with e | e
              · exact e
              · exact absurd hre e
            · split at hst
              · cases hst
                have h2 := h1.closeHandle hune
                refine h2.table (fun q x hx => ?_) ?_
                · rw [GoMap.get?_del] at hx
                  split at hx
                  · cases hx
                  · exact h2.tab q x hx
                · rw [GoMap.get?_del]
                  split
                  · exact .inr rfl
                  · exact .inl rfl
              · cases hst
          · cases hst; exact h1
    · cases hst; exact h

theorem Elsewhere.ends {s' : St} (h : Elsewhere p s s') (h0 : Ends p w s₀ s) : Ends p w s₀ s' := by
  induction h with
  | refl => exact h0
  | step _ hs ho ih => exact ih.step hs ho

theorem Step.sane {s s' : St} {o : Op} (h : Sane none s) (hs : Step s o s') : Sane none s' := by
  cases hs with
  | watch q e r a0 a1 => exact watch_sane h q e r a0 a1
  | rewatch q old new r _ ok he => exact rewatch_sane h he
  | unwatch q gone => exact unwatch_sane h q gone
  | complete r hr => exact complete_sane h r
  | take => exact take_sane h
  | again ok => exact again_sane h ok
  | state a0 a1 _ he => exact loopstate_sane h he

theorem LHist.sane {l : List Op} {s : St} (h : LHist l s) : Sane none s := by
  induction h with
  | nil => exact Sane.init
  | snoc _ _ hs ih => exact hs.sane ih

/-- The state that Unwatch of a directory that is gone leaves. -/
theorem CHist.ends {l : List Op} {e : Event} {r : Bool} (h : CHist l s) (hl : asked l p = some (e, r))
    (ho : (Dcw.unwatch s p true).2 = true) : ∃ w, s.m.get? p = some w ∧ Ends p w (Dcw.unwatch s p true).1 (Dcw.unwatch s p true).1 := by
  have ho' : (Dcw.unwatch s p false).2 = true := by
    unfold Dcw.unwatch at ho ⊢
    cases hns : nonState s p with
    | none => rw [hns] at ho; cases ho
    | some w => rfl
  obtain ⟨w, hm, h0, ha, hli, hsl, hc, hpos⟩ := h.unwatched hl ho'
  have hns : nonState s p = some w := by
    cases hns : nonState s p with
    | none => unfold Dcw.unwatch at ho; rw [hns] at ho; cases ho
    | some w' => rw [nonState_tab hns] at hm; exact hm
  have huf : (Dcw.unwatch s p false).1 = s.setWd w { s.wds w with filter := (s.wds w).filter ||| stUnwatch } := by
    unfold Dcw.unwatch; rw [hns]; rfl
  have hun : (Dcw.unwatch s p true).1 = { s.setWd w { s.wds w with filter := (s.wds w).filter ||| stUnwatch } with queue := s.queue ++ (s.wds w).slots } := by
    unfold Dcw.unwatch
    rw [hns]
    simp [Wd.slots, St.setWd, List.append_assoc]
  have hwd : ∀ u, (upd s.wds w { s.wds w with filter := (s.wds w).filter ||| stUnwatch } u).slots = (s.wds u).slots ∧
      (upd s.wds w { s.wds w with filter := (s.wds w).filter ||| stUnwatch } u).path = (s.wds u).path := by
    intro u
    by_cases e : u = w
    · subst e; rw [upd_same]; exact ⟨rfl, rfl⟩
    · rw [upd_ne _ _ e]; exact ⟨rfl, rfl⟩
  have hi := h.inv
  have hsane := h.legal.sane
  obtain ⟨hw, hpw⟩ := hi.base.tab _ _ hm
  rw [huf] at hli hc hsl
  have hst := hli.st
  have hsame := (upd_same s.wds w { s.wds w with filter := (s.wds w).filter ||| stUnwatch })
  simp only [St.setWd] at hst hc hsl
  have hslots : ∀ u, ∀ g ∈ (s.wds u).slots, g < s.ng ∧ (s.grips g).parent = u ∧ (s.grips g).path = (s.wds u).path := by
    intro u g hg
    obtain ⟨i, hi'⟩ := mem_slots.1 hg
    have h1 := hsane.sl u i g hi'
    have h2 := hsane.lk g h1.1
    have := hi.base.slot u (h1.2 ▸ h2.2) g hg
    exact ⟨this.1, this.2.1, this.2.2.1⟩
  refine ⟨w, hm, ?_⟩
  rw [hun]
  refine ⟨hw, by simp only [St.setWd]; rw [(hwd w).2]; exact hpw, Nat.le_refl _, fun g _ k hk => hsane.hd g k hk, rfl, hst, fun g hg => ?_, fun u g hg => ?_,
    fun x hx => ⟨fun _ => (hi.base.rd x hx).1, fun hn => ?_⟩, fun g hg hn => ?_, fun q u hu => ?_, .inl ⟨.inl hm, ?_, ?_, fun _ _ => rfl⟩⟩
  · simp only [St.setWd] at hg ⊢
    rw [(hwd w).1] at hg
    exact (hi.base.slot w hw g hg).2.2.2
  · simp only [St.setWd] at hg ⊢
    rw [(hwd u).1] at hg
    rw [(hwd u).2]
    exact hslots u g hg
  · simp only [St.setWd] at hn ⊢
    rw [(hwd w).1] at hn
    have hrd := (hi.base.rd x hx).1
    have ho := hi.base.own x.g (.inr (by rw [hrd]; exact nofun))
    have h3 := hi.base.slot _ ho.1 x.g ho.2
    intro hp
    have hne : (s.grips x.g).parent ≠ w := fun e => hn (e ▸ ho.2)
    cases hi.cls _ ho.1 with
    | up F e h1 => rw [← h3.2.2.1, hp, hm] at h1; exact hne (Option.some.inj h1).symm
    | re e h1 => rw [← h3.2.2.1, hp, hm] at h1; exact hne (Option.some.inj h1).symm
    | un F h1 => rw [← h3.2.2.1, hp, hm] at h1; exact hne (Option.some.inj h1).symm
    | gone h1 h2 => rw [h2 _ ho.2] at hrd; cases hrd
  · simp only [St.setWd] at hn
    rw [(hwd w).1] at hn
    have hgb : Busy s g := by
      rcases hg with hg | hg | hg
      · exact .inl hg
      · rcases List.mem_append.1 hg with hg | hg
        · exact .inr (.inl hg)
        · exact absurd hg hn
      · exact .inr (.inr hg)
    have hpend : 0 < pend s g := by
      unfold pend tok
      rcases hgb with ⟨r, hr, h2⟩ | h1 | h1 | h1
      · have : 0 < s.reads.countP fun r => decide (r.g = g) := List.countP_pos_iff.2 ⟨r, hr, decide_eq_true h2⟩
        omega
      · have := List.count_pos_iff.2 h1
        omega
      · rw [if_pos h1]; omega
      · rw [if_pos h1]; omega
    have ho := hi.base.own g (.inl hpend)
    have hne : (s.grips g).parent ≠ w := fun e => hn (e ▸ ho.2)
    have h3 := hi.base.slot _ ho.1 g ho.2
    refine ⟨hne, ho.1, h3.1, by simp only [St.setWd]; rw [(hwd _).2]; exact h3.2.2.1, ?_⟩
    simp only [St.setWd]
    rw [upd_ne _ _ hne]
    by_cases hp : (s.grips g).path = p
    · right
      cases hi.cls _ ho.1 with
      | up F e h1 => rw [← h3.2.2.1, hp, hm] at h1; exact absurd (Option.some.inj h1).symm hne
      | re e h1 => rw [← h3.2.2.1, hp, hm] at h1; exact absurd (Option.some.inj h1).symm hne
      | un F h1 => rw [← h3.2.2.1, hp, hm] at h1; exact absurd (Option.some.inj h1).symm hne
      | gone h1 h2 h3 =>
        refine ⟨h2 g ho.2, ?_⟩
        rcases h3 with e | ⟨e, _⟩
        · rw [Wd.state, e]; decide
        · rw [Wd.state, e]; decide
    · exact .inl hp
  · simp only [St.setWd] at hu ⊢
    rw [(hwd u).2]
    exact ⟨(hi.base.tab q u hu).2, (hi.base.tab q u hu).1⟩
  · simp only [St.setWd]; rw [hc]; exact hpos
  · simp only [St.setWd]
    rw [hc, ← hsl, (hwd w).1]
    unfold packets
    simp only [List.countP_append]
    have : (s.wds w).slots.countP (fun g => decide (g ∈ (s.wds w).slots)) = (s.wds w).slots.length := by
      rw [List.countP_eq_length]
      intro x hx
      simpa using hx
    omega

/-- **C124.**  Unwatch succeeds for a directory that does not exist any more.  Whatever the kernel reports from then on, or does not, whatever is done with
other directories and whatever fails: once the loop has nothing left to handle, the directory is not in the table, the kernel reads nothing for it, and the
handles it had are closed. -/
theorem C124_released {s' : St} {l : List Op} {e : Event} {r : Bool} (h : CHist l s) (hl : asked l p = some (e, r))
    (ho : (Dcw.unwatch s p true).2 = true) (hr : Elsewhere p (Dcw.unwatch s p true).1 s') (hq : Quiet s') :
    s'.m.get? p = none ∧ held s' p = [] ∧
    ∀ w g k, s.m.get? p = some w → ((s.wds w).g0 = some g ∨ (s.wds w).g1 = some g) → (s.grips g).handle = some k → k ∉ s'.opened := by
  obtain ⟨w, hm, hE⟩ := h.ends hl ho
  have hF := hr.ends hE
  obtain ⟨hsl, hgr⟩ : ((Dcw.unwatch s p true).1.wds w).slots = (s.wds w).slots ∧ (Dcw.unwatch s p true).1.grips = s.grips := by
    unfold Dcw.unwatch
    cases hns : nonState s p with
    | none => exact ⟨rfl, rfl⟩
    | some w' =>
      refine ⟨?_, rfl⟩
      simp only [if_true, St.setWd]
      by_cases hw : w = w'
      · subst hw; rw [upd_same]; rfl
      · rw [upd_ne _ _ hw]
  rcases hF.main with ⟨h1, h2, h3, h4⟩ | ⟨h1, h2, h3⟩
  · exfalso
    unfold packets at h3
    rw [hq.1, hq.2] at h3
    simp only [List.countP_nil] at h3
    omega
  · refine ⟨h1, ?_, fun w' g k hw' hg hk => ?_⟩
    · unfold held
      rw [List.map_eq_nil_iff, List.filter_eq_nil_iff]
      intro x hx hp
      have hp := of_decide_eq_true hp
      have hrd := hF.rd x hx
      by_cases hs : x.g ∈ ((Dcw.unwatch s p true).1.wds w).slots
      · have := hrd.1 hs
        rw [h2 _ hs] at this; cases this
      · exact hrd.2 hs hp
    · rw [hm] at hw'
      obtain rfl := Option.some.inj hw'
      exact h3 g (by rw [hsl]; exact (slots_iff _ _).2 hg) k (by rw [hgr]; exact hk)

end

/-! ### Examples -/

/-- Runs from a state, without calls for `p`. -/
def lrun (p : Path) : List Act → St → Option St
  | [], s => some s
  | a :: l, s =>
    match run1 s a with
    | some (t, o) => if o.target ≠ some p then lrun p l t else none
    | none => none

theorem lrun_elsewhere {p : Path} {s₀ : St} : ∀ (l : List Act) {s s' : St}, Elsewhere p s₀ s → lrun p l s = some s' → Elsewhere p s₀ s'
  | [], _, _, h, e => by cases e; exact h
  | a :: l, s, s', h, e => by
    unfold lrun at e
    split at e
    · rename_i t o hr
      split at e
      · rename_i ho
        exact lrun_elsewhere l (h.step (run1_step hr) ho) e
      · cases e
    · cases e

namespace GoneEx
open Ex2 (p)

/-- Channels ask for Create below `p`, and for Write in another directory; the first handle of `p` has something to report. -/
def la : List Act := [.watch p readdcw.create false {} {}, .watch [['q']] readdcw.write false {} {}, .complete 0]
/-- The loop handles a packet. -/
def one : List Act := [.take, .again true, .state {} {}]
/-- The other directory is ended and watched again meanwhile; no read of `p` completes by itself. -/
def lb : List Act := one ++ [.unwatch [['q']] true] ++ one ++ one ++ one ++ [.watch [['q']] readdcw.rename true {} { create := false }] ++
  one ++ one ++ one ++ one ++ one ++ one

def s1 : St := (unwatch (cfinal la).1 p true).1

/-- The hypotheses are met. -/
example : CHist (cfinal la).2 (cfinal la).1 ∧ asked (cfinal la).2 p = some (readdcw.create, false) ∧ (unwatch (cfinal la).1 p true).2 = true ∧
    s1.queue.length = 3 ∧ ¬ Quiet s1 ∧ (held s1 p).length = 1 ∧ ((lrun p lb s1).map fun s => decide (Quiet s)) = some true :=
  ⟨cfinal_hist la, by decide, by decide, by decide, by decide, by decide, by decide⟩

/-- Without the packets that Unwatch posts the watcher keeps everything until the kernel reports something. -/
example : ∃ ops s, CHist ops s ∧ asked ops p = some (readdcw.create, false) ∧ (unwatch s p false).2 = true ∧ Quiet (unwatch s p false).1 ∧
    (unwatch s p false).1.m.get? p ≠ none ∧ (held (unwatch s p false).1 p).length = 2 :=
  ⟨_, _, cfinal_hist [.watch p readdcw.create false {} {}], by decide, by decide, by decide, by decide, by decide⟩
end GoneEx
end Dcw
end Verif
