/-
C113 on Windows: the path of an event and the directory that reported the change.

A handle is for a directory, whatever its name is (it is opened with FILE_SHARE_DELETE, /repo/watcher_readdcw.go:95, so that the
directory may be renamed); the grip has the path that was given to Watch, and this is what events are made with
(/repo/watcher_readdcw.go:401-453).  Adds to the model of `Readdcw` the directories that the paths lead to at every moment, and the
directory that each handle is for.
-/
import Verif.Win

namespace Verif
namespace Dcw
open Platform (readdcw)

/-- The directory that a path leads to, by some number. -/
abbrev Files := Path → Option Nat

/-- Handles from `n` on are for the directory that `p` leads to. -/
def opensAt (files : Files) (p : Path) (n : Nat) (made : Nat → Option Nat) : Nat → Option Nat :=
  fun h => if n ≤ h then files p else made h

/-- The paths with an open handle or an outstanding read lead where they led before. -/
def Still (s : St) (files files' : Files) : Prop :=
  (∀ g h, (s.grips g).handle = some h → files' (s.grips g).path = files (s.grips g).path) ∧
  ∀ r ∈ s.reads, files' (s.grips r.g).path = files (s.grips r.g).path

/-- One step, with the directories that handles are for.  CreateFile opens only what exists. -/
inductive FStep : (Nat → Option Nat) → Files → St → (Nat → Option Nat) → St → Prop
  | watch (made : Nat → Option Nat) (files : Files) (s : St) (p : Path) (e : Event) (isrec : Bool) (a0 a1 : Ans)
      (h0 : a0.create = true → files p ≠ none) (h1 : a1.create = true → files p ≠ none) :
      FStep made files s (opensAt files p s.nh made) (watch s p e isrec a0 a1).1
  | rewatch (made : Nat → Option Nat) (files : Files) (s : St) (p : Path) (old new : Event) (isrec : Bool) (s' : St) (ok : Bool)
      (h : rewatch s p old new isrec = some (s', ok)) : FStep made files s made s'
  | unwatch (made : Nat → Option Nat) (files : Files) (s : St) (p : Path) (gone : Bool) : FStep made files s made (unwatch s p gone).1
  | complete (made : Nat → Option Nat) (files : Files) (s : St) (r : Read) (h : r ∈ s.reads) : FStep made files s made (complete s r)
  | take (made : Nat → Option Nat) (files : Files) (s : St) : FStep made files s made (take s)
  | again (made : Nat → Option Nat) (files : Files) (s : St) (ok : Bool) : FStep made files s made (again s ok)
  | state (made : Nat → Option Nat) (files : Files) (s : St) (g : Nat) (a0 a1 : Ans) (s' : St) (hg : s.loop = .st g)
      (h : loopstate s a0 a1 = some s') (h0 : a0.create = true → files (s.grips g).path ≠ none)
      (h1 : a1.create = true → files (s.grips g).path ≠ none) :
      FStep made files s (opensAt files (s.grips g).path s.nh made) s'

/-- Executions from the start; directories are created, removed and renamed in between, with `still` only where no handle is open
and no read outstanding. -/
inductive FRun (still : Bool) : (Nat → Option Nat) → Files → St → Prop
  | init (files : Files) : FRun still (fun _ => none) files St.init
  | step {made made' : Nat → Option Nat} {files : Files} {s s' : St} : FRun still made files s → FStep made files s made' s' →
      FRun still made' files s'
  | fs {made : Nat → Option Nat} {files files' : Files} {s : St} : FRun still made files s → (still = true → Still s files files') →
      FRun still made files' s

/-- Every step is one of the watcher's. -/
theorem FStep.step {made made' : Nat → Option Nat} {files : Files} {s s' : St} (h : FStep made files s made' s') : ∃ op, Step s op s' := by
  cases h with
  | watch p e isrec a0 a1 h0 h1 => exact ⟨_, .watch s p e isrec a0 a1⟩
  | rewatch p old new isrec s' ok h => exact ⟨_, .rewatch s p old new isrec s' ok h⟩
  | unwatch p gone => exact ⟨_, .unwatch s p gone⟩
  | complete r h => exact ⟨_, .complete s r h⟩
  | take => exact ⟨_, .take s⟩
  | again ok => exact ⟨_, .again s ok⟩
  | state g a0 a1 s' hg h h0 h1 => exact ⟨_, .state s a0 a1 s' h⟩

/-- `h` is for the directory that the path of `g` leads to. -/
def For (M : Nat → Option Nat) (files : Files) (s : St) (g h : Nat) : Prop :=
  ∃ d, M h = some d ∧ files (s.grips g).path = some d

structure Leads (M : Nat → Option Nat) (files : Files) (s : St) : Prop where
  parent : ∀ g < s.ng, (s.grips g).parent < s.nw ∧ (s.wds (s.grips g).parent).path = (s.grips g).path
  slot : ∀ w i g, (s.wds w).slot i = some g → g < s.ng ∧ (s.grips g).parent = w
  noslot : ∀ w, s.nw ≤ w → ∀ i, (s.wds w).slot i = none
  handle : ∀ g h, (s.grips g).handle = some h → g < s.ng ∧ h < s.nh ∧ For M files s g h
  read : ∀ r ∈ s.reads, r.g < s.ng ∧ r.h < s.nh ∧ For M files s r.g r.h
  queue : ∀ g ∈ s.queue, g < s.ng
  loop : ∀ g, (s.loop = .got g ∨ s.loop = .st g) → g < s.ng

/-- Nothing changes but what does not matter here. -/
theorem Leads.setWd {M : Nat → Option Nat} {files : Files} {s : St} (h : Leads M files s) {w : Nat} {v : Wd}
    (hp : v.path = (s.wds w).path) (hs : ∀ i, v.slot i = (s.wds w).slot i ∨ v.slot i = none) : Leads M files (s.setWd w v) where
  parent g hg := by
    obtain ⟨h1, h2⟩ := h.parent g hg
    refine ⟨h1, ?_⟩
    simp only [St.setWd, upd]
    split
    · next he => rw [hp, ← he]; exact h2
    · exact h2
  slot w' i g hg := by
    simp only [St.setWd, upd] at hg ⊢
    split at hg
    · next he =>
      subst he
      rcases hs i with h1 | h1
      · exact h.slot w' i g (h1 ▸ hg)
      · rw [h1] at hg; cases hg
    · exact h.slot w' i g hg
  noslot w' hw i := by
    simp only [St.setWd, upd]
    split
    · next he =>
      subst he
      rcases hs i with h1 | h1
      · rw [h1]; exact h.noslot w' hw i
      · exact h1
    · exact h.noslot w' hw i
  handle g k hk := h.handle g k hk
  read r hr := h.read r hr
  queue := h.queue
  loop := h.loop

theorem Leads.readDirChanges {M : Nat → Option Nat} {files : Files} {s : St} (h : Leads M files s) (g : Nat) (ok : Bool) :
    Leads M files (readDirChanges s g ok).1 := by
  unfold Dcw.readDirChanges
  split
  · exact h
  · next k hk =>
    split
    · refine { h with read := ?_ }
      intro r hr
      rcases List.mem_append.1 hr with hr | hr
      · exact h.read r hr
      · simp at hr; subst hr; exact h.handle g k hk
    · exact h

theorem readDirChanges_frame (s : St) (g : Nat) (ok : Bool) : (readDirChanges s g ok).1.wds = s.wds ∧ (readDirChanges s g ok).1.nw = s.nw ∧
    (readDirChanges s g ok).1.ng = s.ng ∧ (readDirChanges s g ok).1.nh = s.nh ∧ (readDirChanges s g ok).1.grips = s.grips := by
  unfold Dcw.readDirChanges
  split
  · simp
  · split <;> simp

/-- A grip changes its handle, filter or flags. -/
theorem Leads.setGrip {M : Nat → Option Nat} {files : Files} {s : St} (h : Leads M files s) {g n : Nat} {v : Grip}
    (hp : v.path = (s.grips g).path) (hq : v.parent = (s.grips g).parent) (hn : s.nh ≤ n)
    (hh : ∀ k, v.handle = some k → g < s.ng ∧ k < n ∧ For M files s g k) :
    Leads M files { s.setGrip g v with nh := n } where
  parent x hx := by
    obtain ⟨h1, h2⟩ := h.parent x hx
    simp only [St.setGrip, upd]
    split
    · next he => subst he; rw [hp, hq]; exact ⟨h1, h2⟩
    · exact ⟨h1, h2⟩
  slot w i x hx := by
    obtain ⟨h1, h2⟩ := h.slot w i x hx
    refine ⟨h1, ?_⟩
    simp only [St.setGrip, upd]
    split
    · next he => subst he; rw [hq]; exact h2
    · exact h2
  noslot := h.noslot
  handle x k hk := by
    simp only [St.setGrip, upd, For] at hk ⊢
    split at hk
    · next he =>
      subst he
      rw [if_pos rfl, hp]
      exact hh k hk
    · next he =>
      rw [if_neg he]
      obtain ⟨h1, h2, h3⟩ := h.handle x k hk
      exact ⟨h1, by omega, h3⟩
  read r hr := by
    obtain ⟨h1, h2, h3⟩ := h.read r hr
    refine ⟨h1, by simp only [St.setGrip]; omega, ?_⟩
    obtain ⟨d, h4, h5⟩ := h3
    refine ⟨d, h4, ?_⟩
    simp only [St.setGrip, upd]
    split
    · next he => rw [hp, ← he]; exact h5
    · exact h5
  queue := h.queue
  loop := h.loop

/-- What a `register` finds: handles from `s.nh` on are for the directory of the path. -/
def Opens (M : Nat → Option Nat) (files : Files) (p : Path) (n : Nat) (a : Ans) : Prop :=
  a.create = true → ∃ d, files p = some d ∧ ∀ h, n ≤ h → M h = some d

theorem Leads.register {M : Nat → Option Nat} {files : Files} {s : St} (h : Leads M files s) {g : Nat} (hg : g < s.ng) {a : Ans} {n : Nat}
    (hn : n ≤ s.nh) (ho : Opens M files (s.grips g).path n a) :
    Leads M files (register s g a).1 ∧ (register s g a).1.wds = s.wds ∧ (register s g a).1.nw = s.nw ∧ (register s g a).1.ng = s.ng ∧
    s.nh ≤ (register s g a).1.nh ∧ (∀ x, ((register s g a).1.grips x).path = (s.grips x).path) ∧
    ∀ x, ((register s g a).1.grips x).parent = (s.grips x).parent := by
  have hpath : ∀ (o : Option Nat) x, (upd s.grips g { s.grips g with handle := o } x).path = (s.grips x).path := by
    intro o x; simp only [upd]; split
    · next he => subst he; rfl
    · rfl
  have hpar : ∀ (o : Option Nat) x, (upd s.grips g { s.grips g with handle := o } x).parent = (s.grips x).parent := by
    intro o x; simp only [upd]; split
    · next he => subst he; rfl
    · rfl
  unfold Dcw.register
  split
  · next hc =>
    obtain ⟨d, h1, h2⟩ := ho hc
    have hl : Leads M files { s.setGrip g { s.grips g with handle := some s.nh } with nh := s.nh + 1 } :=
      h.setGrip rfl rfl (by omega) (fun k hk => by
        simp at hk; subst hk
        exact ⟨hg, by omega, d, h2 _ hn, h1⟩)
    dsimp only
    split
    · have hl2 : Leads M files { ({ s.setGrip g { s.grips g with handle := some s.nh } with nh := s.nh + 1 } : St) with
          opened := s.nh :: s.opened } := { hl with }
      obtain ⟨f1, f2, f3, f4, f5⟩ := readDirChanges_frame ({ ({ s.setGrip g { s.grips g with handle := some s.nh } with nh := s.nh + 1 } : St) with
          opened := s.nh :: s.opened }) g a.read
      refine ⟨hl2.readDirChanges g a.read, f1, f2, f3, ?_, ?_, ?_⟩
      · rw [f4]; simp
      · intro x; rw [f5]; exact hpath _ x
      · intro x; rw [f5]; exact hpar _ x
    · exact ⟨hl, rfl, rfl, rfl, by simp, hpath _, hpar _⟩
  · refine ⟨?_, rfl, rfl, rfl, Nat.le_refl _, hpath _, hpar _⟩
    exact h.setGrip (n := s.nh) rfl rfl (Nat.le_refl _) (fun k hk => by simp at hk)

/-- What `recreate` and its parts do for the entry `w` whose path is `p`. -/
structure Works (M : Nat → Option Nat) (files : Files) (p : Path) (w : Nat) (s s' : St) : Prop where
  leads : Leads M files s'
  nw : s'.nw = s.nw
  nh : s.nh ≤ s'.nh
  path : (s'.wds w).path = p

theorem Leads.newGrip {M : Nat → Option Nat} {files : Files} {s : St} (h : Leads M files s) {w : Nat} (hw : w < s.nw) {a : Ans} {n : Nat}
    (filter : Event) (hn : n ≤ s.nh) (ho : Opens M files (s.wds w).path n a) :
    Leads M files (newGrip s w filter a).1 ∧ (newGrip s w filter a).1.wds = s.wds ∧ (newGrip s w filter a).1.nw = s.nw ∧
    s.nh ≤ (newGrip s w filter a).1.nh ∧
    ∀ g, (newGrip s w filter a).2 = some g → g < (newGrip s w filter a).1.ng ∧ ((newGrip s w filter a).1.grips g).parent = w := by
  have h1 : Leads M files { s.setGrip s.ng { filter := filter, recursive := (s.wds w).recursive, path := (s.wds w).path, parent := w } with
      ng := s.ng + 1 } := by
    refine { h with parent := ?_, slot := ?_, handle := ?_, read := ?_, queue := ?_, loop := ?_ }
    · intro g hg
      simp only [St.setGrip, upd] at hg ⊢
      split
      · exact ⟨hw, rfl⟩
      · next hne => exact h.parent g (by omega)
    · intro w' i g hg
      obtain ⟨h2, h3⟩ := h.slot w' i g hg
      simp only [St.setGrip, upd]
      rw [if_neg (by omega)]
      exact ⟨by omega, h3⟩
    · intro g k hk
      simp only [St.setGrip, upd] at hk
      split at hk
      · cases hk
      · next hne =>
        obtain ⟨h2, h3, d, h4, h5⟩ := h.handle g k hk
        refine ⟨by simp; omega, h3, d, h4, ?_⟩
        simp only [St.setGrip, upd]; rw [if_neg hne]; exact h5
    · intro r hr
      obtain ⟨h2, h3, d, h4, h5⟩ := h.read r hr
      refine ⟨by simp; omega, h3, d, h4, ?_⟩
      simp only [St.setGrip, upd]; rw [if_neg (by omega)]; exact h5
    · intro g hg; have := h.queue g hg; simp; omega
    · intro g hg; have := h.loop g hg; simp; omega
  obtain ⟨r1, r2, r3, r4, r5, r6, r7⟩ := h1.register (g := s.ng) (by simp) (a := a) (n := n) hn (by
    simp only [St.setGrip, upd_same]; exact ho)
  have hpar : ((Dcw.register { s.setGrip s.ng { filter := filter, recursive := (s.wds w).recursive, path := (s.wds w).path, parent := w } with
      ng := s.ng + 1 } s.ng a).1.grips s.ng).parent = w := by rw [r7]; simp [St.setGrip, upd]
  unfold Dcw.newGrip
  dsimp only
  generalize Dcw.register { s.setGrip s.ng { filter := filter, recursive := (s.wds w).recursive, path := (s.wds w).path, parent := w } with
      ng := s.ng + 1 } s.ng a = r at r1 r2 r3 r4 r5 r6 r7 hpar ⊢
  split
  · have h2 : Leads M files (if a.early then { r.1 with reads := r.1.reads.filter (·.g ≠ s.ng) } else r.1) ∧
        (if a.early then { r.1 with reads := r.1.reads.filter (·.g ≠ s.ng) } else r.1).grips = r.1.grips ∧
        (if a.early then { r.1 with reads := r.1.reads.filter (·.g ≠ s.ng) } else r.1).wds = r.1.wds ∧
        (if a.early then { r.1 with reads := r.1.reads.filter (·.g ≠ s.ng) } else r.1).nw = r.1.nw ∧
        (if a.early then { r.1 with reads := r.1.reads.filter (·.g ≠ s.ng) } else r.1).nh = r.1.nh ∧
        (if a.early then { r.1 with reads := r.1.reads.filter (·.g ≠ s.ng) } else r.1).ng = r.1.ng := by
      split
      · exact ⟨{ r1 with read := fun x hx => r1.read x (List.mem_filter.1 hx).1 }, rfl, rfl, rfl, rfl, rfl⟩
      · exact ⟨r1, rfl, rfl, rfl, rfl, rfl⟩
    generalize (if a.early then { r.1 with reads := r.1.reads.filter (·.g ≠ s.ng) } else r.1) = t at h2 ⊢
    obtain ⟨t1, t2, t3, t4, t5, t6⟩ := h2
    have t7 : Leads M files (t.setGrip s.ng { t.grips s.ng with linked := true }) :=
      t1.setGrip (n := t.nh) rfl rfl (Nat.le_refl _) (fun k hk => t1.handle s.ng k hk)
    refine ⟨t7, t3.trans r2, t4.trans r3, ?_, ?_⟩
    · show s.nh ≤ t.nh; rw [t5]; exact r5
    · intro g hg
      simp at hg; subst hg
      refine ⟨?_, ?_⟩
      · show s.ng < t.ng; rw [t6, r4]; simp
      · simp only [St.setGrip, upd_same]; rw [t2]; exact hpar
  · exact ⟨r1, r2, r3, r5, nofun⟩

theorem Leads.closeOne {M : Nat → Option Nat} {files : Files} {s : St} (h : Leads M files s) (o : Option Nat) :
    Leads M files (closeOne s o).1 ∧ (closeOne s o).1.wds = s.wds ∧ (closeOne s o).1.nw = s.nw ∧ (closeOne s o).1.nh = s.nh ∧
    (closeOne s o).1.ng = s.ng ∧ (closeOne s o).1.m = s.m := by
  unfold Dcw.closeOne
  split
  · exact ⟨h, rfl, rfl, rfl, rfl, rfl⟩
  · next g =>
    split
    · exact ⟨h, rfl, rfl, rfl, rfl, rfl⟩
    · next k hk =>
      refine ⟨?_, rfl, rfl, rfl, rfl, rfl⟩
      have h1 : Leads M files (s.setGrip g { s.grips g with handle := none }) :=
        h.setGrip (n := s.nh) rfl rfl (Nat.le_refl _) (fun k hk => by simp at hk)
      refine { h1 with read := ?_, queue := ?_ }
      · intro r hr
        exact h1.read r (List.mem_filter.1 hr).1
      · intro x hx
        rcases List.mem_append.1 hx with hx | hx
        · exact h.queue x hx
        · obtain ⟨r, hr, rfl⟩ := List.mem_map.1 hx
          exact (h.read r (List.mem_filter.1 hr).1).1

theorem Leads.closeHandle {M : Nat → Option Nat} {files : Files} {s : St} (h : Leads M files s) (w : Nat) :
    Leads M files (closeHandle s w).1 ∧ (closeHandle s w).1.wds = s.wds ∧ (closeHandle s w).1.nw = s.nw ∧ (closeHandle s w).1.nh = s.nh ∧
    (closeHandle s w).1.ng = s.ng ∧ (closeHandle s w).1.m = s.m := by
  obtain ⟨a1, a2, a3, a4, a5, a6⟩ := h.closeOne (s.wds w).g0
  obtain ⟨b1, b2, b3, b4, b5, b6⟩ := a1.closeOne (s.wds w).g1
  exact ⟨b1, b2.trans a2, b3.trans a3, b4.trans a4, b5.trans a5, b6.trans a6⟩

theorem slot_setSlot (wd : Wd) (i j : Bool) (o : Option Nat) : (wd.setSlot i o).slot j = if j = i then o else wd.slot j := by
  cases i <;> cases j <;> rfl

theorem path_setSlot (wd : Wd) (i : Bool) (o : Option Nat) : (wd.setSlot i o).path = wd.path := by cases i <;> rfl

theorem Leads.updateGrip {M : Nat → Option Nat} {files : Files} {s : St} (h : Leads M files s) {w : Nat} (hw : w < s.nw) {a : Ans} {n : Nat}
    (i reset : Bool) (f : Event) (hn : n ≤ s.nh) (ho : Opens M files (s.wds w).path n a) :
    Works M files (s.wds w).path w s (updateGrip s w i reset f a).1 := by
  unfold Dcw.updateGrip
  split
  · refine ⟨h.setWd (path_setSlot _ _ _) ?_, rfl, Nat.le_refl _, ?_⟩
    · intro j; rw [slot_setSlot]; split
      · exact .inr rfl
      · exact .inl rfl
    · simp only [St.setWd, upd_same]; exact path_setSlot _ _ _
  · split
    · next hs =>
      obtain ⟨n1, n2, n3, n4, n5⟩ := h.newGrip hw (a := a) f hn ho
      generalize Dcw.newGrip s w f a = r at n1 n2 n3 n4 n5 ⊢
      have hp1 : ((r.1.wds w).setSlot i r.2).path = (s.wds w).path := by rw [path_setSlot, n2]
      have l1 : Leads M files (r.1.setWd w ((r.1.wds w).setSlot i r.2)) := by
        refine { n1 with parent := ?_, slot := ?_, noslot := ?_ }
        · intro g hg
          obtain ⟨h1, h2⟩ := n1.parent g hg
          refine ⟨h1, ?_⟩
          simp only [St.setWd, upd]
          split
          · next he => rw [path_setSlot, ← he]; exact h2
          · exact h2
        · intro w' j g hg
          simp only [St.setWd, upd] at hg ⊢
          split at hg
          · next he =>
            subst he
            rw [slot_setSlot] at hg
            split at hg
            · exact n5 g hg
            · exact n1.slot w' j g hg
          · exact n1.slot w' j g hg
        · intro w' hw' j
          simp only [St.setWd, upd] at hw' ⊢
          rw [if_neg (by omega)]
          exact n1.noslot w' hw' j
      dsimp only
      split
      · refine ⟨l1.setWd rfl (fun j => .inl ?_), n3, n4, ?_⟩
        · cases j <;> rfl
        · simp only [St.setWd, upd_same]; exact hp1
      · obtain ⟨c1, c2, c3, c4, c5, _⟩ := l1.closeHandle w
        refine ⟨c1, c3.trans n3, by rw [c4]; exact n4, ?_⟩
        rw [c2]; simp only [St.setWd, upd_same]; exact hp1
    · next g hs =>
      obtain ⟨hg, hgp⟩ := h.slot w i g hs
      have hpath : (s.grips g).path = (s.wds w).path := by rw [← hgp]; exact ((h.parent g hg).2).symm
      have l0 : Leads M files (s.setGrip g { s.grips g with filter := f, recursive := (s.wds w).recursive }) :=
        h.setGrip (n := s.nh) rfl rfl (Nat.le_refl _) (fun k hk => h.handle g k hk)
      obtain ⟨r1, r2, r3, r4, r5, r6, r7⟩ := l0.register (g := g) hg (a := a) (n := n) hn (by
        simp only [St.setGrip, upd_same]; rw [hpath]; exact ho)
      generalize Dcw.register (s.setGrip g { s.grips g with filter := f, recursive := (s.wds w).recursive }) g a = r at r1 r2 r3 r4 r5 r6 r7 ⊢
      dsimp only
      split
      · refine ⟨r1.setWd rfl (fun j => .inl ?_), r3, r5, ?_⟩
        · cases j <;> rfl
        · simp only [St.setWd, upd_same]; rw [r2]; rfl
      · obtain ⟨c1, c2, c3, c4, c5, _⟩ := r1.closeHandle w
        refine ⟨c1, c3.trans r3, by rw [c4]; exact r5, ?_⟩
        rw [c2, r2]; rfl

theorem Leads.recreate {M : Nat → Option Nat} {files : Files} {s : St} (h : Leads M files s) {w : Nat} (hw : w < s.nw) {a0 a1 : Ans} {n : Nat}
    (hn : n ≤ s.nh) (h0 : Opens M files (s.wds w).path n a0) (h1 : Opens M files (s.wds w).path n a1) :
    Leads M files (recreate s w a0 a1).1 := by
  have u := h.updateGrip hw (a := a0) false (!hasFile (s.wds w).filter) (fileFilter (s.wds w).filter) hn h0
  unfold Dcw.recreate
  dsimp only
  generalize Dcw.updateGrip s w false (!hasFile (s.wds w).filter) (fileFilter (s.wds w).filter) a0 = r at u ⊢
  split
  · have v := u.leads.updateGrip (w := w) (by rw [u.nw]; exact hw) (a := a1) (n := n) true (!hasDir (r.1.wds w).filter) (dirFilter (r.1.wds w).filter)
      (Nat.le_trans hn u.nh) (by rw [u.path]; exact h1)
    generalize Dcw.updateGrip r.1 w true (!hasDir (r.1.wds w).filter) (dirFilter (r.1.wds w).filter) a1 = q at v ⊢
    split
    · exact v.leads.setWd rfl (fun j => .inl (by cases j <;> rfl))
    · exact v.leads
  · exact u.leads

theorem Leads.opensAt {made : Nat → Option Nat} {files : Files} {s : St} (h : Leads made files s) (p : Path) :
    Leads (opensAt files p s.nh made) files s := by
  have key : ∀ g k, k < s.nh → For made files s g k → For (Dcw.opensAt files p s.nh made) files s g k := by
    rintro g k hk ⟨d, h1, h2⟩
    exact ⟨d, by simp only [Dcw.opensAt]; rw [if_neg (by omega)]; exact h1, h2⟩
  refine { h with handle := ?_, read := ?_ }
  · intro g k hk
    obtain ⟨h1, h2, h3⟩ := h.handle g k hk
    exact ⟨h1, h2, key _ _ h2 h3⟩
  · intro r hr
    obtain ⟨h1, h2, h3⟩ := h.read r hr
    exact ⟨h1, h2, key _ _ h2 h3⟩

theorem opens_of {made : Nat → Option Nat} {files : Files} {p : Path} {n : Nat} {a : Ans} (h : a.create = true → files p ≠ none) :
    Opens (opensAt files p n made) files p n a := by
  intro hc
  obtain ⟨d, hd⟩ := Option.ne_none_iff_exists'.1 (h hc)
  exact ⟨d, hd, fun k hk => by simp only [Dcw.opensAt]; rw [if_pos hk]; exact hd⟩

theorem Leads.step {made made' : Nat → Option Nat} {files : Files} {s s' : St} (h : Leads made files s) (hs : FStep made files s made' s') :
    Leads made' files s' := by
  cases hs with
  | watch p e isrec a0 a1 h0 h1 =>
    have hl := h.opensAt p
    unfold Dcw.watch
    split
    · split
      · exact hl.setWd rfl (fun j => .inl (by cases j <;> rfl))
      · have l0 : Leads (Dcw.opensAt files p s.nh made) files
            { s.setWd s.nw { filter := e, recursive := isrec, path := p } with nw := s.nw + 1 } := by
          refine { hl with parent := ?_, slot := ?_, noslot := ?_ }
          · intro g hg
            obtain ⟨h2, h3⟩ := hl.parent g hg
            simp only [St.setWd, upd]
            rw [if_neg (by omega)]
            exact ⟨by omega, h3⟩
          · intro w j g hg
            simp only [St.setWd, upd] at hg ⊢
            split at hg
            · cases j <;> cases hg
            · exact hl.slot w j g hg
          · intro w hw j
            simp only [St.setWd, upd] at hw ⊢
            split
            · cases j <;> rfl
            · exact hl.noslot w (by omega) j
        have l1 := l0.recreate (w := s.nw) (by simp) (a0 := a0) (a1 := a1) (n := s.nh) (Nat.le_refl _)
          (by simp only [St.setWd, upd_same]; exact opens_of h0) (by simp only [St.setWd, upd_same]; exact opens_of h1)
        dsimp only
        split
        · exact { l1 with }
        · exact l1
    · exact hl
  | rewatch p old new isrec s' ok hr =>
    unfold Dcw.rewatch at hr
    split at hr
    · split at hr
      · cases hr; exact h
      · next w hw =>
        split at hr
        · have l0 : Leads made files (s.setWd w { s.wds w with filter := stRewatch ||| new, recursive := isrec }) :=
            h.setWd rfl (fun j => .inl (by cases j <;> rfl))
          obtain ⟨c1, c2, _⟩ := l0.closeHandle w
          dsimp only at hr
          split at hr
          · cases hr; exact c1
          · cases hr
            exact c1.setWd rfl (fun j => .inl (by cases j <;> rfl))
        · cases hr
    · cases hr; exact h
  | unwatch p gone =>
    unfold Dcw.unwatch
    split
    · exact h
    · next w hw =>
      have l0 : Leads made files (s.setWd w { s.wds w with filter := (s.wds w).filter ||| stUnwatch }) :=
        h.setWd rfl (fun j => .inl (by cases j <;> rfl))
      dsimp only
      split
      · refine { l0 with queue := ?_ }
        intro g hg
        rcases List.mem_append.1 hg with hg | hg
        · rcases List.mem_append.1 hg with hg | hg
          · exact h.queue g hg
          · exact (h.slot w false g (by simpa [Wd.slot] using hg)).1
        · exact (h.slot w true g (by simpa [Wd.slot] using hg)).1
      · exact l0
  | complete r hr =>
    refine { h with read := ?_, queue := ?_ }
    · intro x hx; exact h.read x (List.mem_of_mem_erase hx)
    · intro g hg
      rcases List.mem_append.1 hg with hg | hg
      · exact h.queue g hg
      · simp at hg; subst hg; exact (h.read r hr).1
  | take =>
    unfold Dcw.take
    split
    · next g q hl hq =>
      split
      · refine { h with queue := fun x hx => h.queue x (by rw [hq]; simp [hx]), loop := ?_ }
        intro x hx
        simp at hx; subst hx
        exact h.queue g (by rw [hq]; simp)
      · exact { h with queue := fun x hx => h.queue x (by rw [hq]; simp [hx]) }
    · exact h
  | again ok =>
    unfold Dcw.again
    split
    · next g hl =>
      have l0 := h.readDirChanges g ok
      obtain ⟨_, _, f3, _, _⟩ := readDirChanges_frame s g ok
      refine { l0 with loop := ?_ }
      intro x hx
      simp at hx; subst hx
      show g < (Dcw.readDirChanges s g ok).1.ng
      rw [f3]; exact h.loop g (.inl hl)
    · exact h
  | state g a0 a1 s' hg hr h0 h1 =>
    have hl := h.opensAt (s.grips g).path
    have hgn := h.loop g (.inr hg)
    obtain ⟨hp1, hp2⟩ := h.parent g hgn
    unfold Dcw.loopstate at hr
    rw [hg] at hr
    dsimp only at hr
    have l0 : Leads (Dcw.opensAt files (s.grips g).path s.nh made) files { s with loop := .idle } :=
      { hl with loop := by intro x hx; simp at hx }
    split at hr
    · cases hr; exact l0
    · have l1 : Leads (Dcw.opensAt files (s.grips g).path s.nh made) files
          (({ s with loop := .idle } : St).setWd (s.grips g).parent
            { s.wds (s.grips g).parent with count := (s.wds (s.grips g).parent).count - 1 }) :=
        l0.setWd rfl (fun j => .inl (by cases j <;> rfl))
      split at hr
      · split at hr
        · cases hr
          refine l1.recreate (w := (s.grips g).parent) hp1 (n := s.nh) (Nat.le_refl _) ?_ ?_
          · simp only [St.setWd, upd_same]; rw [hp2]; exact opens_of h0
          · simp only [St.setWd, upd_same]; rw [hp2]; exact opens_of h1
        · split at hr
          · cases hr
            exact { (l1.closeHandle (s.grips g).parent).1 with }
          · cases hr
      · cases hr; exact l1

theorem FRun.leads {made : Nat → Option Nat} {files : Files} {s : St} (h : FRun true made files s) : Leads made files s := by
  induction h with
  | init files =>
    refine ⟨fun g hg => absurd hg (by simp [St.init]), ?_, ?_, ?_, ?_, ?_, ?_⟩
    · intro w i g hg; cases i <;> cases hg
    · intro w _ i; cases i <;> rfl
    · intro g k hk; cases hk
    · intro r hr; cases hr
    · intro g hg; cases hg
    · intro g hg; rcases hg with hg | hg <;> cases hg
  | step _ hs ih => exact ih.step hs
  | @fs made files files' s _ hst ih =>
    obtain ⟨h1, h2⟩ := hst rfl
    refine { ih with handle := ?_, read := ?_ }
    · intro g k hk
      obtain ⟨a, b, d, c, e⟩ := ih.handle g k hk
      exact ⟨a, b, d, c, (h1 g k hk).trans e⟩
    · intro r hr
      obtain ⟨a, b, d, c, e⟩ := ih.read r hr
      exact ⟨a, b, d, c, (h2 r hr).trans e⟩

/-! ### The path of a grip stays -/

/-- Grips keep their paths. -/
structure Keeps (s s' : St) : Prop where
  ng : s.ng ≤ s'.ng
  path : ∀ g < s.ng, (s'.grips g).path = (s.grips g).path

theorem Keeps.rfl' {s : St} : Keeps s s := ⟨Nat.le_refl _, fun _ _ => rfl⟩

theorem Keeps.trans {a b c : St} (h : Keeps a b) (h' : Keeps b c) : Keeps a c :=
  ⟨Nat.le_trans h.ng h'.ng, fun g hg => (h'.path g (Nat.lt_of_lt_of_le hg h.ng)).trans (h.path g hg)⟩

theorem keeps_grips {s s' : St} (h : s'.grips = s.grips) (hn : s'.ng = s.ng) : Keeps s s' :=
  ⟨Nat.le_of_eq hn.symm, fun g _ => by rw [h]⟩

theorem keeps_readDirChanges (s : St) (g : Nat) (ok : Bool) : Keeps s (readDirChanges s g ok).1 := by
  obtain ⟨_, _, h3, _, h5⟩ := readDirChanges_frame s g ok
  exact keeps_grips h5 h3

theorem keeps_setGrip (s : St) {g : Nat} {v : Grip} (h : v.path = (s.grips g).path) : Keeps s (s.setGrip g v) := by
  refine ⟨Nat.le_refl _, fun x _ => ?_⟩
  simp only [St.setGrip, upd]
  split
  · next he => rw [h, he]
  · rfl

theorem keeps_register (s : St) (g : Nat) (a : Ans) : Keeps s (register s g a).1 := by
  unfold register
  split
  · have h1 : Keeps s { s.setGrip g { s.grips g with handle := some s.nh } with nh := s.nh + 1 } :=
      (keeps_setGrip s (g := g) (v := { s.grips g with handle := some s.nh }) rfl).trans (keeps_grips rfl rfl)
    dsimp only
    split
    · refine Keeps.trans ?_ (keeps_readDirChanges _ g a.read)
      exact h1.trans (keeps_grips rfl rfl)
    · exact h1
  · exact keeps_setGrip s rfl

theorem keeps_newGrip (s : St) (w : Nat) (f : Event) (a : Ans) : Keeps s (newGrip s w f a).1 := by
  unfold newGrip
  dsimp only
  have h1 : Keeps s { s.setGrip s.ng { filter := f, recursive := (s.wds w).recursive, path := (s.wds w).path, parent := w } with
      ng := s.ng + 1 } := by
    refine ⟨by simp, fun x hx => ?_⟩
    simp only [St.setGrip, upd]
    rw [if_neg (by omega)]
  have h2 := h1.trans (keeps_register _ s.ng a)
  generalize register { s.setGrip s.ng { filter := f, recursive := (s.wds w).recursive, path := (s.wds w).path, parent := w } with
      ng := s.ng + 1 } s.ng a = r at h2 ⊢
  split
  · refine Keeps.trans ?_ (keeps_setGrip _ (g := s.ng) rfl)
    split
    · exact h2.trans (keeps_grips rfl rfl)
    · exact h2
  · exact h2

theorem keeps_closeOne (s : St) (o : Option Nat) : Keeps s (closeOne s o).1 := by
  unfold closeOne
  split
  · exact .rfl'
  · next g =>
    split
    · exact .rfl'
    · exact (keeps_setGrip s (g := g) (v := { s.grips g with handle := none }) rfl).trans (keeps_grips rfl rfl)

theorem keeps_closeHandle (s : St) (w : Nat) : Keeps s (closeHandle s w).1 :=
  (keeps_closeOne s _).trans (keeps_closeOne _ _)

theorem keeps_updateGrip (s : St) (w : Nat) (i reset : Bool) (f : Event) (a : Ans) : Keeps s (updateGrip s w i reset f a).1 := by
  unfold updateGrip
  split
  · exact keeps_grips rfl rfl
  · split
    · have h := keeps_newGrip s w f a
      generalize newGrip s w f a = r at h ⊢
      dsimp only
      split
      · exact h.trans (keeps_grips rfl rfl)
      · have h' : Keeps s (r.1.setWd w ((r.1.wds w).setSlot i r.2)) := h.trans (keeps_grips rfl rfl)
        exact h'.trans (keeps_closeHandle _ w)
    · next g hs =>
      have h := (keeps_setGrip s (g := g) (v := { s.grips g with filter := f, recursive := (s.wds w).recursive }) rfl).trans (keeps_register _ g a)
      generalize register (s.setGrip g { s.grips g with filter := f, recursive := (s.wds w).recursive }) g a = r at h ⊢
      dsimp only
      split
      · exact h.trans (keeps_grips rfl rfl)
      · exact h.trans (keeps_closeHandle _ w)

theorem keeps_recreate (s : St) (w : Nat) (a0 a1 : Ans) : Keeps s (recreate s w a0 a1).1 := by
  unfold recreate
  have h := keeps_updateGrip s w false (!hasFile (s.wds w).filter) (fileFilter (s.wds w).filter) a0
  dsimp only
  generalize updateGrip s w false (!hasFile (s.wds w).filter) (fileFilter (s.wds w).filter) a0 = r at h ⊢
  split
  · have h2 := h.trans (keeps_updateGrip r.1 w true (!hasDir (r.1.wds w).filter) (dirFilter (r.1.wds w).filter) a1)
    generalize updateGrip r.1 w true (!hasDir (r.1.wds w).filter) (dirFilter (r.1.wds w).filter) a1 = q at h2 ⊢
    split
    · exact h2.trans (keeps_grips rfl rfl)
    · exact h2
  · exact h

theorem Step.keeps {s s' : St} {op : Op} (h : Step s op s') : Keeps s s' := by
  cases h with
  | watch p e isrec a0 a1 =>
    unfold Dcw.watch
    split
    · split
      · exact keeps_grips rfl rfl
      · have h := keeps_recreate { s.setWd s.nw { filter := e, recursive := isrec, path := p } with nw := s.nw + 1 } s.nw a0 a1
        have h' : Keeps s { s.setWd s.nw { filter := e, recursive := isrec, path := p } with nw := s.nw + 1 } := keeps_grips rfl rfl
        dsimp only
        split
        · exact (h'.trans h).trans (keeps_grips rfl rfl)
        · exact h'.trans h
    · exact .rfl'
  | rewatch p old new isrec s' ok hr =>
    unfold Dcw.rewatch at hr
    split at hr
    · split at hr
      · cases hr; exact .rfl'
      · next w hw =>
        split at hr
        · have h := keeps_closeHandle (s.setWd w { s.wds w with filter := stRewatch ||| new, recursive := isrec }) w
          have h' : Keeps s (s.setWd w { s.wds w with filter := stRewatch ||| new, recursive := isrec }) := keeps_grips rfl rfl
          dsimp only at hr
          split at hr
          · cases hr; exact h'.trans h
          · cases hr; exact (h'.trans h).trans (keeps_grips rfl rfl)
        · cases hr
    · cases hr; exact .rfl'
  | unwatch p gone =>
    unfold Dcw.unwatch
    split
    · exact .rfl'
    · dsimp only
      split <;> exact keeps_grips rfl rfl
  | complete r hr => exact keeps_grips rfl rfl
  | take =>
    unfold Dcw.take
    split
    · split <;> exact keeps_grips rfl rfl
    · exact .rfl'
  | again ok =>
    unfold Dcw.again
    split
    · next g hg => exact (keeps_readDirChanges s g ok).trans (keeps_grips rfl rfl)
    · exact .rfl'
  | state a0 a1 s' hr =>
    unfold Dcw.loopstate at hr
    split at hr
    · next g hg =>
      dsimp only at hr
      have h1 : Keeps s (({ s with loop := .idle } : St).setWd (s.grips g).parent
          { s.wds (s.grips g).parent with count := (s.wds (s.grips g).parent).count - 1 }) := keeps_grips rfl rfl
      generalize (({ s with loop := .idle } : St).setWd (s.grips g).parent
          { s.wds (s.grips g).parent with count := (s.wds (s.grips g).parent).count - 1 }) = t at h1 hr
      have h2 := h1.trans (keeps_recreate t (s.grips g).parent a0 a1)
      have h3 := h1.trans (keeps_closeHandle t (s.grips g).parent)
      generalize recreate t (s.grips g).parent a0 a1 = t2 at h2 hr
      generalize closeHandle t (s.grips g).parent = t3 at h3 hr
      split at hr
      · injection hr with hr; subst hr; exact keeps_grips rfl rfl
      · split at hr
        · split at hr
          · injection hr with hr; subst hr; exact h2
          · split at hr
            · injection hr with hr; subst hr; exact h3.trans (keeps_grips rfl rfl)
            · cases hr
        · injection hr with hr; subst hr; exact h1
    · cases hr; exact .rfl'

/-- What happens after a moment. -/
inductive Later (s : St) : St → Prop
  | refl : Later s s
  | step {s' s'' : St} {op : Op} : Later s s' → Step s' op s'' → Later s s''

theorem Later.keeps {s s' : St} (h : Later s s') : Keeps s s' := by
  induction h with
  | refl => exact .rfl'
  | step _ h2 ih => exact ih.trans h2.keeps

/-- **C113** on Windows in full: when the kernel reports changes in a directory, every event that is made of the report, then or later, has a path
that at the moment of the report leads through the directory that reported. -/
def C113_windows_full : Prop := ∀ (made : Nat → Option Nat) (files : Files) (s : St), FRun false made files s → ∀ r ∈ s.reads,
  ∀ (s' : St), Later s s' → ∀ (l : List Win.Chg), ∀ ei ∈ Win.events (s'.grips r.g) l, ∃ y ∈ l, ∃ dir d, ei.path = dir ++ y.name ∧ made r.h = some d ∧ files dir = some d

/-- **C113, partial** (Windows): it does if the paths of directories that are watched lead to the same directories all the time.  Missing:
directories that are renamed, or replaced, see `C113_windows_refuted`. -/
theorem C113_windows_partial {made : Nat → Option Nat} {files : Files} {s : St} (h : FRun true made files s) {r : Read} (hr : r ∈ s.reads)
    {s' : St} (hl : Later s s') {l : List Win.Chg} {ei : EventInfo} (hei : ei ∈ Win.events (s'.grips r.g) l) :
    ∃ y ∈ l, ∃ dir d, ei.path = dir ++ y.name ∧ made r.h = some d ∧ files dir = some d := by
  obtain ⟨hg, _, d, h1, h2⟩ := h.leads.read r hr
  rw [← hl.keeps.path _ hg] at h2
  obtain ⟨y, hy, hm⟩ := List.mem_flatMap.1 hei
  refine ⟨y, hy, _, d, ?_, h1, h2⟩
  rw [send_eq] at hm
  rcases List.mem_append.1 hm with hm | hm
  · split at hm
    · simp at hm; rw [hm]
    · simp at hm
  · split at hm
    · simp at hm; rw [hm]
    · simp at hm

namespace PathEx

/-- `/d` is directory 1. -/
def before : Files := fun p => if p = [['d']] then some 1 else none
/-- It is now `/e`. -/
def after : Files := fun p => if p = [['e']] then some 1 else none
/-- Watched for Write. -/
def s1 : St := (watch St.init [['d']] readdcw.write false {} {}).1
def r1 : Read := ⟨0, 0, encode readdcw.write, false⟩
/-- `f` is written. -/
def chg : List Win.Chg := [⟨[['f']], .modified⟩]

theorem run1 (b : Bool) : FRun b (opensAt before [['d']] 0 (fun _ => none)) before s1 :=
  (FRun.init before).step (FStep.watch _ _ _ [['d']] readdcw.write false {} {} (by decide) (by decide))

end PathEx

/-- The hypotheses of `C113_windows_partial` hold for the directory before it is renamed. -/
example : FRun true (opensAt PathEx.before [['d']] 0 (fun _ => none)) PathEx.before PathEx.s1 ∧ PathEx.r1 ∈ PathEx.s1.reads ∧
    Later PathEx.s1 (complete PathEx.s1 PathEx.r1) ∧
    { event := readdcw.write, path := [['d'], ['f']] } ∈ Win.events ((complete PathEx.s1 PathEx.r1).grips PathEx.r1.g) PathEx.chg :=
  ⟨PathEx.run1 true, by decide, .step .refl (.complete _ _ (by decide)), by decide⟩

/-- Names may change elsewhere. -/
example : ∃ files', files' ≠ PathEx.before ∧ FRun true (opensAt PathEx.before [['d']] 0 (fun _ => none)) files' PathEx.s1 := by
  refine ⟨fun p => if p = [['e']] then some 2 else PathEx.before p, fun h => ?_, (PathEx.run1 true).fs fun _ => ⟨?_, ?_⟩⟩
  · have := congrFun h [['e']]
    simp [PathEx.before] at this
  · intro g k hk
    have hg : g = 0 := ((PathEx.run1 true).leads.handle g k hk).1 |> fun h => by
      have : PathEx.s1.ng = 1 := by decide
      omega
    subst hg
    decide
  · intro r hr
    have hg : r.g = 0 := ((PathEx.run1 true).leads.read r hr).1 |> fun h => by
      have : PathEx.s1.ng = 1 := by decide
      omega
    rw [hg]
    decide

/-- **C113 is false of the code** on Windows: a watched directory is renamed; the handle goes on reporting changes in it, and the events have
the old path. -/
theorem C113_windows_refuted : ¬ C113_windows_full := by
  intro h
  have hrun : FRun false (opensAt PathEx.before [['d']] 0 (fun _ => none)) PathEx.after PathEx.s1 :=
    (PathEx.run1 false).fs nofun
  obtain ⟨y, hy, dir, d, h1, h2, h3⟩ := h _ _ _ hrun PathEx.r1 (by decide) _ .refl PathEx.chg
    { event := readdcw.write, path := [['d'], ['f']] } (by decide)
  simp [PathEx.chg] at hy
  subst hy
  have hd : dir = [['d']] := by
    have : ([['d'], ['f']] : Path) = dir ++ [['f']] := h1
    have h4 : ([['d']] : Path) ++ [['f']] = dir ++ [['f']] := this
    exact (List.append_cancel_right h4).symm
  subst hd
  simp [PathEx.after] at h3

end Dcw
end Verif
