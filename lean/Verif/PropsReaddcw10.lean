/-
Windows: what is done for one directory leaves the others alone (C125).
-/
import Verif.PropsReaddcw9

namespace Verif
namespace Dcw
open Platform (readdcw)

/-! ### Specification -/

/-- The entry and its handles, what the kernel reads for them and what it has reported, are the same in both states. -/
structure Untouched (w : Nat) (s s' : St) : Prop where
  entry : s'.wds w = s.wds w
  grips : ∀ g, (s.wds w).g0 = some g ∨ (s.wds w).g1 = some g → s'.grips g = s.grips g
  reads : ∀ g, (s.wds w).g0 = some g ∨ (s.wds w).g1 = some g → s'.reads.filter (fun r => decide (r.g = g)) = s.reads.filter (fun r => decide (r.g = g))
  queue : ∀ g, (s.wds w).g0 = some g ∨ (s.wds w).g1 = some g → s'.queue.count g = s.queue.count g
  opened : ∀ g, (s.wds w).g0 = some g ∨ (s.wds w).g1 = some g → ∀ h, (s.grips g).handle = some h → (h ∈ s'.opened ↔ h ∈ s.opened)

/-! ### The invariant -/

/-- What holds in every execution, and that the entry `w` is as in `s₀`. -/
structure Apart (w : Nat) (s₀ s : St) : Prop where
  inj : ∀ g g' h, (s.grips g).handle = some h → (s.grips g').handle = some h → g = g'
  rdh : ∀ r ∈ s.reads, ∀ g, (s.grips g).handle = some r.h → g = r.g
  hd : ∀ g h, (s.grips g).handle = some h → h < s.nh
  rh : ∀ r ∈ s.reads, r.h < s.nh
  sp : ∀ u, ∀ g ∈ (s.wds u).slots, g < s.ng ∧ (s.grips g).parent = u
  nw : s₀.nw ≤ s.nw
  pa : ∀ u < s₀.nw, (s.wds u).path = (s₀.wds u).path
  tb : s.m = s₀.m
  wd : s.wds w = s₀.wds w
  gr : ∀ g ∈ (s₀.wds w).slots, s.grips g = s₀.grips g
  re : ∀ g ∈ (s₀.wds w).slots, s.reads.filter (fun r => decide (r.g = g)) = s₀.reads.filter (fun r => decide (r.g = g))
  qu : ∀ g ∈ (s₀.wds w).slots, s.queue.count g = s₀.queue.count g
  op : ∀ g ∈ (s₀.wds w).slots, ∀ h, (s₀.grips g).handle = some h → (h ∈ s.opened ↔ h ∈ s₀.opened)

section
variable {w : Nat} {s₀ s : St}

theorem Apart.mine (h : Apart w s₀ s) {g : Nat} (hg : g ∈ (s₀.wds w).slots) : g < s.ng ∧ (s.grips g).parent = w := h.sp w g (h.wd ▸ hg)

theorem Apart.other (h : Apart w s₀ s) {v : Nat} (hv : v ≠ w) {g : Nat} (hg : g ∈ (s.wds v).slots) : g ∉ (s₀.wds w).slots :=
  fun e => hv ((h.sp v g hg).2.symm.trans (h.mine e).2)

theorem Apart.setWd (h : Apart w s₀ s) {v : Nat} (hv : v ≠ w) {x : Wd} (hp : v < s₀.nw → x.path = (s.wds v).path)
    (hx : ∀ g ∈ x.slots, g < s.ng ∧ (s.grips g).parent = v) : Apart w s₀ (s.setWd v x) := by
  refine ⟨h.inj, h.rdh, h.hd, h.rh, fun u g hg => ?_, h.nw, fun u hu => ?_, h.tb, ?_, h.gr, h.re, h.qu, h.op⟩
  · simp only [St.setWd] at hg ⊢
    by_cases e : u = v
    · subst e; rw [upd_same] at hg; exact hx g hg
    · rw [upd_ne _ _ e] at hg; exact h.sp u g hg
  · simp only [St.setWd]
    by_cases e : u = v
    · subst e; rw [upd_same, hp hu]; exact h.pa u hu
    · rw [upd_ne _ _ e]; exact h.pa u hu
  · simp only [St.setWd]; rw [upd_ne _ _ (Ne.symm hv)]; exact h.wd

theorem Apart.setGrip (h : Apart w s₀ s) {g : Nat} (hg : g ∉ (s₀.wds w).slots) {x : Grip} (hx : x.parent = (s.grips g).parent)
    (hp : x.handle = (s.grips g).handle ∨ x.handle = none) : Apart w s₀ (s.setGrip g x) := by
  have hh : ∀ k n, (upd s.grips g x k).handle = some n → (s.grips k).handle = some n := by
    intro k n
    by_cases e : k = g
    · subst e; rw [upd_same]
      rcases hp with e | e
      · rw [e]; exact id
      · rw [e]; exact nofun
    · rw [upd_ne _ _ e]; exact id
  refine ⟨fun a b n ha hb => h.inj a b n (hh _ _ ha) (hh _ _ hb), fun r hr k hk => h.rdh r hr k (hh _ _ hk), fun k n hk => h.hd k n (hh _ _ hk), h.rh,
    fun u k hk => ?_, h.nw, h.pa, h.tb, h.wd, fun k hk => ?_, h.re, h.qu, h.op⟩
  · refine ⟨(h.sp u k hk).1, ?_⟩
    simp only [St.setGrip]
    by_cases e : k = g
    · subst e; rw [upd_same, hx]; exact (h.sp u k hk).2
    · rw [upd_ne _ _ e]; exact (h.sp u k hk).2
  · simp only [St.setGrip]; rw [upd_ne _ _ (fun e : k = g => hg (e ▸ hk))]; exact h.gr k hk

/-- A new handle. -/
theorem Apart.open (h : Apart w s₀ s) {g : Nat} (hg : g ∉ (s₀.wds w).slots) {O : List Nat} (hO : O = s.opened ∨ O = s.nh :: s.opened) :
    Apart w s₀ { s.setGrip g { s.grips g with handle := some s.nh } with nh := s.nh + 1, opened := O } := by
  have hh : ∀ k n, (upd s.grips g { s.grips g with handle := some s.nh } k).handle = some n → k = g ∧ n = s.nh ∨ k ≠ g ∧ (s.grips k).handle = some n := by
    intro k n
    by_cases e : k = g
    · subst e; rw [upd_same]; intro hn; exact .inl ⟨rfl, (Option.some.inj hn).symm⟩
    · rw [upd_ne _ _ e]; intro hn; exact .inr ⟨e, hn⟩
  refine ⟨fun a b n ha hb => ?_, fun r hr k hk => ?_, fun k n hk => ?_, fun r hr => Nat.lt_succ_of_lt (h.rh r hr), fun u k hk => ?_, h.nw, h.pa, h.tb, h.wd,
    fun k hk => ?_, h.re, h.qu, fun k hk n hn => ?_⟩
  · rcases hh a n ha with ⟨ea, e⟩ | ⟨_, ka⟩ <;> rcases hh b n hb with ⟨eb, e'⟩ | ⟨_, kb⟩
    · exact ea.trans eb.symm
    · exact absurd (h.hd _ _ kb) (by omega)
    · exact absurd (h.hd _ _ ka) (by omega)
    · exact h.inj a b n ka kb
  · rcases hh k _ hk with ⟨_, e⟩ | ⟨_, hk⟩
    · exact absurd (h.rh r hr) (by omega)
    · exact h.rdh r hr k hk
  · rcases hh k _ hk with ⟨_, e⟩ | ⟨_, hk⟩
    · simp only; omega
    · exact Nat.lt_succ_of_lt (h.hd k n hk)
  · refine ⟨(h.sp u k hk).1, ?_⟩
    simp only [St.setGrip]
    by_cases e : k = g
    · subst e; rw [upd_same]; exact (h.sp u k hk).2
    · rw [upd_ne _ _ e]; exact (h.sp u k hk).2
  · simp only [St.setGrip]; rw [upd_ne _ _ (fun e : k = g => hg (e ▸ hk))]; exact h.gr k hk
  · have hlt : n < s.nh := h.hd k n (by rw [h.gr k hk]; exact hn)
    rcases hO with rfl | rfl
    · exact h.op k hk n hn
    · simp only
      rw [List.mem_cons, h.op k hk n hn]
      constructor
      · rintro (e | e)
        · omega
        · exact e
      · exact .inr

theorem Apart.fresh (h : Apart w s₀ s) {x : Grip} (hx : x.handle = none) : Apart w s₀ { s.setGrip s.ng x with ng := s.ng + 1 } := by
  have hh : ∀ k n, (upd s.grips s.ng x k).handle = some n → (s.grips k).handle = some n := by
    intro k n
    by_cases e : k = s.ng
    · subst e; rw [upd_same, hx]; exact nofun
    · rw [upd_ne _ _ e]; exact id
  refine ⟨fun a b n ha hb => h.inj a b n (hh _ _ ha) (hh _ _ hb), fun r hr k hk => h.rdh r hr k (hh _ _ hk), fun k n hk => h.hd k n (hh _ _ hk), h.rh,
    fun u k hk => ?_, h.nw, h.pa, h.tb, h.wd, fun k hk => ?_, h.re, h.qu, h.op⟩
  · have := h.sp u k hk
    refine ⟨Nat.lt_succ_of_lt this.1, ?_⟩
    simp only [St.setGrip]; rw [upd_ne _ _ (Nat.ne_of_lt this.1)]; exact this.2
  · simp only [St.setGrip]; rw [upd_ne _ _ (Nat.ne_of_lt (h.mine hk).1)]; exact h.gr k hk

theorem Apart.closeOne (h : Apart w s₀ s) {o : Option Nat} (ho : ∀ g, o = some g → g ∉ (s₀.wds w).slots) : Apart w s₀ (closeOne s o).1 := by
  unfold Dcw.closeOne
  cases o with
  | none => exact h
  | some g =>
    simp only
    cases hh : (s.grips g).handle with
    | none => exact h
    | some k =>
      have h1 := h.setGrip (ho g rfl) (x := { s.grips g with handle := none }) rfl (.inr rfl)
      refine ⟨h1.inj, fun r hr => h1.rdh r (List.mem_filter.1 hr).1, h1.hd, fun r hr => h1.rh r (List.mem_filter.1 hr).1, h1.sp, h1.nw, h1.pa, h1.tb, h1.wd, h1.gr,
        fun x hx => ?_, fun x hx => ?_, fun x hx n hn => ?_⟩
      · simp only
        rw [List.filter_filter, ← h.re x hx]
        apply List.filter_congr
        intro r hr
        by_cases e : r.g = x
        · have : r.h ≠ k := fun e2 => ho g rfl ((h.rdh r hr g (e2 ▸ hh)).trans e ▸ hx)
          simp [e, this]
        · simp [e]
      · simp only
        rw [List.count_append, h.qu x hx]
        refine (congrArg _ (List.count_eq_zero.2 ?_)).trans (Nat.add_zero _)
        intro hm
        obtain ⟨r, hr, e⟩ := List.mem_map.1 hm
        rw [List.mem_filter] at hr
        have e2 : r.h = k := of_decide_eq_true hr.2
        exact ho g rfl ((h.rdh r hr.1 g (e2 ▸ hh)).trans e ▸ hx)
      · simp only
        rw [List.mem_filter, h.op x hx n hn]
        have : n ≠ k := by
          rintro rfl
          rw [← h.gr x hx] at hn
          exact ho g rfl (h.inj g x n hh hn ▸ hx)
        simp [this]

theorem Apart.closeHandle (h : Apart w s₀ s) {v : Nat} (hv : v ≠ w) : Apart w s₀ (closeHandle s v).1 :=
  (h.closeOne fun _ hg => h.other hv ((slots_iff _ _).2 (.inl hg))).closeOne
    fun _ hg => h.other hv ((slots_iff _ _).2 (.inr hg))

theorem Apart.reading (h : Apart w s₀ s) {g : Nat} (hg : g ∉ (s₀.wds w).slots) (ok : Bool) : Apart w s₀ (readDirChanges s g ok).1 := by
  obtain ⟨rs, e, hrs⟩ := readDirChanges_form s g ok
  rw [e]
  refine ⟨h.inj, fun r hr k hk => ?_, h.hd, fun r hr => ?_, h.sp, h.nw, h.pa, h.tb, h.wd, h.gr, fun x hx => ?_, h.qu, h.op⟩
  · rcases List.mem_append.1 hr with hr | hr
    · exact h.rdh r hr k hk
    · rw [(hrs r hr).1]; exact h.inj k g r.h hk (hrs r hr).2
  · rcases List.mem_append.1 hr with hr | hr
    · exact h.rh r hr
    · exact h.hd g r.h (hrs r hr).2
  · simp only
    rw [List.filter_append, h.re x hx]
    refine (congrArg _ (List.filter_eq_nil_iff.2 ?_)).trans (List.append_nil _)
    intro r hr hd
    exact hg ((hrs r hr).1.symm.trans (of_decide_eq_true hd) ▸ hx)

theorem Apart.register (h : Apart w s₀ s) {g : Nat} (hg : g ∉ (s₀.wds w).slots) (a : Ans) : Apart w s₀ (register s g a).1 := by
  unfold Dcw.register
  split
  · split
    · exact (h.open hg (.inr rfl)).reading hg _
    · exact h.open hg (.inl rfl)
  · exact h.setGrip hg rfl (.inr rfl)

theorem Apart.newGrip (h : Apart w s₀ s) {v : Nat} (f : Event) (a : Ans) : Apart w s₀ (newGrip s v f a).1 := by
  have hS : s.ng ∉ (s₀.wds w).slots := fun e => Nat.lt_irrefl _ (h.mine e).1
  have h2 := (h.fresh (x := { filter := f, recursive := (s.wds v).recursive, path := (s.wds v).path, parent := v }) rfl).register hS a
  unfold Dcw.newGrip
  simp only
  generalize Dcw.register { s.setGrip s.ng { filter := f, recursive := (s.wds v).recursive, path := (s.wds v).path, parent := v } with ng := s.ng + 1 } s.ng a = R at h2 ⊢
  split
  · have h6 : Apart w s₀ { R.1 with reads := R.1.reads.filter (·.g ≠ s.ng) } := by
      refine ⟨h2.inj, fun r hr => h2.rdh r (List.mem_filter.1 hr).1, h2.hd, fun r hr => h2.rh r (List.mem_filter.1 hr).1, h2.sp, h2.nw, h2.pa, h2.tb, h2.wd, h2.gr,
        fun x hx => ?_, h2.qu, h2.op⟩
      simp only
      rw [List.filter_filter, ← h2.re x hx]
      apply List.filter_congr
      intro r _
      have : x ≠ s.ng := fun e => hS (e ▸ hx)
      by_cases e : r.g = x
      · simp [e, this]
      · simp [e]
    split
    · exact h6.setGrip hS rfl (.inl rfl)
    · exact h2.setGrip hS rfl (.inl rfl)
  · exact h2

theorem Apart.updateGrip (h : Apart w s₀ s) {v : Nat} (hv : v ≠ w) (i reset : Bool) (f : Event) (a : Ans) :
    Apart w s₀ (updateGrip s v i reset f a).1 := by
  unfold Dcw.updateGrip
  split
  · refine h.setWd hv (fun _ => setSlot_path _ _ _) fun g hg => ?_
    rcases setSlot_mem hg with e | e
    · cases e
    · exact h.sp v g e
  · split
    · have h1 := h.newGrip (v := v) f a
      obtain ⟨-, k2, -, -, -, -, -, k8⟩ := newGrip_rest s v f a
      generalize Dcw.newGrip s v f a = R at h1 k2 k8 ⊢
      have h3 : Apart w s₀ (R.1.setWd v ((R.1.wds v).setSlot i R.2)) := by
        refine h1.setWd hv (fun _ => setSlot_path _ _ _) fun g hg => ?_
        rcases setSlot_mem hg with e | e
        · obtain ⟨e1, _, e3⟩ := k8 g e; exact ⟨by omega, e3⟩
        · exact h1.sp v g e
      simp only
      split
      · exact h3.setWd hv (fun _ => rfl) fun g hg => h3.sp v g hg
      · exact h3.closeHandle hv
    · rename_i g hgs
      have hg : g ∈ (s.wds v).slots := by
        rw [slots_iff]; cases i
        · exact .inl hgs
        · exact .inr hgs
      have hS := h.other hv hg
      have h2 := (h.setGrip hS (x := { s.grips g with filter := f, recursive := (s.wds v).recursive }) rfl (.inl rfl)).register hS a
      simp only
      generalize Dcw.register (s.setGrip g { s.grips g with filter := f, recursive := (s.wds v).recursive }) g a = R at h2 ⊢
      split
      · exact h2.setWd hv (fun _ => rfl) fun g hg => h2.sp v g hg
      · exact h2.closeHandle hv

theorem Apart.recreate (h : Apart w s₀ s) {v : Nat} (hv : v ≠ w) (a0 a1 : Ans) : Apart w s₀ (recreate s v a0 a1).1 := by
  unfold Dcw.recreate
  simp only
  have h1 := h.updateGrip hv false (!hasFile (s.wds v).filter) (fileFilter (s.wds v).filter) a0
  generalize Dcw.updateGrip s v false (!hasFile (s.wds v).filter) (fileFilter (s.wds v).filter) a0 = R at h1 ⊢
  split
  · have h3 := h1.updateGrip hv true (!hasDir (R.1.wds v).filter) (dirFilter (R.1.wds v).filter) a1
    generalize Dcw.updateGrip R.1 v true (!hasDir (R.1.wds v).filter) (dirFilter (R.1.wds v).filter) a1 = Q at h3 ⊢
    split
    · exact h3.setWd hv (fun _ => rfl) fun g hg => h3.sp v g hg
    · exact h3
  · exact h1

/-- Another point to look from; the table and the loop do not matter. -/
theorem Apart.self (h : Apart w s₀ s) (M : GoMap Path Nat) (L : Loop) (w' : Nat) : Apart w' { s with m := M, loop := L } { s with m := M, loop := L } :=
  ⟨h.inj, h.rdh, h.hd, h.rh, h.sp, Nat.le_refl _, fun _ _ => rfl, rfl, rfl, fun _ _ => rfl, fun _ _ => rfl, fun _ _ => rfl, fun _ _ _ _ => Iff.rfl⟩

theorem Apart.untouched (h : Apart w s₀ s) : Untouched w s₀ s where
  entry := h.wd
  grips := fun g hg => h.gr g ((slots_iff _ _).2 hg)
  reads := fun g hg => h.re g ((slots_iff _ _).2 hg)
  queue := fun g hg => h.qu g ((slots_iff _ _).2 hg)
  opened := fun g hg => h.op g ((slots_iff _ _).2 hg)
end

/-- What holds in every execution. -/
structure Fit (s : St) : Prop where
  ap : ∀ w, Apart w s s
  tab : ∀ p w, s.m.get? p = some w → (s.wds w).path = p ∧ w < s.nw
  sane : Sane none s

theorem Fit.init : Fit St.init where
  ap := fun w => ⟨fun g g' h h1 => (by cases h1), fun r hr => (by cases hr), fun g h h1 => (by cases h1), fun r hr => (by cases hr),
    fun u g hg => (by simp [St.init, Wd.slots] at hg), Nat.le_refl _, fun _ _ => rfl, rfl, rfl, fun _ _ => rfl, fun _ _ => rfl, fun _ _ => rfl, fun _ _ _ _ => Iff.rfl⟩
  tab := fun p w h => (by cases h)
  sane := Sane.init

theorem Fit.of {w : Nat} {s s' : St} (h : Fit s) (hs : Sane none s') (ha : Apart w s s') : Fit s' :=
  ⟨fun w' => ha.self s'.m s'.loop w', fun p u hu => by
    rw [ha.tb] at hu
    obtain ⟨h1, h2⟩ := h.tab p u hu
    exact ⟨(ha.pa u h2).trans h1, Nat.lt_of_lt_of_le h2 ha.nw⟩, hs⟩

/-! ### Calls -/

/-- What `watch` does: the state, or the state with the new entry in the table. -/
theorem Fit.watch {s : St} (h : Fit s) (q : Path) (e : Event) (r : Bool) (a0 a1 : Ans) :
    ∃ t, (∀ w, s.m.get? q ≠ some w → w ≠ s.nw → Apart w s t) ∧
      ((watch s q e r a0 a1).1 = t ∨ (watch s q e r a0 a1).1 = { t with m := t.m.set q s.nw } ∧ (t.wds s.nw).path = q ∧ s.nw < t.nw) := by
  unfold Dcw.watch
  split
  · split
    · rename_i u hu
      refine ⟨_, fun w hw _ => ?_, .inl rfl⟩
      exact (h.ap w).setWd (fun e => hw (by rw [hu, e])) (fun _ => rfl) fun g hg => (h.ap w).sp u g hg
    · have hb : ∀ w, w ≠ s.nw → Apart w s { s.setWd s.nw { filter := e, recursive := r, path := q } with nw := s.nw + 1 } := by
        intro w hw
        have h1 := (h.ap w).setWd (Ne.symm hw) (x := { filter := e, recursive := r, path := q }) (fun hx => absurd hx (Nat.lt_irrefl _))
          (fun g hg => by simp [Wd.slots] at hg)
        exact ⟨h1.inj, h1.rdh, h1.hd, h1.rh, h1.sp, Nat.le_succ _, h1.pa, h1.tb, h1.wd, h1.gr, h1.re, h1.qu, h1.op⟩
      have hc : Apart (s.nw + 1) { s.setWd s.nw { filter := e, recursive := r, path := q } with nw := s.nw + 1 }
          (recreate { s.setWd s.nw { filter := e, recursive := r, path := q } with nw := s.nw + 1 } s.nw a0 a1).1 :=
        ((hb (s.nw + 1) (by omega)).self s.m s.loop (s.nw + 1)).recreate (by omega) a0 a1
      refine ⟨(recreate { s.setWd s.nw { filter := e, recursive := r, path := q } with nw := s.nw + 1 } s.nw a0 a1).1,
        fun w _ hw => (hb w hw).recreate (Ne.symm hw) a0 a1, ?_⟩
      have h1 := hc.pa s.nw (Nat.lt_succ_self _)
      have h2 := hc.nw
      simp only [St.setWd] at h1 h2
      rw [upd_same] at h1
      simp only
      by_cases hR : (recreate { s.setWd s.nw { filter := e, recursive := r, path := q } with nw := s.nw + 1 } s.nw a0 a1).2 = true
      · rw [if_pos hR]; exact .inr ⟨rfl, h1, h2⟩
      · rw [if_neg hR]; exact .inl rfl
  · exact ⟨_, fun w _ _ => h.ap w, .inl rfl⟩

theorem Fit.rewatch {s s' : St} (h : Fit s) {q : Path} {old new : Event} {r ok : Bool} (he : rewatch s q old new r = some (s', ok)) {w : Nat}
    (hw : s.m.get? q ≠ some w) : Apart w s s' := by
  have ha := h.ap w
  unfold Dcw.rewatch at he
  split at he
  · split at he
    · cases he; exact ha
    · rename_i u hu
      have hne : u ≠ w := fun e => hw (by rw [nonState_tab hu, e])
      split at he
      · have e1 := ha.setWd hne (x := { s.wds u with filter := stRewatch ||| new, recursive := r }) (fun _ => rfl) fun g hg => ha.sp u g hg
        have e2 := e1.closeHandle hne
        simp only at he
        generalize Dcw.closeHandle (s.setWd u { s.wds u with filter := stRewatch ||| new, recursive := r }) u = R at e2 he
        split at he
        · cases he; exact e2
        · cases he
          exact e2.setWd hne (fun _ => rfl) fun g hg => e2.sp u g hg
      · cases he
  · cases he; exact ha

theorem Fit.unwatch {s : St} (h : Fit s) {q : Path} (gone : Bool) {w : Nat} (hw : s.m.get? q ≠ some w) : Apart w s (unwatch s q gone).1 := by
  have ha := h.ap w
  unfold Dcw.unwatch
  split
  · exact ha
  · rename_i u hu
    have hne : u ≠ w := fun e => hw (by rw [nonState_tab hu, e])
    have e1 := ha.setWd hne (x := { s.wds u with filter := (s.wds u).filter ||| stUnwatch }) (fun _ => rfl) fun g hg => ha.sp u g hg
    simp only
    split
    · refine ⟨e1.inj, e1.rdh, e1.hd, e1.rh, e1.sp, e1.nw, e1.pa, e1.tb, e1.wd, e1.gr, e1.re, fun x hx => ?_, e1.op⟩
      simp only [St.setWd]
      rw [List.append_assoc, List.count_append]
      refine (congrArg _ (List.count_eq_zero.2 ?_)).trans (Nat.add_zero _)
      intro hm
      exact ha.other hne (v := u) hm hx
    · exact e1

theorem Fit.step {s s' : St} {o : Op} (h : Fit s) (hs : Step s o s') : Fit s' := by
  have hsane := hs.sane h.sane
  have hnil : (s.wds (s.nw + 1)).slots = [] := by
    rw [List.eq_nil_iff_forall_not_mem]
    intro g hg
    obtain ⟨i, hi⟩ := mem_slots.1 hg
    have h1 := h.sane.sl _ i g hi
    have h2 := (h.sane.lk g h1.1).2
    omega
  have htab : ∀ q, s.m.get? q ≠ some (s.nw + 1) := fun q e => by have := (h.tab q _ e).2; omega
  have ha := h.ap (s.nw + 1)
  cases hs with
  | watch q e r a0 a1 =>
    obtain ⟨t, ht, k⟩ := h.watch q e r a0 a1
    have ht := ht (s.nw + 1) (htab q) (by omega)
    rcases k with k | ⟨k, k2, k3⟩
    · rw [k] at hsane ⊢; exact h.of hsane ht
    · rw [k] at hsane ⊢
      refine ⟨fun w' => ht.self _ t.loop w', fun p u hu => ?_, hsane⟩
      simp only at hu ⊢
      rw [GoMap.get?_set] at hu
      split at hu
      · rename_i e; cases hu; exact ⟨k2.trans e, k3⟩
      · rw [ht.tb] at hu
        obtain ⟨h1, h2⟩ := h.tab p u hu
        exact ⟨(ht.pa u h2).trans h1, Nat.lt_of_lt_of_le h2 ht.nw⟩
  | rewatch q old new r _ ok he => exact h.of hsane (h.rewatch he (htab q))
  | unwatch q gone => exact h.of hsane (h.unwatch gone (htab q))
  | complete r hr =>
    refine h.of hsane (w := s.nw + 1) ⟨ha.inj, fun x hx => ha.rdh x (List.mem_of_mem_erase hx), ha.hd, fun x hx => ha.rh x (List.mem_of_mem_erase hx), ha.sp,
      ha.nw, ha.pa, rfl, rfl, fun _ _ => rfl, ?_, ?_, fun _ _ _ _ => Iff.rfl⟩ <;> rw [hnil] <;> simp
  | take =>
    revert hsane
    unfold take
    split
    · split
      · intro hsane
        refine h.of hsane (w := s.nw + 1) ⟨ha.inj, ha.rdh, ha.hd, ha.rh, ha.sp, ha.nw, ha.pa, rfl, rfl, fun _ _ => rfl, fun _ _ => rfl, ?_, fun _ _ _ _ => Iff.rfl⟩
        rw [hnil]; simp
      · intro hsane
        refine h.of hsane (w := s.nw + 1) ⟨ha.inj, ha.rdh, ha.hd, ha.rh, ha.sp, ha.nw, ha.pa, rfl, rfl, fun _ _ => rfl, fun _ _ => rfl, ?_, fun _ _ _ _ => Iff.rfl⟩
        rw [hnil]; simp
    · exact fun _ => h
  | again ok =>
    revert hsane
    unfold again
    split
    · rename_i g hlo
      intro hsane
      have := ha.reading (g := g) (by rw [hnil]; simp) ok
      exact h.of hsane (w := s.nw + 1) ⟨this.inj, this.rdh, this.hd, this.rh, this.sp, this.nw, this.pa, this.tb, this.wd, this.gr, this.re, this.qu, this.op⟩
    · exact fun _ => h
  | state a0 a1 _ he =>
    unfold loopstate at he
    split at he
    · rename_i g hlo
      have hne : (s.grips g).parent ≠ s.nw + 1 := by
        have := (h.sane.lk g (h.sane.lp g (.inr hlo))).2
        omega
      generalize (s.grips g).parent = u at he hne
      have hI : Apart (s.nw + 1) s { s with loop := .idle } :=
        ⟨ha.inj, ha.rdh, ha.hd, ha.rh, ha.sp, ha.nw, ha.pa, rfl, rfl, fun _ _ => rfl, fun _ _ => rfl, fun _ _ => rfl, fun _ _ _ _ => Iff.rfl⟩
      have h1 := hI.setWd hne (x := { s.wds u with count := (s.wds u).count - 1 }) (fun _ => rfl) fun g hg => ha.sp u g hg
      simp only at he
      split at he
      · cases he; exact h.of hsane hI
      · split at he
        · split at he
          · cases he; exact h.of hsane (h1.recreate hne a0 a1)
          · split at he
            · cases he
              have h2 := h1.closeHandle hne
              refine ⟨fun w' => h2.self _ (Dcw.closeHandle ({ s with loop := .idle }.setWd u { s.wds u with count := (s.wds u).count - 1 }) u).1.loop w', fun p v hv => ?_, hsane⟩
              simp only at hv ⊢
              rw [GoMap.get?_del] at hv
              split at hv
              · cases hv
              · rw [h2.tb] at hv
                obtain ⟨k1, k2⟩ := h.tab p v hv
                exact ⟨(h2.pa v k2).trans k1, Nat.lt_of_lt_of_le k2 h2.nw⟩
            · cases he
        · cases he; exact h.of hsane h1
    · cases he; exact h

theorem Hist.fit {l : List Op} {s : St} (h : Hist l s) : Fit s := by
  induction h with
  | nil => exact Fit.init
  | snoc _ hs ih => exact ih.step hs

/-- **C125.**  In every execution, with any races and failures: a call for one directory, whether it succeeds or fails, leaves the entry of every other
directory in the table, its set, its handles, what the kernel reads for it and what it has reported, as they were. -/
theorem C125_isolated {l : List Op} {s s' : St} {o : Op} {p q : Path} (h : Hist l s) (hs : Step s o s') (ho : o.target = some q) (hp : p ≠ q) :
    s'.m.get? p = s.m.get? p ∧ ∀ w, s.m.get? p = some w → Untouched w s s' := by
  have hf := h.fit
  have hne : ∀ w, s.m.get? p = some w → s.m.get? q ≠ some w := fun w h1 h2 => hp ((hf.tab p w h1).1.symm.trans (hf.tab q w h2).1)
  have hnil : ∀ q, s.m.get? q ≠ some (s.nw + 1) := fun q e => by have := (hf.tab q _ e).2; omega
  cases hs with
  | watch q' e r a0 a1 =>
    cases ho
    obtain ⟨t, ht, k⟩ := hf.watch q e r a0 a1
    have hU : ∀ w, s.m.get? p = some w → Apart w s t := fun w hw => ht w (hne w hw) (by have := (hf.tab p w hw).2; omega)
    have hm := (ht (s.nw + 1) (hnil q) (by omega)).tb
    rcases k with k | ⟨k, _⟩
    · rw [k]; exact ⟨by rw [hm], fun w hw => (hU w hw).untouched⟩
    · rw [k]
      refine ⟨?_, fun w hw => ?_⟩
      · simp only; rw [GoMap.get?_set, if_neg (Ne.symm hp), hm]
      · have := (hU w hw).untouched
        exact ⟨this.entry, this.grips, this.reads, this.queue, this.opened⟩
  | rewatch q' old new r _ ok he =>
    cases ho
    exact ⟨by rw [(hf.rewatch he (hnil q)).tb], fun w hw => (hf.rewatch he (hne w hw)).untouched⟩
  | unwatch q' gone =>
    cases ho
    exact ⟨by rw [(hf.unwatch gone (hnil q)).tb], fun w hw => (hf.unwatch gone (hne w hw)).untouched⟩
  | complete => cases ho
  | take => cases ho
  | again => cases ho
  | state => cases ho

/-- **C125, the loop.**  Handling a packet of a handle of another entry leaves the entry alone, too; and the table but for the path of that handle. -/
theorem C125_loop {l : List Op} {s s' : St} {g w : Nat} {a0 a1 : Ans} (h : Hist l s) (hw : (s.grips g).parent ≠ w) :
    (s.loop = .idle → s.queue.head? = some g → Untouched w s (take s) ∧ (take s).m = s.m) ∧
    (s.loop = .got g → ∀ ok, Untouched w s (again s ok) ∧ (again s ok).m = s.m) ∧
    (s.loop = .st g → loopstate s a0 a1 = some s' → Untouched w s s' ∧ ∀ p, p ≠ (s.grips g).path → s'.m.get? p = s.m.get? p) := by
  have hf := h.fit
  have ha := hf.ap w
  have hS : g ∉ (s.wds w).slots := fun e => hw (ha.sp w g e).2
  refine ⟨fun hl hq => ?_, fun hl ok => ?_, fun hlo he => ?_⟩
  · cases hqu : s.queue with
    | nil => rw [hqu] at hq; cases hq
    | cons x q =>
      rw [hqu] at hq
      cases hq
      have hc : ∀ k, (s.wds w).g0 = some k ∨ (s.wds w).g1 = some k → q.count k = s.queue.count k := by
        intro k hk
        rw [hqu, List.count_cons_of_ne]
        rintro rfl
        exact hS ((slots_iff _ _).2 hk)
      unfold take
      rw [hl, hqu]
      simp only
      split
      · exact ⟨⟨rfl, fun _ _ => rfl, fun _ _ => rfl, hc, fun _ _ _ _ => Iff.rfl⟩, rfl⟩
      · exact ⟨⟨rfl, fun _ _ => rfl, fun _ _ => rfl, hc, fun _ _ _ _ => Iff.rfl⟩, rfl⟩
  · have h1 := ha.reading hS ok
    unfold again
    rw [hl]
    have := h1.untouched
    exact ⟨⟨this.entry, this.grips, this.reads, this.queue, this.opened⟩, h1.tb⟩
  · unfold loopstate at he
    rw [hlo] at he
    have hI : Apart w s { s with loop := .idle } :=
      ⟨ha.inj, ha.rdh, ha.hd, ha.rh, ha.sp, ha.nw, ha.pa, rfl, rfl, fun _ _ => rfl, fun _ _ => rfl, fun _ _ => rfl, fun _ _ _ _ => Iff.rfl⟩
    have h1 := hI.setWd hw (x := { s.wds (s.grips g).parent with count := (s.wds (s.grips g).parent).count - 1 }) (fun _ => rfl)
      fun k hk => ha.sp _ k hk
    simp only at he
    split at he
    · cases he; exact ⟨hI.untouched, fun _ _ => rfl⟩
    · split at he
      · split at he
        · cases he
          have h2 := h1.recreate hw a0 a1
          exact ⟨h2.untouched, fun _ _ => by rw [h2.tb]⟩
        · split at he
          · cases he
            have h2 := h1.closeHandle hw
            have h3 := h2.untouched
            refine ⟨⟨h3.entry, h3.grips, h3.reads, h3.queue, h3.opened⟩, fun p hp => ?_⟩
            simp only
            rw [GoMap.get?_del, if_neg (Ne.symm hp), h2.tb]
          · cases he
      · cases he; exact ⟨h1.untouched, fun _ _ => rfl⟩

/-! ### Examples -/

theorem LHist.plain {l : List Op} {s : St} (h : LHist l s) : Hist l s := by
  induction h with
  | nil => exact .nil
  | snoc _ _ hs ih => exact ih.snoc hs

namespace ApartEx
open Ex2 (p)

def q : Path := [['q']]

/-- Two directories are watched; the second is unwatched and watched again before the loop has handled its packets (the race of C60), and something has
changed in the first. -/
def la : List Act := [.watch p readdcw.create false {} {}, .watch q readdcw.create true {} {}, .unwatch q true, .watch q readdcw.write false {} {},
  .complete 0]

def s : St := (final la).1

/-- The hypotheses are met: both directories are in the table, the first has a handle that the kernel reads and one whose packet waits, a Watch of a third
directory may fail, and Unwatch of the second posts its packets. -/
example : Hist (final la).2 s ∧ (final la).2.length = 5 ∧ s.m.get? p = some 0 ∧ s.m.get? q = some 1 ∧ (held s p).length = 1 ∧
    (s.queue.map fun g => (s.grips g).parent) = [1, 1, 0] ∧ (s.reads.map fun r => (s.grips r.g).parent) = [0, 1, 1] ∧
    (watch s [['r']] readdcw.rename true { create := false } {}).2 = false ∧ (unwatch s q true).1.queue.length = 5 :=
  ⟨(final_hist la).plain, by decide, by decide, by decide, by decide, by decide, by decide, by decide, by decide⟩

/-- A packet of the second directory: the loop takes it, reads again, and opens its handles anew without success. -/
def lb : List Act := la ++ [.take, .again true]

example : Hist (final lb).2 (final lb).1 ∧ (final lb).2.length = 7 ∧ (∃ g, (final lb).1.loop = .st g ∧ ((final lb).1.grips g).parent = 1) ∧
    (loopstate (final lb).1 { create := false } {}).isSome = true :=
  ⟨(final_hist lb).plain, by decide, ⟨2, by decide, by decide⟩, by decide⟩

/-- What a call does to its own directory is seen: the statement does not hold for `p` = `q`. -/
example : ¬ Untouched 0 s (unwatch s p true).1 := fun h => absurd (congrArg Wd.filter h.entry) (by decide)
end ApartEx
end Dcw
end Verif
