/-
The watcher on Windows: what holds of its memory in every execution, with all races and failures, and what each step of the loop does to
the number of entries that wait for their rewatch and of open handles.
-/
import Verif.WinFeed

namespace Verif
namespace Dcw

/-- The state of an entry. -/
abbrev Wd.state (wd : Wd) : Event := wd.filter &&& onlyStates

/-- What holds in every execution; with `x` the entry is being worked on. -/
structure Sane (x : Option Nat) (s : St) : Prop where
  lk : ∀ g, (s.grips g).linked = true → g < s.ng ∧ (s.grips g).parent < s.nw
  lp : ∀ g, s.loop = .got g ∨ s.loop = .st g → (s.grips g).linked = true
  sl : ∀ w i g, (s.wds w).slot i = some g → (s.grips g).linked = true ∧ (s.grips g).parent = w
  rd : ∀ r ∈ s.reads, r.h < s.nh ∧ r.g < s.ng
  hd : ∀ g x, (s.grips g).handle = some x → x < s.nh
  shut : ∀ w, x ≠ some w → (s.wds w).state = stRewatch → ∀ i g, (s.wds w).slot i = some g → (s.grips g).handle = none
  st : ∀ w, (s.wds w).state = 0 ∨ (s.wds w).state = stRewatch ∨ (s.wds w).state = stUnwatch

theorem Sane.init : Sane none St.init where
  lk := by intro g h; cases h
  lp := by rintro g (h | h) <;> cases h
  sl := by intro w i g h; cases i <;> cases h
  rd := by intro r h; cases h
  hd := by intro g x h; cases h
  shut := by intro w _ _ i g h; cases i <;> cases h
  st := by intro w; left; exact (by decide : (0 : Event) &&& onlyStates = 0)

theorem Sane.weaken {s : St} (h : Sane none s) (x : Option Nat) : Sane x s := ⟨h.lk, h.lp, h.sl, h.rd, h.hd, fun w _ => h.shut w (by simp), h.st⟩

/-- Handles are closed, reads end. -/
theorem Sane.mono {x : Option Nat} {s s' : St} (h : Sane x s)
    (hg : ∀ g, (s'.grips g).linked = (s.grips g).linked ∧ (s'.grips g).parent = (s.grips g).parent ∧
      ((s'.grips g).handle = (s.grips g).handle ∨ (s'.grips g).handle = none))
    (hng : s'.ng = s.ng) (hnw : s'.nw = s.nw) (hw : s'.wds = s.wds) (hnh : s'.nh = s.nh) (hr : ∀ r ∈ s'.reads, r ∈ s.reads)
    (hl : s'.loop = s.loop) : Sane x s' where
  lk := by intro g hk; rw [(hg g).1] at hk; rw [hng, hnw, (hg g).2.1]; exact h.lk g hk
  lp := by intro g hk; rw [(hg g).1]; exact h.lp g (hl ▸ hk)
  sl := by intro w i g hk; rw [(hg g).1, (hg g).2.1]; exact h.sl w i g (hw ▸ hk)
  rd := by intro r hk; rw [hnh, hng]; exact h.rd r (hr r hk)
  hd := by
    intro g x hk
    rw [hnh]
    rcases (hg g).2.2 with e | e
    · exact h.hd g x (e ▸ hk)
    · rw [e] at hk; cases hk
  shut := by
    intro w hx hs i g hk
    rw [hw] at hs hk
    rcases (hg g).2.2 with e | e
    · rw [e]; exact h.shut w hx hs i g hk
    · exact e
  st := by rw [hw]; exact h.st

theorem upd_at {α : Type} (f : Nat → α) (k : Nat) (v : α) (x : Nat) : upd f k v x = if x = k then v else f x := rfl

theorem closeOne_grips (s : St) (o : Option Nat) : ∀ g, ((closeOne s o).1.grips g).linked = (s.grips g).linked ∧
    ((closeOne s o).1.grips g).parent = (s.grips g).parent ∧
      (((closeOne s o).1.grips g).handle = (s.grips g).handle ∨ ((closeOne s o).1.grips g).handle = none) := by
  intro g
  unfold closeOne
  split
  · exact ⟨rfl, rfl, .inl rfl⟩
  · split
    · exact ⟨rfl, rfl, .inl rfl⟩
    · simp only [St.setGrip, upd_at]
      split
      · next h => subst h; exact ⟨rfl, rfl, .inr rfl⟩
      · exact ⟨rfl, rfl, .inl rfl⟩

theorem closeOne_rest (s : St) (o : Option Nat) : (closeOne s o).1.ng = s.ng ∧ (closeOne s o).1.nw = s.nw ∧ (closeOne s o).1.wds = s.wds ∧
    (closeOne s o).1.nh = s.nh ∧ (∀ r ∈ (closeOne s o).1.reads, r ∈ s.reads) ∧ (closeOne s o).1.loop = s.loop := by
  unfold closeOne
  split
  · exact ⟨rfl, rfl, rfl, rfl, fun _ h => h, rfl⟩
  · split
    · exact ⟨rfl, rfl, rfl, rfl, fun _ h => h, rfl⟩
    · exact ⟨rfl, rfl, rfl, rfl, fun _ h => (List.mem_filter.1 h).1, rfl⟩

theorem closeOne_shut (s : St) (g : Nat) : ((closeOne s (some g)).1.grips g).handle = none := by
  unfold closeOne
  dsimp only
  split
  · assumption
  · simp [St.setGrip, upd_at]

theorem closeOne_sane {x : Option Nat} {s : St} (h : Sane x s) (o : Option Nat) : Sane x (closeOne s o).1 := by
  obtain ⟨h1, h2, h3, h4, h5, h6⟩ := closeOne_rest s o
  exact h.mono (closeOne_grips s o) h1 h2 h3 h4 h5 h6

theorem closeHandle_grips (s : St) (w : Nat) : ∀ g, ((closeHandle s w).1.grips g).linked = (s.grips g).linked ∧
    ((closeHandle s w).1.grips g).parent = (s.grips g).parent ∧
      (((closeHandle s w).1.grips g).handle = (s.grips g).handle ∨ ((closeHandle s w).1.grips g).handle = none) := by
  intro g
  obtain ⟨a1, a2, a3⟩ := closeOne_grips s (s.wds w).g0 g
  obtain ⟨b1, b2, b3⟩ := closeOne_grips (closeOne s (s.wds w).g0).1 (s.wds w).g1 g
  refine ⟨b1.trans a1, b2.trans a2, ?_⟩
  rcases b3 with b3 | b3
  · rcases a3 with a3 | a3
    · exact .inl (b3.trans a3)
    · exact .inr (b3.trans a3)
  · exact .inr b3

theorem closeHandle_rest (s : St) (w : Nat) : (closeHandle s w).1.ng = s.ng ∧ (closeHandle s w).1.nw = s.nw ∧ (closeHandle s w).1.wds = s.wds ∧
    (closeHandle s w).1.nh = s.nh ∧ (∀ r ∈ (closeHandle s w).1.reads, r ∈ s.reads) ∧ (closeHandle s w).1.loop = s.loop := by
  obtain ⟨h1, h2, h3, h4, h5, h6⟩ := closeOne_rest s (s.wds w).g0
  obtain ⟨k1, k2, k3, k4, k5, k6⟩ := closeOne_rest (closeOne s (s.wds w).g0).1 (s.wds w).g1
  exact ⟨k1.trans h1, k2.trans h2, k3.trans h3, k4.trans h4, fun r hr => h5 r (k5 r hr), k6.trans h6⟩

theorem closeHandle_shut (s : St) (w : Nat) {i : Bool} {g : Nat} (h : (s.wds w).slot i = some g) : ((closeHandle s w).1.grips g).handle = none := by
  unfold closeHandle
  cases i with
  | false =>
    have h : (s.wds w).g0 = some g := h
    have := closeOne_shut s g
    rw [h]
    rcases (closeOne_grips (closeOne s (some g)).1 (s.wds w).g1 g).2.2 with e | e
    · exact e.trans this
    · exact e
  | true =>
    have h : (s.wds w).g1 = some g := h
    dsimp only
    rw [h]
    exact closeOne_shut _ g

/-- Afterwards nothing is exempt. -/
theorem closeHandle_sane {s : St} {w : Nat} (h : Sane (some w) s) : Sane none (closeHandle s w).1 := by
  obtain ⟨h1, h2, h3, h4, h5, h6⟩ := closeHandle_rest s w
  have hb : Sane (some w) (closeHandle s w).1 := h.mono (closeHandle_grips s w) h1 h2 h3 h4 h5 h6
  refine ⟨hb.lk, hb.lp, hb.sl, hb.rd, hb.hd, fun v _ hs i g hk => ?_, hb.st⟩
  by_cases hv : w = v
  · subst hv
    rw [h3] at hk
    exact closeHandle_shut s w hk
  · exact hb.shut v (by simp [hv]) hs i g hk

/-- One grip of the entry changes. -/
theorem Sane.one {s s' : St} {w g : Nat} (h : Sane (some w) s) (hp : (s.grips g).parent = w)
    (hg : ∀ g', g' ≠ g → s'.grips g' = s.grips g') (hl : (s'.grips g).linked = (s.grips g).linked) (hp' : (s'.grips g).parent = (s.grips g).parent)
    (hng : s'.ng = s.ng) (hnw : s'.nw = s.nw) (hw : s'.wds = s.wds) (hnh : s.nh ≤ s'.nh)
    (hr : ∀ r ∈ s'.reads, r ∈ s.reads ∨ (r.h < s'.nh ∧ r.g < s.ng)) (hlp : s'.loop = s.loop)
    (hh : ∀ x, (s'.grips g).handle = some x → x < s'.nh) : Sane (some w) s' := by
  have key : ∀ g', (s'.grips g').linked = (s.grips g').linked ∧ (s'.grips g').parent = (s.grips g').parent := by
    intro g'
    by_cases e : g' = g
    · subst e; exact ⟨hl, hp'⟩
    · rw [hg g' e]; exact ⟨rfl, rfl⟩
  refine ⟨?_, ?_, ?_, ?_, ?_, ?_, ?_⟩
  · intro g' hk; rw [(key g').1] at hk; rw [hng, hnw, (key g').2]; exact h.lk g' hk
  · intro g' hk; rw [(key g').1]; exact h.lp g' (hlp ▸ hk)
  · intro v i g' hk; rw [(key g').1, (key g').2]; exact h.sl v i g' (hw ▸ hk)
  · intro r hk
    rcases hr r hk with hk | hk
    · have := h.rd r hk
      rw [hng]; omega
    · rw [hng]; exact hk
  · intro g' x hk
    by_cases e : g' = g
    · subst e; exact hh x hk
    · rw [hg g' e] at hk; exact Nat.lt_of_lt_of_le (h.hd g' x hk) hnh
  · intro v hx hs i g' hk
    rw [hw] at hs hk
    have hv := (h.sl v i g' hk).2
    have : g' ≠ g := by rintro rfl; exact hx (by rw [← hv, hp])
    rw [hg g' this]
    exact h.shut v hx hs i g' hk
  · rw [hw]; exact h.st

theorem readDirChanges_rest (s : St) (g : Nat) (ok : Bool) : (readDirChanges s g ok).1.grips = s.grips ∧ (readDirChanges s g ok).1.ng = s.ng ∧
    (readDirChanges s g ok).1.nw = s.nw ∧ (readDirChanges s g ok).1.wds = s.wds ∧ (readDirChanges s g ok).1.nh = s.nh ∧
    (readDirChanges s g ok).1.loop = s.loop ∧ (readDirChanges s g ok).1.queue = s.queue ∧
    (∀ r ∈ (readDirChanges s g ok).1.reads, r ∈ s.reads ∨ ((s.grips g).handle = some r.h ∧ r.g = g)) ∧
    ((readDirChanges s g ok).2 = false → (readDirChanges s g ok).1 = s) := by
  unfold readDirChanges
  split
  · exact ⟨rfl, rfl, rfl, rfl, rfl, rfl, rfl, fun _ h => .inl h, fun _ => rfl⟩
  · next h hh =>
    split
    · refine ⟨rfl, rfl, rfl, rfl, rfl, rfl, rfl, ?_, fun h => nomatch h⟩
      intro r hr
      rcases List.mem_append.1 hr with hr | hr
      · exact .inl hr
      · rw [List.mem_singleton.1 hr]; exact .inr ⟨hh, rfl⟩
    · exact ⟨rfl, rfl, rfl, rfl, rfl, rfl, rfl, fun _ h => .inl h, fun _ => rfl⟩

/-- What `register` does. -/
theorem register_rest (s : St) (g : Nat) (a : Ans) :
    (∀ g', g' ≠ g → (register s g a).1.grips g' = s.grips g') ∧ ((register s g a).1.grips g).linked = (s.grips g).linked ∧
    ((register s g a).1.grips g).parent = (s.grips g).parent ∧ (register s g a).1.ng = s.ng ∧ (register s g a).1.nw = s.nw ∧
    (register s g a).1.wds = s.wds ∧ s.nh ≤ (register s g a).1.nh ∧ (register s g a).1.loop = s.loop ∧ (register s g a).1.queue = s.queue ∧
    (∀ r ∈ (register s g a).1.reads, r ∈ s.reads ∨ (r.h < (register s g a).1.nh ∧ r.g = g)) ∧
    ((register s g a).2 = false → (register s g a).1.reads = s.reads ∧
      (((register s g a).1.grips g).handle = none ∨ ((register s g a).1.grips g).handle = some s.nh)) ∧
    (∀ x, ((register s g a).1.grips g).handle = some x → x < (register s g a).1.nh) := by
  unfold register
  split
  · dsimp only
    split
    · generalize hs1 : ({ s.setGrip g { s.grips g with handle := some s.nh } with nh := s.nh + 1, opened := s.nh :: s.opened } : St) = s1
      obtain ⟨h1, h2, h3, h4, h5, h6, h7, h8, h9⟩ := readDirChanges_rest s1 g a.read
      rw [h1, h2, h3, h4, h5, h6, h7]
      subst hs1
      refine ⟨?_, ?_, ?_, rfl, rfl, rfl, Nat.le_succ _, rfl, rfl, ?_, ?_, ?_⟩
      · intro g' hg'; simp [St.setGrip, upd_at, hg']
      · simp [St.setGrip, upd_at]
      · simp [St.setGrip, upd_at]
      · intro r hr
        rcases h8 r hr with hr | ⟨hr, hg⟩
        · exact .inl hr
        · right
          simp only [St.setGrip, upd_at, if_true, Option.some.injEq] at hr
          exact ⟨by show r.h < s.nh + 1; omega, hg⟩
      · intro hf
        refine ⟨?_, .inr ?_⟩
        · rw [h9 hf]; rfl
        · simp [St.setGrip, upd_at]
      · intro x hx
        simp only [St.setGrip, upd_at, if_true, Option.some.injEq] at hx
        show x < s.nh + 1; omega
    · refine ⟨?_, ?_, ?_, rfl, rfl, rfl, Nat.le_succ _, rfl, rfl, fun _ h => .inl h, fun _ => ⟨rfl, .inr ?_⟩, ?_⟩
      · intro g' hg'; simp [St.setGrip, upd_at, hg']
      · simp [St.setGrip, upd_at]
      · simp [St.setGrip, upd_at]
      · simp [St.setGrip, upd_at]
      · intro x hx
        simp only [St.setGrip, upd_at, if_true, Option.some.injEq] at hx
        show x < s.nh + 1; omega
  · refine ⟨?_, ?_, ?_, rfl, rfl, rfl, Nat.le_refl _, rfl, rfl, fun _ h => .inl h, fun _ => ⟨rfl, .inl ?_⟩, ?_⟩
    · intro g' hg'; simp [St.setGrip, upd_at, hg']
    · simp [St.setGrip, upd_at]
    · simp [St.setGrip, upd_at]
    · simp [St.setGrip, upd_at]
    · intro x hx; simp [St.setGrip, upd_at] at hx

theorem register_sane {s : St} {w g : Nat} (h : Sane (some w) s) (hp : (s.grips g).parent = w) (hg : g < s.ng) (a : Ans) :
    Sane (some w) (register s g a).1 := by
  obtain ⟨h1, h2, h3, h4, h5, h6, h7, h8, _, h9, _, h10⟩ := register_rest s g a
  refine h.one hp h1 h2 h3 h4 h5 h6 h7 ?_ h8 h10
  intro r hr
  rcases h9 r hr with hr | ⟨hr, rfl⟩
  · exact .inl hr
  · exact .inr ⟨hr, hg⟩

/-- The new grip before it is registered. -/
def fresh1 (s : St) (w : Nat) (filter : Event) : St :=
  { s.setGrip s.ng { filter := filter, recursive := (s.wds w).recursive, path := (s.wds w).path, parent := w } with ng := s.ng + 1 }

theorem fresh1_sane {s : St} {w : Nat} (h : Sane (some w) s) (f : Event) : Sane (some w) (fresh1 s w f) := by
  have key : ∀ g, ((fresh1 s w f).grips g).linked = true → g ≠ s.ng := by
    rintro g hk rfl
    simp [fresh1, St.setGrip, upd_at] at hk
  have old : ∀ g, (s.grips g).linked = true → g ≠ s.ng := by
    rintro g hk rfl
    exact absurd (h.lk _ hk).1 (Nat.lt_irrefl _)
  have same : ∀ g, g ≠ s.ng → (fresh1 s w f).grips g = s.grips g := by intro g hg; simp [fresh1, St.setGrip, upd_at, hg]
  refine ⟨?_, ?_, ?_, ?_, ?_, ?_, h.st⟩
  · intro g hk
    have hne := key g hk
    rw [same g hne] at hk ⊢
    exact ⟨Nat.lt_succ_of_lt (h.lk g hk).1, (h.lk g hk).2⟩
  · intro g hk
    have := h.lp g hk
    rw [same g (old g this)]; exact this
  · intro v i g hk
    have := h.sl v i g hk
    rw [same g (old g this.1)]; exact this
  · intro r hr; exact ⟨(h.rd r hr).1, Nat.lt_succ_of_lt (h.rd r hr).2⟩
  · intro g x hx
    by_cases e : g = s.ng
    · subst e; simp [fresh1, St.setGrip, upd_at] at hx
    · rw [same g e] at hx; exact h.hd g x hx
  · intro v hx hs i g hk
    rw [same g (old g (h.sl v i g hk).1)]; exact h.shut v hx hs i g hk

theorem newGrip_eq (s : St) (w : Nat) (f : Event) (a : Ans) : newGrip s w f a =
    (let r := register (fresh1 s w f) s.ng a
     if r.2 then
       let s2 := if a.early then { r.1 with reads := r.1.reads.filter (·.g ≠ s.ng) } else r.1
       (s2.setGrip s.ng { s2.grips s.ng with linked := true }, some s.ng)
     else (r.1, none)) := rfl

theorem newGrip_rest (s : St) (w : Nat) (f : Event) (a : Ans) :
    (∀ g', g' ≠ s.ng → (newGrip s w f a).1.grips g' = s.grips g') ∧ (newGrip s w f a).1.ng = s.ng + 1 ∧ (newGrip s w f a).1.nw = s.nw ∧
    (newGrip s w f a).1.wds = s.wds ∧ (newGrip s w f a).1.loop = s.loop ∧ (newGrip s w f a).1.queue = s.queue ∧
    ((newGrip s w f a).2 = none → ((newGrip s w f a).1.grips s.ng).linked = false) ∧
    (∀ g, (newGrip s w f a).2 = some g → g = s.ng ∧ ((newGrip s w f a).1.grips g).linked = true ∧ ((newGrip s w f a).1.grips g).parent = w) := by
  obtain ⟨h1, h2, h3, h4, h5, h6, h7, h8, h9, h10, _⟩ := register_rest (fresh1 s w f) s.ng a
  have old : ∀ g', g' ≠ s.ng → (fresh1 s w f).grips g' = s.grips g' := by intro g hg; simp [fresh1, St.setGrip, upd_at, hg]
  rw [newGrip_eq]
  dsimp only
  split
  · have e : ∀ s2 : St, s2 = (if a.early then { (register (fresh1 s w f) s.ng a).1 with reads := (register (fresh1 s w f) s.ng a).1.reads.filter (·.g ≠ s.ng) }
        else (register (fresh1 s w f) s.ng a).1) → s2.grips = (register (fresh1 s w f) s.ng a).1.grips ∧ s2.ng = (register (fresh1 s w f) s.ng a).1.ng ∧
        s2.nw = (register (fresh1 s w f) s.ng a).1.nw ∧ s2.wds = (register (fresh1 s w f) s.ng a).1.wds ∧
        s2.loop = (register (fresh1 s w f) s.ng a).1.loop ∧ s2.queue = (register (fresh1 s w f) s.ng a).1.queue := by
      rintro s2 rfl; split <;> exact ⟨rfl, rfl, rfl, rfl, rfl, rfl⟩
    generalize hs2 : (if a.early then { (register (fresh1 s w f) s.ng a).1 with reads := (register (fresh1 s w f) s.ng a).1.reads.filter (·.g ≠ s.ng) }
        else (register (fresh1 s w f) s.ng a).1) = s2
    obtain ⟨e1, e2, e3, e4, e5, e6⟩ := e s2 hs2.symm
    refine ⟨?_, ?_, ?_, ?_, ?_, ?_, (fun h => by cases h), ?_⟩
    · intro g' hg'; simp only [St.setGrip, upd_at, if_neg hg']; rw [e1, h1 g' hg', old g' hg']
    · show s2.ng = _; rw [e2, h4]; rfl
    · show s2.nw = _; rw [e3, h5]; rfl
    · show s2.wds = _; rw [e4, h6]; rfl
    · show s2.loop = _; rw [e5, h8]; rfl
    · show s2.queue = _; rw [e6, h9]; rfl
    · rintro g ⟨⟩
      refine ⟨rfl, by simp [St.setGrip, upd_at], ?_⟩
      simp only [St.setGrip, upd_at, if_true]
      rw [e1, h3]; simp [fresh1, St.setGrip, upd_at]
  · refine ⟨fun g' hg' => (h1 g' hg').trans (old g' hg'), h4, h5, h6, h8, h9, ?_, fun g h => nomatch h⟩
    intro _
    rw [h2]; simp [fresh1, St.setGrip, upd_at]

theorem newGrip_sane {s : St} {w : Nat} (h : Sane (some w) s) (hw : w < s.nw) (f : Event) (a : Ans) : Sane (some w) (newGrip s w f a).1 := by
  have hf := fresh1_sane h f
  have hp : ((fresh1 s w f).grips s.ng).parent = w := by simp [fresh1, St.setGrip, upd_at]
  have hr := register_sane hf hp (Nat.lt_succ_self _) a
  obtain ⟨h1, h2, h3, h4, h5, h6, h7, h8, h9, h10, _⟩ := register_rest (fresh1 s w f) s.ng a
  rw [newGrip_eq]
  dsimp only
  split
  · generalize hs2 : (if a.early then { (register (fresh1 s w f) s.ng a).1 with reads := (register (fresh1 s w f) s.ng a).1.reads.filter (·.g ≠ s.ng) }
        else (register (fresh1 s w f) s.ng a).1) = s2
    have hs : Sane (some w) s2 ∧ (s2.grips s.ng).parent = w ∧ s2.ng = s.ng + 1 ∧ s2.nw = s.nw := by
      subst hs2
      split
      · exact ⟨hr.mono (fun g => ⟨rfl, rfl, .inl rfl⟩) rfl rfl rfl rfl (fun r hr => (List.mem_filter.1 hr).1) rfl, h3.trans hp, h4, h5⟩
      · exact ⟨hr, h3.trans hp, h4, h5⟩
    obtain ⟨hs, hsp, hsn, hsw⟩ := hs
    have keep : ∀ g, (s2.grips g).linked = true → ((s2.setGrip s.ng { s2.grips s.ng with linked := true }).grips g).linked = true := by
      intro g hg; simp only [St.setGrip, upd_at]; split
      · rfl
      · exact hg
    have same : ∀ g, ((s2.setGrip s.ng { s2.grips s.ng with linked := true }).grips g).parent = (s2.grips g).parent ∧
        ((s2.setGrip s.ng { s2.grips s.ng with linked := true }).grips g).handle = (s2.grips g).handle := by
      intro g; simp only [St.setGrip, upd_at]; split
      · next e => subst e; exact ⟨rfl, rfl⟩
      · exact ⟨rfl, rfl⟩
    refine ⟨?_, fun g hg => keep g (hs.lp g hg), ?_, hs.rd, fun g x hx => hs.hd g x ((same g).2 ▸ hx), ?_, hs.st⟩
    · intro g hg
      rw [(same g).1]
      by_cases e : g = s.ng
      · subst e
        exact ⟨by show s.ng < s2.ng; omega, by show _ < s2.nw; rw [hsp, hsw]; exact hw⟩
      · simp only [St.setGrip, upd_at, if_neg e] at hg
        exact hs.lk g hg
    · intro v i g hk
      have := hs.sl v i g hk
      exact ⟨keep g this.1, (same g).1.trans this.2⟩
    · intro v hx hst i g hk
      rw [(same g).2]
      exact hs.shut v hx hst i g hk
  · exact hr

/-- Entries change, other than by the state, and their slots. -/
theorem Sane.setWd {x : Option Nat} {s : St} {w : Nat} {v : Wd} (h : Sane x s)
    (hs : ∀ i g, v.slot i = some g → (s.grips g).linked = true ∧ (s.grips g).parent = w)
    (hst : v.state = 0 ∨ v.state = stRewatch ∨ v.state = stUnwatch)
    (hsh : x ≠ some w → v.state = stRewatch → ∀ i g, v.slot i = some g → (s.grips g).handle = none) : Sane x (s.setWd w v) := by
  refine ⟨h.lk, h.lp, ?_, h.rd, h.hd, ?_, ?_⟩
  · intro u i g hk
    simp only [St.setWd, upd_at] at hk
    split at hk
    · next e => subst e; exact hs i g hk
    · exact h.sl u i g hk
  · intro u hx hst' i g hk
    simp only [St.setWd, upd_at] at hst' hk
    split at hst'
    · next e => subst e; rw [if_pos rfl] at hk; exact hsh hx hst' i g hk
    · next e => rw [if_neg e] at hk; exact h.shut u hx hst' i g hk
  · intro u
    simp only [St.setWd, upd_at]
    split
    · exact hst
    · exact h.st u

/-- Only count and filter of the entry change. -/
theorem Sane.setWd' {x : Option Nat} {s : St} {w : Nat} {v : Wd} (h : Sane x s) (hs : ∀ i, v.slot i = (s.wds w).slot i) (hst : v.state = (s.wds w).state) :
    Sane x (s.setWd w v) :=
  h.setWd (fun i g hk => h.sl w i g (hs i ▸ hk)) (by rw [hst]; exact h.st w) fun hx he i g hk => h.shut w hx (hst ▸ he) i g (hs i ▸ hk)

theorem setSlot_slot (wd : Wd) (i j : Bool) (g : Option Nat) : (wd.setSlot i g).slot j = if j = i then g else wd.slot j := by
  cases i <;> cases j <;> rfl

theorem setSlot_state (wd : Wd) (i : Bool) (g : Option Nat) : (wd.setSlot i g).state = wd.state ∧ (wd.setSlot i g).filter = wd.filter ∧
    (wd.setSlot i g).count = wd.count := by cases i <;> exact ⟨rfl, rfl, rfl⟩

theorem count_slot (wd : Wd) (n : BitVec 8) (i : Bool) : ({ wd with count := n } : Wd).slot i = wd.slot i := by cases i <;> rfl

theorem updateGrip_sane {s : St} {w : Nat} (h : Sane (some w) s) (hw : w < s.nw) (i reset : Bool) (f : Event) (a : Ans) :
    Sane (some w) (updateGrip s w i reset f a).1 ∧ ((updateGrip s w i reset f a).2 = false → Sane none (updateGrip s w i reset f a).1) := by
  unfold updateGrip
  split
  · refine ⟨h.setWd ?_ (by rw [(setSlot_state _ i none).1]; exact h.st w) (fun hx => absurd rfl hx), (fun h => by cases h)⟩
    intro j g hk
    rw [setSlot_slot] at hk
    split at hk
    · cases hk
    · exact h.sl w j g hk
  · cases hsl : (s.wds w).slot i with
    | none =>
      have hn := newGrip_sane h hw f a
      obtain ⟨h1, h2, h3, h4, h5, h6, h7, h8⟩ := newGrip_rest s w f a
      have hset : Sane (some w) ((newGrip s w f a).1.setWd w (((newGrip s w f a).1.wds w).setSlot i (newGrip s w f a).2)) := by
        refine hn.setWd ?_ (by rw [(setSlot_state _ i _).1]; exact hn.st w) (fun hx => absurd rfl hx)
        intro j g hk
        rw [setSlot_slot] at hk
        split at hk
        · exact (h8 g hk).2
        · exact hn.sl w j g hk
      dsimp only
      split
      · refine ⟨hset.setWd' (fun i => count_slot _ _ i) rfl, (fun h => by cases h)⟩
      · exact ⟨(closeHandle_sane hset).weaken _, fun _ => closeHandle_sane hset⟩
    | some g =>
      have hg := h.sl w i g hsl
      have h0 : Sane (some w) (s.setGrip g { s.grips g with filter := f, recursive := (s.wds w).recursive }) := by
        refine h.one (g := g) hg.2 ?_ ?_ ?_ rfl rfl rfl (Nat.le_refl _) (fun r hr => .inl hr) rfl ?_
        · intro g' hg'; simp [St.setGrip, upd_at, hg']
        · simp [St.setGrip, upd_at]
        · simp [St.setGrip, upd_at]
        · intro x hx
          simp only [St.setGrip, upd_at, if_true] at hx
          exact h.hd g x hx
      have hr := register_sane (g := g) h0 (by simp [St.setGrip, upd_at, hg.2]) (h.lk g hg.1).1 a
      dsimp only
      split
      · exact ⟨hr.setWd' (fun i => count_slot _ _ i) rfl, (fun h => by cases h)⟩
      · exact ⟨(closeHandle_sane hr).weaken _, fun _ => closeHandle_sane hr⟩

/-- What `updateGrip` does to the entries. -/
theorem updateGrip_wds (s : St) (w : Nat) (i reset : Bool) (f : Event) (a : Ans) :
    (updateGrip s w i reset f a).1.nw = s.nw ∧ (updateGrip s w i reset f a).1.loop = s.loop ∧
    (∀ v, ((updateGrip s w i reset f a).1.wds v).filter = (s.wds v).filter) ∧
    ((updateGrip s w i reset f a).1.wds w).count = (if reset = false ∧ (updateGrip s w i reset f a).2 = true then (s.wds w).count + 1 else (s.wds w).count) := by
  unfold updateGrip
  split
  · next hr =>
    refine ⟨rfl, rfl, ?_, ?_⟩
    · intro v; simp only [St.setWd, upd_at]; split
      · next e => subst e; exact (setSlot_state _ _ _).2.1
      · rfl
    · simp [St.setWd, upd_at, hr, (setSlot_state (s.wds w) i none).2.2]
  · next hr =>
    have hr : reset = false := by simpa using hr
    split
    · obtain ⟨h1, h2, h3, h4, h5, h6, h7, h8⟩ := newGrip_rest s w f a
      dsimp only
      split
      · refine ⟨h3, h5, ?_, ?_⟩
        · intro v; simp only [St.setWd, upd_at]; split
          · next e => subst e; simp only [if_true, (setSlot_state _ _ _).2.1, h4]
          · rw [h4]
        · simp [St.setWd, upd_at, hr, (setSlot_state _ i _).2.2, h4]
      · obtain ⟨k1, k2, k3, k4, k5, k6⟩ := closeHandle_rest ((newGrip s w f a).1.setWd w (((newGrip s w f a).1.wds w).setSlot i (newGrip s w f a).2)) w
        refine ⟨k2.trans h3, k6.trans h5, ?_, ?_⟩
        · intro v; rw [k3]; simp only [St.setWd, upd_at]; split
          · next e => subst e; simp only [(setSlot_state _ _ _).2.1, h4]
          · rw [h4]
        · rw [k3]; simp [St.setWd, upd_at, (setSlot_state _ i _).2.2, h4]
    · next g hsl =>
      obtain ⟨h1, h2, h3, h4, h5, h6, h7, h8, h9, h10, _⟩ := register_rest (s.setGrip g { s.grips g with filter := f, recursive := (s.wds w).recursive }) g a
      dsimp only
      split
      · refine ⟨h5, h8, ?_, ?_⟩
        · intro v; simp only [St.setWd, upd_at]; split
          · next e => subst e; rw [h6]; rfl
          · rw [h6]; rfl
        · simp only [St.setWd, upd_at, if_true, hr, h6]; rfl
      · obtain ⟨k1, k2, k3, k4, k5, k6⟩ := closeHandle_rest (register (s.setGrip g { s.grips g with filter := f, recursive := (s.wds w).recursive }) g a).1 w
        refine ⟨k2.trans h5, k6.trans h8, ?_, ?_⟩
        · intro v; rw [k3, h6]; rfl
        · rw [k3, h6]; simp [St.setGrip]

theorem states_clear (F : Event) : (F &^ onlyStates) &&& onlyStates = 0 := by
  apply BitVec.eq_of_getLsbD_eq
  intro j hj
  rw [BitVec.getLsbD_and, Event.bit_andNot, st_bits j hj]
  cases decide (28 ≤ j) <;> simp

theorem states_unwatch {F : Event} (h : F &&& onlyStates = 0) : (F ||| stUnwatch) &&& onlyStates = stUnwatch := by
  apply BitVec.eq_of_getLsbD_eq
  intro j hj
  have := congrArg (BitVec.getLsbD · j) h
  simp only [BitVec.getLsbD_and, BitVec.getLsbD_or, st_bits j hj, un_bits j hj] at this ⊢
  by_cases h1 : 28 ≤ j
  · simp [h1] at this ⊢; simp [this]
  · have : ¬ j = 29 := by omega
    simp [h1, this]

theorem states_back (F : Event) : (F &&& (onlyChanges ||| onlyGlobal)) &&& onlyStates = 0 := by
  rw [BitVec.and_assoc, show (onlyChanges ||| onlyGlobal) &&& onlyStates = 0 by decide]
  exact BitVec.and_zero

/-- `watch` of a path that is in the table. -/
theorem states_resume {F : Event} (h : F &&& onlyStates = 0 ∨ F &&& onlyStates = stRewatch ∨ F &&& onlyStates = stUnwatch) :
    ((F &^ stUnwatch) &&& onlyStates = 0 ∧ F &&& onlyStates ≠ stRewatch) ∨ ((F &^ stUnwatch) &&& onlyStates = stRewatch ∧ F &&& onlyStates = stRewatch) := by
  have key : (F &^ stUnwatch) &&& onlyStates = (F &&& onlyStates) &^ stUnwatch := by
    apply BitVec.eq_of_getLsbD_eq
    intro j hj
    rw [BitVec.getLsbD_and, Event.bit_andNot, Event.bit_andNot, BitVec.getLsbD_and]
    cases F.getLsbD j <;> cases stUnwatch.getLsbD j <;> cases onlyStates.getLsbD j <;> rfl
  rw [key]
  rcases h with h | h | h <;> rw [h] <;> decide

theorem recreate_sane {s : St} {w : Nat} (h : Sane (some w) s) (hw : w < s.nw) (a0 a1 : Ans) : Sane none (recreate s w a0 a1).1 := by
  unfold recreate
  dsimp only
  obtain ⟨h1, h2⟩ := updateGrip_sane h hw false (!hasFile (s.wds w).filter) (fileFilter (s.wds w).filter) a0
  have hnw := (updateGrip_wds s w false (!hasFile (s.wds w).filter) (fileFilter (s.wds w).filter) a0).1
  generalize updateGrip s w false (!hasFile (s.wds w).filter) (fileFilter (s.wds w).filter) a0 = r at h1 h2 hnw ⊢
  split
  · obtain ⟨k1, k2⟩ := updateGrip_sane h1 (hnw ▸ hw) true (!hasDir (r.1.wds w).filter) (dirFilter (r.1.wds w).filter) a1
    generalize updateGrip r.1 w true (!hasDir (r.1.wds w).filter) (dirFilter (r.1.wds w).filter) a1 = q at k1 k2 ⊢
    split
    · have hz : ({ q.1.wds w with filter := (q.1.wds w).filter &^ onlyStates } : Wd).state = 0 := states_clear _
      have hs : Sane (some w) (q.1.setWd w { q.1.wds w with filter := (q.1.wds w).filter &^ onlyStates }) := by
        refine k1.setWd ?_ (.inl hz) (fun hx => absurd rfl hx)
        intro i g hk
        exact k1.sl w i g (by cases i <;> exact hk)
      refine ⟨hs.lk, hs.lp, hs.sl, hs.rd, hs.hd, ?_, hs.st⟩
      intro v _ hst i g hk
      by_cases hv : w = v
      · subst hv
        simp only [St.setWd, upd_at, if_true] at hst
        rw [hz] at hst
        exact absurd hst (by decide)
      · exact hs.shut v (by simp [hv]) hst i g hk
    · next hf => exact k2 (by simpa using hf)
  · next hf => exact h2 (by simpa using hf)

theorem watch_sane {s : St} (h : Sane none s) (p : Path) (e : Event) (r : Bool) (a0 a1 : Ans) : Sane none (watch s p e r a0 a1).1 := by
  unfold watch
  split
  · next hv =>
    split
    · next w hm =>
      rcases states_resume (h.st w) with ⟨h1, h2⟩ | ⟨h1, h2⟩
      · refine h.setWd (fun i g hk => h.sl w i g (by cases i <;> exact hk)) (.inl h1) ?_
        intro _ he
        exact absurd (h1.symm.trans he) (by decide)
      · exact h.setWd' (fun i => by cases i <;> rfl) (h1.trans h2.symm)
    · have h0 : Sane (some s.nw) { s.setWd s.nw { filter := e, recursive := r, path := p } with nw := s.nw + 1 } := by
        have := (h.weaken (some s.nw)).setWd (w := s.nw) (v := { filter := e, recursive := r, path := p }) (by intro i g hk; cases i <;> cases hk)
          (.inl (valid_states hv)) (fun hx => absurd rfl hx)
        exact ⟨fun g hg => ⟨(this.lk g hg).1, Nat.lt_succ_of_lt (this.lk g hg).2⟩, this.lp, this.sl, this.rd, this.hd, this.shut, this.st⟩
      have hr := recreate_sane h0 (Nat.lt_succ_self _) a0 a1
      dsimp only
      split
      · exact ⟨hr.lk, hr.lp, hr.sl, hr.rd, hr.hd, hr.shut, hr.st⟩
      · exact hr
  · exact h

theorem rewatch_sane {s s' : St} (h : Sane none s) {p : Path} {old new : Event} {r ok : Bool} (he : rewatch s p old new r = some (s', ok)) : Sane none s' := by
  unfold rewatch at he
  split at he
  · next hv =>
    split at he
    · cases he; exact h
    · next w hm =>
      split at he
      · next ho =>
        have h1 : Sane none (closeHandle (s.setWd w { s.wds w with filter := stRewatch ||| new, recursive := r }) w).1 := by
          refine closeHandle_sane ((h.weaken _).setWd (fun i g hk => h.sl w i g (by cases i <;> exact hk)) (.inr (.inl (rewatch_states hv)))
            (fun hx => absurd rfl hx))
        dsimp only at he
        split at he
        · cases he; exact h1
        · cases he
          have hz : old &&& onlyStates = 0 := ho ▸ states_back _
          refine h1.setWd (fun i g hk => h1.sl w i g (by cases i <;> exact hk)) (.inl hz) ?_
          intro _ he
          exact absurd (hz.symm.trans he) (by decide)
      · cases he
  · cases he; exact h

theorem nonState_states {s : St} {p : Path} {w : Nat} (h : nonState s p = some w) : (s.wds w).filter &&& onlyStates = 0 := by
  unfold nonState at h
  split at h
  · cases h
  · split at h
    · cases h
    · next hz => cases h; exact Classical.not_not.1 hz

theorem unwatch_sane {s : St} (h : Sane none s) (p : Path) (gone : Bool) : Sane none (unwatch s p gone).1 := by
  unfold unwatch
  split
  · exact h
  · next w hm =>
    have hz := states_unwatch (nonState_states hm)
    have h1 : Sane none (s.setWd w { s.wds w with filter := (s.wds w).filter ||| stUnwatch }) := by
      refine h.setWd (fun i g hk => h.sl w i g (by cases i <;> exact hk)) (.inr (.inr hz)) ?_
      intro _ he
      exact absurd (hz.symm.trans he) (by decide)
    dsimp only
    split
    · exact ⟨h1.lk, h1.lp, h1.sl, h1.rd, h1.hd, h1.shut, h1.st⟩
    · exact h1

theorem complete_sane {s : St} (h : Sane none s) (r : Read) : Sane none (complete s r) :=
  h.mono (fun _ => ⟨rfl, rfl, .inl rfl⟩) rfl rfl rfl rfl (fun _ hr => List.mem_of_mem_erase hr) rfl

theorem take_sane {s : St} (h : Sane none s) : Sane none (take s) := by
  unfold take
  split
  · next g q h1 h2 =>
    split
    · next hl =>
      refine ⟨h.lk, ?_, h.sl, h.rd, h.hd, h.shut, h.st⟩
      rintro g' (⟨⟨⟩⟩ | ⟨⟨⟩⟩)
      exact hl
    · exact ⟨h.lk, h.lp, h.sl, h.rd, h.hd, h.shut, h.st⟩
  · exact h

theorem again_sane {s : St} (h : Sane none s) (ok : Bool) : Sane none (again s ok) := by
  unfold again
  split
  · next g hl =>
    obtain ⟨h1, h2, h3, h4, h5, h6, h7, h8, h9⟩ := readDirChanges_rest s g ok
    refine ⟨?_, ?_, ?_, ?_, ?_, ?_, ?_⟩
    · show ∀ g', ((readDirChanges s g ok).1.grips g').linked = true → g' < (readDirChanges s g ok).1.ng ∧ ((readDirChanges s g ok).1.grips g').parent < (readDirChanges s g ok).1.nw
      rw [h1, h2, h3]; exact h.lk
    · rintro g' (⟨⟨⟩⟩ | ⟨⟨⟩⟩)
      show ((readDirChanges s g ok).1.grips g).linked = true
      rw [h1]; exact h.lp g (.inl hl)
    · show ∀ v i g', ((readDirChanges s g ok).1.wds v).slot i = some g' → ((readDirChanges s g ok).1.grips g').linked = true ∧ ((readDirChanges s g ok).1.grips g').parent = v
      rw [h1, h4]; exact h.sl
    · show ∀ r ∈ (readDirChanges s g ok).1.reads, r.h < (readDirChanges s g ok).1.nh ∧ r.g < (readDirChanges s g ok).1.ng
      rw [h5, h2]
      intro r hr
      rcases h8 r hr with hr | ⟨hr, rfl⟩
      · exact h.rd r hr
      · exact ⟨h.hd _ _ hr, (h.lk _ (h.lp _ (.inl hl))).1⟩
    · show ∀ g' x, ((readDirChanges s g ok).1.grips g').handle = some x → x < (readDirChanges s g ok).1.nh
      rw [h1, h5]; exact h.hd
    · show ∀ v, none ≠ some v → ((readDirChanges s g ok).1.wds v).state = stRewatch → ∀ i g', ((readDirChanges s g ok).1.wds v).slot i = some g' →
        ((readDirChanges s g ok).1.grips g').handle = none
      rw [h1, h4]; exact h.shut
    · show ∀ v, ((readDirChanges s g ok).1.wds v).state = 0 ∨ _ ∨ _
      rw [h4]; exact h.st
  · exact h
/-! ### What the loop does -/

/-- How many entries wait for their rewatch. -/
def waits (s : St) : Nat := ((List.range s.nw).filter fun w => decide ((s.wds w).state = stRewatch)).length

/-- How many grips have a handle. -/
def opens (s : St) : Nat := ((List.range s.ng).filter fun g => (s.grips g).linked && (s.grips g).handle.isSome).length

theorem waits_same {s s' : St} (hn : s'.nw = s.nw) (h : ∀ w, (s'.wds w).state = (s.wds w).state) : waits s' = waits s := by
  unfold waits; rw [hn]; simp only [h]

theorem filter_drop {p q : Nat → Bool} {n k : Nat} (hk : k < n) (hp : p k = true) (hq : q k = false) (h : ∀ x, x ≠ k → q x = p x) :
    ((List.range n).filter q).length < ((List.range n).filter p).length := by
  induction n with
  | zero => omega
  | succ n ih =>
    rw [List.range_succ, List.filter_append, List.filter_append, List.length_append, List.length_append]
    by_cases e : n = k
    · subst e
      have : (List.range n).filter q = (List.range n).filter p :=
        List.filter_congr fun x hx => h x (Nat.ne_of_lt (List.mem_range.1 hx))
      rw [this]; simp [hp, hq]
    · have := ih (by omega)
      have : [n].filter q = [n].filter p := by simp only [List.filter_cons, h n e, List.filter_nil]
      rw [this]; omega

/-- Closing a handle leaves fewer, or does nothing. -/
theorem closeOne_opens {s : St} {g : Nat} (hl : (s.grips g).linked = true) (hg : g < s.ng) :
    (closeOne s (some g)).1 = s ∨ opens (closeOne s (some g)).1 < opens s := by
  unfold closeOne
  dsimp only
  split
  · exact .inl rfl
  · next x hx =>
    right
    unfold opens
    dsimp only [St.setGrip]
    refine filter_drop hg ?_ ?_ ?_
    · simp [hl, hx]
    · simp [upd_at]
    · intro y hy; simp [upd_at, hy]

theorem closeHandle_opens {x : Option Nat} {s : St} (h : Sane x s) (w : Nat) : (closeHandle s w).1 = s ∨ opens (closeHandle s w).1 < opens s := by
  have one : ∀ {s : St}, Sane x s → ∀ {o : Option Nat} {i : Bool}, (s.wds w).slot i = o → (closeOne s o).1 = s ∨ opens (closeOne s o).1 < opens s := by
    intro s h o i ho
    cases o with
    | none => exact .inl rfl
    | some g => exact closeOne_opens (h.sl w i g ho).1 (h.lk g (h.sl w i g ho).1).1
  unfold closeHandle
  dsimp only
  have h1 := one h (o := (s.wds w).g0) (i := false) rfl
  have h2 := one (closeOne_sane h (s.wds w).g0) (o := (s.wds w).g1) (i := true) (by rw [(closeOne_rest s _).2.2.1]; rfl)
  rcases h2 with h2 | h2
  · rw [h2]; exact h1
  · right
    rcases h1 with h1 | h1
    · rwa [h1] at h2 ⊢
    · omega

/-- The loop found all reads of the entry ended, began to read again for files, could not for directories, and closed what it had opened. -/
def Spins (s s' : St) : Prop :=
  ∃ g, s.loop = .st g ∧ s'.loop = .idle ∧ (s.wds (s.grips g).parent).state = stRewatch ∧ (s.wds (s.grips g).parent).count = 1 ∧
    (s'.wds (s.grips g).parent).state = stRewatch ∧ (s'.wds (s.grips g).parent).count ≠ 0

theorem opens_eq {s s' : St} (hn : s'.ng = s.ng)
    (h : ∀ g, ((s'.grips g).linked && (s'.grips g).handle.isSome) = ((s.grips g).linked && (s.grips g).handle.isSome)) : opens s' = opens s := by
  unfold opens; rw [hn]; simp only [h]

theorem closeOne_none {s : St} {o : Option Nat} (h : ∀ g, o = some g → (s.grips g).handle = none) : (closeOne s o).1 = s := by
  cases o with
  | none => rfl
  | some g => unfold closeOne; simp only [h g rfl]

/-- The first of the two cannot be opened: then nothing happens, but a handle may be lost. -/
theorem updateGrip_fails {s : St} {w : Nat} (h : Sane none s) (hst : (s.wds w).state = stRewatch) (f : Event) (a : Ans)
    (hf : (updateGrip s w false false f a).2 = false) :
    (updateGrip s w false false f a).1.queue = s.queue ∧ opens (updateGrip s w false false f a).1 = opens s := by
  unfold updateGrip at hf ⊢
  rw [if_neg (by simp)] at hf ⊢
  have hsh := h.shut w (by simp) hst
  cases hsl : (s.wds w).slot false with
  | none =>
    rw [hsl] at hf
    obtain ⟨h1, h2, h3, h4, h5, h6, h7, h8⟩ := newGrip_rest s w f a
    dsimp only at hf ⊢
    split at hf
    · cases hf
    next hns =>
    have hnn : (newGrip s w f a).2 = none := by simpa using hns
    rw [if_neg hns]
    have he : (closeHandle ((newGrip s w f a).1.setWd w (((newGrip s w f a).1.wds w).setSlot false (newGrip s w f a).2)) w).1 =
        (newGrip s w f a).1.setWd w (((newGrip s w f a).1.wds w).setSlot false (newGrip s w f a).2) := by
      unfold closeHandle
      dsimp only
      have e0 : (((newGrip s w f a).1.setWd w (((newGrip s w f a).1.wds w).setSlot false (newGrip s w f a).2)).wds w).g0 = none := by
        simp [St.setWd, upd_at, Wd.setSlot, hnn]
      have e1 : (((newGrip s w f a).1.setWd w (((newGrip s w f a).1.wds w).setSlot false (newGrip s w f a).2)).wds w).g1 = (s.wds w).g1 := by
        simp [St.setWd, upd_at, Wd.setSlot, h4]
      rw [e0, e1]
      show (closeOne _ (s.wds w).g1).1 = _
      refine closeOne_none ?_
      intro g hg
      have hlk := (h.sl w true g hg).1
      have hne : g ≠ s.ng := by rintro rfl; exact absurd (h.lk _ hlk).1 (Nat.lt_irrefl _)
      show ((newGrip s w f a).1.grips g).handle = none
      rw [h1 g hne]; exact hsh true g hg
    rw [he]
    refine ⟨h6, ?_⟩
    show opens (newGrip s w f a).1 = opens s
    unfold opens
    rw [h2, List.range_succ, List.filter_append]
    have : [s.ng].filter (fun g => ((newGrip s w f a).1.grips g).linked && ((newGrip s w f a).1.grips g).handle.isSome) = [] := by
      simp [h7 hnn]
    rw [this, List.append_nil]
    congr 1
    refine List.filter_congr fun x hx => ?_
    rw [h1 x (Nat.ne_of_lt (List.mem_range.1 hx))]
  | some g =>
    rw [hsl] at hf
    have hlk := h.sl w false g hsl
    have hg0 := hsh false g hsl
    dsimp only at hf ⊢
    generalize hs0 : s.setGrip g ⟨(s.grips g).handle, f, (s.wds w).recursive, (s.grips g).path, (s.grips g).parent, (s.grips g).linked⟩ = s0 at hf ⊢
    obtain ⟨h1, h2, h3, h4, h5, h6, h7, h8, h9, h10, h11, h12⟩ := register_rest s0 g a
    split at hf
    · cases hf
    next hns =>
    rw [if_neg hns]
    obtain ⟨h13, h14⟩ := h11 (by simpa using hns)
    have same : ∀ g', g' ≠ g → s0.grips g' = s.grips g' := by intro g' hg'; subst hs0; simp [St.setGrip, upd_at, hg']
    have hwds : (register s0 g a).1.wds = s.wds := by rw [h6]; subst hs0; rfl
    have hrd : (register s0 g a).1.reads = s.reads := by rw [h13]; subst hs0; rfl
    have hnh : s0.nh = s.nh := by subst hs0; rfl
    have hlk0 : (s0.grips g).linked = true := by subst hs0; simp [St.setGrip, upd_at, hlk.1]
    have hng : s0.ng = s.ng := by subst hs0; rfl
    have hq0 : s0.queue = s.queue := by subst hs0; rfl
    -- the first is closed without a packet
    have c0 : (closeOne (register s0 g a).1 (some g)).1.queue = s.queue ∧
        ∀ g', ((closeOne (register s0 g a).1 (some g)).1.grips g').linked = (s.grips g').linked ∧
          ((closeOne (register s0 g a).1 (some g)).1.grips g').handle = (s.grips g').handle := by
      have hgr := closeOne_grips (register s0 g a).1 (some g)
      have hgs := closeOne_shut (register s0 g a).1 g
      refine ⟨?_, ?_⟩
      · unfold closeOne
        dsimp only
        split
        · exact h9.trans hq0
        · next x hx =>
          have hxe : x = s.nh := by
            rcases h14 with e | e <;> rw [e] at hx
            · cases hx
            · cases hx; exact hnh
          have : (register s0 g a).1.reads.filter (fun r => decide (r.h = x)) = [] := by
            rw [hrd, List.filter_eq_nil_iff]
            intro r hr
            have := (h.rd r hr).1
            simp only [decide_eq_true_eq]; omega
          rw [this]; simp [h9, hq0]
      · intro g'
        by_cases e : g' = g
        · subst e
          exact ⟨by rw [(hgr g').1, h2, hlk0, hlk.1], by rw [hgs, hg0]⟩
        · refine ⟨by rw [(hgr g').1, h1 g' e, same g' e], ?_⟩
          have : (closeOne (register s0 g a).1 (some g)).1.grips g' = (register s0 g a).1.grips g' := by
            unfold closeOne
            dsimp only
            split
            · rfl
            · simp [St.setGrip, upd_at, e]
          rw [this, h1 g' e, same g' e]
    have he : (closeHandle (register s0 g a).1 w).1 = (closeOne (register s0 g a).1 (some g)).1 := by
      unfold closeHandle
      dsimp only
      rw [hwds]
      have e0 : (s.wds w).g0 = some g := hsl
      rw [e0]
      refine closeOne_none ?_
      intro g' hg'
      rw [(c0.2 g').2]; exact hsh true g' hg'
    rw [he]
    refine ⟨c0.1, opens_eq ?_ ?_⟩
    · rw [(closeOne_rest _ _).1, h4, hng]
    · intro g'; rw [(c0.2 g').1, (c0.2 g').2]

theorem loopstate_sane {s s' : St} (h : Sane none s) {a0 a1 : Ans} (he : loopstate s a0 a1 = some s') : Sane none s' := by
  unfold loopstate at he
  split at he
  · next g hl =>
    have h0 : Sane none { s with loop := .idle } := ⟨h.lk, (by rintro g (h | h) <;> cases h), h.sl, h.rd, h.hd, h.shut, h.st⟩
    have hp := (h.lk g (h.lp g (.inr hl))).2
    have h1 : Sane none (St.setWd { s with loop := .idle } (s.grips g).parent
        { s.wds (s.grips g).parent with count := (s.wds (s.grips g).parent).count - 1 }) := h0.setWd' (fun i => count_slot _ _ i) rfl
    dsimp only at he
    split at he
    · cases he; exact h0
    · split at he
      · split at he
        · cases he; exact recreate_sane (h1.weaken _) hp a0 a1
        · split at he
          · cases he
            have hc := closeHandle_sane (h1.weaken (some (s.grips g).parent))
            exact ⟨hc.lk, hc.lp, hc.sl, hc.rd, hc.hd, hc.shut, hc.st⟩
          · cases he
      · cases he; exact h1
  · cases he; exact h

/-- `loopstate` does not panic. -/
theorem loopstate_isSome {s : St} (h : Sane none s) (a0 a1 : Ans) : ∃ s', loopstate s a0 a1 = some s' := by
  unfold loopstate
  split
  · next g hl =>
    dsimp only
    split
    · exact ⟨_, rfl⟩
    · next hz =>
      split
      · split
        · exact ⟨_, rfl⟩
        · next hr =>
          split
          · exact ⟨_, rfl⟩
          · next hu =>
            rcases h.st (s.grips g).parent with e | e | e
            · exact absurd e hz
            · exact absurd e hr
            · exact absurd e hu
      · exact ⟨_, rfl⟩
  · exact ⟨_, rfl⟩

/-- What `loopstate` leaves: fewer entries that wait, or fewer handles, or nothing new in the queue; or it spins. -/
theorem loopstate_falls {s s' : St} (h : Sane none s) {g : Nat} (hl : s.loop = .st g) {a0 a1 : Ans} (he : loopstate s a0 a1 = some s') :
    s'.loop = .idle ∧ (waits s' < waits s ∨ (waits s' = waits s ∧ (opens s' < opens s ∨ (opens s' = opens s ∧ s'.queue = s.queue))) ∨ Spins s s') := by
  have hp := (h.lk g (h.lp g (.inr hl))).2
  unfold loopstate at he
  rw [hl] at he
  dsimp only at he
  have h0 : Sane none { s with loop := .idle } := ⟨h.lk, (by rintro g (h | h) <;> cases h), h.sl, h.rd, h.hd, h.shut, h.st⟩
  have h1 : Sane none (St.setWd { s with loop := .idle } (s.grips g).parent
      { s.wds (s.grips g).parent with count := (s.wds (s.grips g).parent).count - 1 }) := h0.setWd' (fun i => count_slot _ _ i) rfl
  generalize hw : (s.grips g).parent = w at he h1 hp
  have hst1 : ∀ v, ((St.setWd { s with loop := .idle } w { s.wds w with count := (s.wds w).count - 1 }).wds v).state = (s.wds v).state := by
    intro v; simp only [St.setWd, upd_at]; split
    · next e => subst e; rfl
    · rfl
  have hcnt : ((St.setWd { s with loop := .idle } w { s.wds w with count := (s.wds w).count - 1 }).wds w).count = (s.wds w).count - 1 := by
    simp [St.setWd, upd_at]
  have hq1 : (St.setWd { s with loop := .idle } w { s.wds w with count := (s.wds w).count - 1 }).queue = s.queue := rfl
  have hn1 : (St.setWd { s with loop := .idle } w { s.wds w with count := (s.wds w).count - 1 }).nw = s.nw := rfl
  have hl1 : (St.setWd { s with loop := .idle } w { s.wds w with count := (s.wds w).count - 1 }).loop = .idle := rfl
  have ho1 : opens (St.setWd { s with loop := .idle } w { s.wds w with count := (s.wds w).count - 1 }) = opens s := rfl
  generalize hs1 : St.setWd { s with loop := .idle } w { s.wds w with count := (s.wds w).count - 1 } = s1 at he h1 hst1 hcnt hq1 hn1 hl1 ho1
  have hw1 : waits s1 = waits s := waits_same hn1 hst1
  split at he
  · cases he; exact ⟨rfl, .inr (.inl ⟨rfl, .inr ⟨rfl, rfl⟩⟩)⟩
  · split at he
    · next hc0 =>
      split at he
      · next hre =>
        cases he
        have hre1 : (s1.wds w).state = stRewatch := (hst1 w).trans hre
        unfold recreate
        dsimp only
        have hfile : hasFile (s1.wds w).filter = true := by
          unfold hasFile
          refine decide_eq_true fun hz => ?_
          have hb : ((s1.wds w).filter &&& onlyStates).getLsbD 28 = true := by rw [show (s1.wds w).filter &&& onlyStates = stRewatch from hre1]; decide
          rw [BitVec.getLsbD_and, Bool.and_eq_true] at hb
          have hz' := congrArg (BitVec.getLsbD · 28) hz
          simp only [fileFilter, Event.bit_andNot, hb.1] at hz'
          exact absurd hz' (by decide)
        rw [hfile, Bool.not_true]
        obtain ⟨u1, u2, u3, u4⟩ := updateGrip_wds s1 w false false (fileFilter (s1.wds w).filter) a0
        have uf := updateGrip_fails h1 hre1 (fileFilter (s1.wds w).filter) a0
        generalize updateGrip s1 w false false (fileFilter (s1.wds w).filter) a0 = r at u1 u2 u3 u4 uf ⊢
        have hrs : ∀ v, (r.1.wds v).state = (s1.wds v).state := fun v => by unfold Wd.state; rw [u3]
        cases hr2 : r.2 with
        | false =>
          rw [if_neg (by simp)]
          refine ⟨u2.trans hl1, .inr (.inl ⟨(waits_same u1 hrs).trans hw1, .inr ⟨(uf hr2).2.trans ho1, (uf hr2).1.trans hq1⟩⟩)⟩
        | true =>
          rw [if_pos rfl]
          rw [hr2] at u4
          obtain ⟨v1, v2, v3, v4⟩ := updateGrip_wds r.1 w true (!hasDir (r.1.wds w).filter) (dirFilter (r.1.wds w).filter) a1
          generalize updateGrip r.1 w true (!hasDir (r.1.wds w).filter) (dirFilter (r.1.wds w).filter) a1 = q at v1 v2 v3 v4 ⊢
          have hqs : ∀ v, (q.1.wds v).state = (s.wds v).state := fun v => by unfold Wd.state; rw [v3, u3]; exact hst1 v
          cases hq2 : q.2 with
          | false =>
            rw [if_neg (by simp)]
            refine ⟨(v2.trans u2).trans hl1, .inr (.inr ⟨g, hl, (v2.trans u2).trans hl1, ?_, ?_, ?_, ?_⟩)⟩
            · rw [hw]; exact hre
            · rw [hw]
              have : (s.wds w).count = (s.wds w).count - 1 + 1 := by rw [BitVec.sub_add_cancel]
              rw [this, hc0]; rfl
            · rw [hw]; exact (hqs w).trans hre
            · rw [hw, v4, hq2, u4, hcnt, hc0]
              simp
          | true =>
            rw [if_pos rfl]
            refine ⟨(v2.trans u2).trans hl1, .inl ?_⟩
            unfold waits
            show ((List.range q.1.nw).filter _).length < _
            rw [v1, u1, hn1]
            refine filter_drop hp ?_ ?_ ?_
            · exact decide_eq_true hre
            · simp only [St.setWd, upd_at, if_true, decide_eq_false_iff_not]
              intro hz
              exact absurd ((states_clear _).symm.trans hz) (by decide)
            · intro v hv
              simp only [St.setWd, upd_at, if_neg hv]
              rw [hqs v]
      · split at he
        · cases he
          obtain ⟨k1, k2, k3, k4, k5, k6⟩ := closeHandle_rest s1 w
          refine ⟨k6.trans hl1, .inr (.inl ⟨?_, ?_⟩)⟩
          · exact (waits_same (s := s1) k2 (fun v => by show ((closeHandle s1 w).1.wds v).state = _; rw [k3])).trans hw1
          · rcases closeHandle_opens h1 w with e | e
            · right
              exact ⟨(show opens (closeHandle s1 w).1 = opens s by rw [e]; exact ho1), (show (closeHandle s1 w).1.queue = s.queue by rw [e]; exact hq1)⟩
            · left
              exact ho1 ▸ e
        · cases he
    · cases he
      exact ⟨hl1, .inr (.inl ⟨hw1, .inr ⟨ho1, hq1⟩⟩)⟩

/-- With good answers it does not spin. -/
theorem good_second {s : St} {w : Nat} (reset : Bool) (F : Event) : (updateGrip s w true reset (dirFilter F) {}).2 = true := by
  have reg : ∀ (s : St) (g : Nat), (s.grips g).filter = dirFilter F → (register s g {}).2 = true := by
    intro s g hg
    unfold register
    rw [if_pos rfl]
    dsimp only
    rw [if_pos rfl]
    unfold readDirChanges
    simp only [St.setGrip, upd_at, if_true, hg]
    rw [if_pos ⟨trivial, dirFilter_ne F, List.mem_cons_self ..⟩]
  unfold updateGrip
  split
  · rfl
  · split
    · have h := reg (fresh1 s w (dirFilter F)) s.ng (by simp [fresh1, St.setGrip, upd_at])
      have : (newGrip s w (dirFilter F) {}).2 = some s.ng := by rw [newGrip_eq]; dsimp only; rw [if_pos h]
      dsimp only
      rw [this]; rfl
    · next g hg =>
      have h := reg (s.setGrip g { s.grips g with filter := dirFilter F, recursive := (s.wds w).recursive }) g (by simp [St.setGrip, upd_at])
      dsimp only
      rw [if_pos h]

theorem loopstate_good {s s' : St} (h : Sane none s) {g : Nat} (hl : s.loop = .st g) (he : loopstate s {} {} = some s') : ¬ Spins s s' := by
  rintro ⟨g', hl', _, hre, hc, hre', hc'⟩
  rw [hl] at hl'; cases hl'
  unfold loopstate at he
  rw [hl] at he
  dsimp only at he
  rw [if_neg (by rw [show _ &&& onlyStates = _ from hre]; decide), if_pos (by rw [hc]; rfl), if_pos hre] at he
  cases he
  revert hre' hc'
  generalize hw : (s.grips g).parent = w at hre hc
  generalize hs1 : St.setWd { s with loop := .idle } w { s.wds w with count := (s.wds w).count - 1 } = s1
  have hc1 : (s1.wds w).count = 0 := by subst hs1; simp [St.setWd, upd_at, hc]
  unfold recreate
  dsimp only
  obtain ⟨u1, u2, u3, u4⟩ := updateGrip_wds s1 w false (!hasFile (s1.wds w).filter) (fileFilter (s1.wds w).filter) {}
  generalize updateGrip s1 w false (!hasFile (s1.wds w).filter) (fileFilter (s1.wds w).filter) {} = r at u1 u2 u3 u4 ⊢
  intro hre' hc'
  cases hr2 : r.2 with
  | false =>
    rw [hr2, if_neg (by simp)] at hc'
    rw [u4, hr2, if_neg (by simp)] at hc'
    exact hc' hc1
  | true =>
    rw [hr2, if_pos rfl, good_second, if_pos rfl] at hre'
    simp only [St.setWd, upd_at, if_true] at hre'
    exact absurd ((states_clear _).symm.trans hre') (by decide)
end Dcw
end Verif
