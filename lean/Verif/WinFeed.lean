/-
The Windows watcher: the handles of a watched directory, through the steps of its goroutine and of calls for other directories.
-/
import Verif.PropsReaddcw5

namespace Verif
namespace Dcw
open Platform (readdcw)

/-! ### What a step leaves -/

/-- Grips keep path and entry. -/
def Stable (s s' : St) : Prop := s.ng ≤ s'.ng ∧ ∀ g < s.ng, (s'.grips g).path = (s.grips g).path ∧ (s'.grips g).parent = (s.grips g).parent

theorem Stable.same {s s' : St} (h : s'.grips = s.grips) (hn : s'.ng = s.ng) : Stable s s' :=
  ⟨by rw [hn]; exact Nat.le_refl _, fun g _ => by rw [h]; exact ⟨rfl, rfl⟩⟩

theorem Stable.trans {s s' s'' : St} (h : Stable s s') (h' : Stable s' s'') : Stable s s'' :=
  ⟨Nat.le_trans h.1 h'.1, fun g hg => by
    obtain ⟨a, b⟩ := h.2 g hg
    obtain ⟨c, d⟩ := h'.2 g (Nat.lt_of_lt_of_le hg h.1)
    exact ⟨c.trans a, d.trans b⟩⟩

/-- Grips keep path and entry, and the queue is extended. -/
def Ext (s s' : St) : Prop := Stable s s' ∧ s.queue <+: s'.queue

theorem Ext.same {s s' : St} (h : s'.grips = s.grips) (hn : s'.ng = s.ng) (hq : s'.queue = s.queue) : Ext s s' := ⟨.same h hn, hq ▸ List.prefix_rfl⟩

theorem Ext.rfl {s : St} : Ext s s := .same (Eq.refl _) (Eq.refl _) (Eq.refl _)

theorem Ext.trans {s s' s'' : St} (h : Ext s s') (h' : Ext s' s'') : Ext s s'' := ⟨h.1.trans h'.1, h.2.trans h'.2⟩

theorem Ext.setGrip {s : St} {g : Nat} {v : Grip} (hp : v.path = (s.grips g).path) (hw : v.parent = (s.grips g).parent) : Ext s (s.setGrip g v) := by
  refine ⟨⟨Nat.le_refl _, fun x _ => ?_⟩, List.prefix_rfl⟩
  simp only [St.setGrip]
  by_cases e : x = g
  · subst e; rw [upd_same]; exact ⟨hp, hw⟩
  · rw [upd_ne _ _ e]; exact ⟨Eq.refl _, Eq.refl _⟩

theorem Ext.setWd {s : St} {w : Nat} {v : Wd} : Ext s (s.setWd w v) := .same (Eq.refl _) (Eq.refl _) (Eq.refl _)

theorem readDirChanges_same (s : St) (g : Nat) (ok : Bool) : (readDirChanges s g ok).1.grips = s.grips ∧ (readDirChanges s g ok).1.ng = s.ng ∧
    (readDirChanges s g ok).1.queue = s.queue := by
  unfold readDirChanges
  split
  · exact ⟨Eq.refl _, Eq.refl _, Eq.refl _⟩
  · split <;> exact ⟨Eq.refl _, Eq.refl _, Eq.refl _⟩

theorem readDirChanges_ext (s : St) (g : Nat) (ok : Bool) : Ext s (readDirChanges s g ok).1 := by
  obtain ⟨a, b, c⟩ := readDirChanges_same s g ok
  exact .same a b c

theorem register_ext (s : St) (g : Nat) (a : Ans) : Ext s (register s g a).1 := by
  unfold register
  split
  · dsimp only
    have h1 : Ext s { s.setGrip g { s.grips g with handle := some s.nh } with nh := s.nh + 1 } :=
      (Ext.setGrip (s := s) (g := g) (v := { s.grips g with handle := some s.nh }) (Eq.refl _) (Eq.refl _)).trans (.same (Eq.refl _) (Eq.refl _) (Eq.refl _))
    split
    · refine Ext.trans ?_ (readDirChanges_ext _ _ _)
      exact h1.trans (.same (Eq.refl _) (Eq.refl _) (Eq.refl _))
    · exact h1
  · exact .setGrip (Eq.refl _) (Eq.refl _)

theorem newGrip_ext (s : St) (w : Nat) (filter : Event) (a : Ans) : Ext s (newGrip s w filter a).1 := by
  unfold newGrip
  dsimp only
  have h1 : Ext s { s.setGrip s.ng { filter := filter, recursive := (s.wds w).recursive, path := (s.wds w).path, parent := w } with ng := s.ng + 1 } := by
    refine ⟨⟨Nat.le_succ _, fun x hx => ?_⟩, List.prefix_rfl⟩
    simp only [St.setGrip]
    rw [upd_ne _ _ (by omega)]; exact ⟨Eq.refl _, Eq.refl _⟩
  have h2 := h1.trans (register_ext _ s.ng a)
  split
  · refine (h2.trans ?_).trans (.setGrip (Eq.refl _) (Eq.refl _))
    split
    · exact .same (Eq.refl _) (Eq.refl _) (Eq.refl _)
    · exact .rfl
  · exact h2

theorem closeOne_ext (s : St) (o : Option Nat) : Ext s (closeOne s o).1 := by
  unfold closeOne
  split
  · exact .rfl
  · rename_i g
    split
    · exact .rfl
    · rename_i h _
      refine (Ext.setGrip (s := s) (g := g) (v := { s.grips g with handle := none }) (Eq.refl _) (Eq.refl _)).trans ?_
      exact ⟨.same (Eq.refl _) (Eq.refl _), List.prefix_append _ _⟩

theorem closeHandle_ext (s : St) (w : Nat) : Ext s (closeHandle s w).1 := (closeOne_ext _ _).trans (closeOne_ext _ _)

theorem updateGrip_ext (s : St) (w : Nat) (i reset : Bool) (fl : Event) (a : Ans) : Ext s (updateGrip s w i reset fl a).1 := by
  unfold updateGrip
  split
  · exact .setWd
  · split
    · dsimp only
      have h1 := newGrip_ext s w fl a
      split
      · exact (h1.trans .setWd).trans .setWd
      · exact (h1.trans .setWd).trans (closeHandle_ext _ _)
    · rename_i g _
      dsimp only
      have h1 := (Ext.setGrip (s := s) (g := g) (v := { s.grips g with filter := fl, recursive := (s.wds w).recursive }) (Eq.refl _) (Eq.refl _)).trans (register_ext _ g a)
      split
      · exact h1.trans .setWd
      · exact h1.trans (closeHandle_ext _ _)

theorem recreate_ext (s : St) (w : Nat) (a0 a1 : Ans) : Ext s (recreate s w a0 a1).1 := by
  unfold recreate
  dsimp only
  have h1 := updateGrip_ext s w false (!hasFile (s.wds w).filter) (fileFilter (s.wds w).filter) a0
  split
  · have h2 := h1.trans (updateGrip_ext _ w true (!hasDir ((updateGrip s w false (!hasFile (s.wds w).filter) (fileFilter (s.wds w).filter) a0).1.wds w).filter)
      (dirFilter ((updateGrip s w false (!hasFile (s.wds w).filter) (fileFilter (s.wds w).filter) a0).1.wds w).filter) a1)
    split
    · exact h2.trans .setWd
    · exact h2
  · exact h1

theorem watch_ext (s : St) (p : Path) (e : Event) (r : Bool) (a0 a1 : Ans) : Ext s (watch s p e r a0 a1).1 := by
  unfold watch
  split
  · split
    · exact .setWd
    · dsimp only
      have h1 : Ext s (recreate { s.setWd s.nw { filter := e, recursive := r, path := p } with nw := s.nw + 1 } s.nw a0 a1).1 :=
        by
          refine Ext.trans ?_ (recreate_ext _ _ _ _)
          exact .same (Eq.refl _) (Eq.refl _) (Eq.refl _)
      split
      · exact h1.trans (.same (Eq.refl _) (Eq.refl _) (Eq.refl _))
      · exact h1
  · exact .rfl

theorem rewatch_ext {s s' : St} {p : Path} {old new : Event} {r ok : Bool} (h : rewatch s p old new r = some (s', ok)) : Ext s s' := by
  unfold rewatch at h
  split at h
  · split at h
    · cases h; exact .rfl
    · rename_i w _
      split at h
      · dsimp only at h
        have h1 := (Ext.setWd (s := s) (w := w) (v := { s.wds w with filter := stRewatch ||| new, recursive := r })).trans (closeHandle_ext _ w)
        split at h
        · cases h; exact h1
        · cases h; exact h1.trans .setWd
      · cases h
  · cases h; exact .rfl

theorem unwatch_ext (s : St) (p : Path) (gone : Bool) : Ext s (unwatch s p gone).1 := by
  unfold unwatch
  split
  · exact .rfl
  · rename_i w _
    dsimp only
    split
    · refine ⟨.same (Eq.refl _) (Eq.refl _), ?_⟩
      show s.queue <+: s.queue ++ (s.wds w).g0.toList ++ (s.wds w).g1.toList
      rw [List.append_assoc]
      exact List.prefix_append _ _
    · exact .setWd

theorem again_ext (s : St) (ok : Bool) : Ext s (again s ok) := by
  unfold again
  split
  · obtain ⟨a, b, c⟩ := readDirChanges_same s _ ok
    exact .same a b c
  · exact .rfl

theorem loopstate_ext {s s' : St} {a0 a1 : Ans} (h : loopstate s a0 a1 = some s') : Ext s s' := by
  unfold loopstate at h
  split at h
  · rename_i g hl
    dsimp only at h
    split at h
    · cases h; exact .same (Eq.refl _) (Eq.refl _) (Eq.refl _)
    · have h1 : Ext s ({ s with loop := .idle }.setWd (s.grips g).parent
          { s.wds (s.grips g).parent with count := (s.wds (s.grips g).parent).count - 1 }) := .same (Eq.refl _) (Eq.refl _) (Eq.refl _)
      split at h
      · split at h
        · cases h; exact h1.trans (recreate_ext _ _ _ _)
        · split at h
          · cases h
            exact (h1.trans (closeHandle_ext _ _)).trans (.same (Eq.refl _) (Eq.refl _) (Eq.refl _))
          · cases h
      · cases h; exact h1
  · cases h; exact .rfl

/-- When the last packet of an entry that is rewatched was heard of, its handles are opened again. -/
theorem Inv.reopen {s : St} {f : Path → Option (Event × Bool)} {D : Prop} (hi : Inv s f D) {g : Nat} (hl : s.loop = .st g)
    (hst : (s.wds (s.grips g).parent).filter &&& onlyStates = stRewatch) (hz : (s.wds (s.grips g).parent).count - 1 = 0) :
    ∃ s2, recreate ({ s with loop := .idle }.setWd (s.grips g).parent { s.wds (s.grips g).parent with count := 0 }) (s.grips g).parent {} {} = (s2, true) ∧
      Rec ({ s with loop := .idle }.setWd (s.grips g).parent { s.wds (s.grips g).parent with count := 0 }) s2 (s.grips g).parent := by
  have hpos : 0 < pend s g := by unfold pend; rw [hl]; simp
  obtain ⟨hw, hgs⟩ := hi.base.own g (.inl hpos)
  generalize hpw : (s.grips g).parent = w at *
  have ht0 : ∀ x, tok { s with loop := .idle } x = tok s x := by intro x; unfold tok; rw [hl]; simp
  have hp0 : ∀ x, x ≠ g → pend s x = pend { s with loop := .idle } x := by
    intro x hx
    have : ¬ g = x := fun e => hx e.symm
    unfold pend; rw [ht0, hl]; simp [this]
  have hpg : pend s g = pend { s with loop := .idle } g + 1 := by
    unfold pend; rw [ht0, hl]; simp
  have hb0 : Base { s with loop := .idle } :=
    hi.base.move rfl rfl rfl rfl rfl rfl rfl hi.base.rd (fun x => by rw [ht0]; exact hi.base.tok x) (fun x hx => by
      by_cases e : x = g
      · subst e; exact hpos
      · rw [hp0 x e]; exact hx)
  have hsum : sump s w = sump { s with loop := .idle } w + 1 := sum_dec (hi.base.nd w hw) hgs hpg hp0
  have hbase : Base ({ s with loop := .idle }.setWd w { s.wds w with count := 0 }) := Base.setWd hb0 w _ rfl rfl
  cases hi.cls w hw with
  | up F e h1 h2 h3 h4 => rw [h3, valid_states h4] at hst; exact absurd hst (by decide)
  | un F h1 h2 h3 => rw [h3] at hst; exact absurd hst (by decide)
  | gone h1 h2 h3 =>
    rcases h3 with h3 | ⟨h3, _⟩ <;> rw [h3] at hst <;> exact absurd hst (by decide)
  | re e h1 h2 h3 h4 h5 h6 h7 h8 =>
    have hcn : (s.wds w).count.toNat = sump { s with loop := .idle } w + 1 := h7.trans hsum
    have hc1 : ((s.wds w).count - 1).toNat = sump { s with loop := .idle } w := by
      have hlt := (s.wds w).count.isLt
      rw [BitVec.toNat_sub]
      simp
      omega
    have hs0 : sump { s with loop := .idle } w = 0 := by rw [← hc1, hz]; rfl
    have hpz := sum_zero hs0
    exact recreate_ok hbase (w := w) hw (by simp only [St.setWd]; rw [upd_same])
      (by
        simp only [St.setWd]; rw [upd_same]
        intro x hx
        exact ⟨hpz x hx, h6 x hx⟩)
      (by
        simp only [St.setWd]; rw [upd_same]
        intro _
        simp only [h3]
        rw [encode_file_st, rewatch_clear h4]
        exact (C58_accepted e h4).2.2.1 h5)

/-- What `loopstate` may do: nothing but count; open the handles of an entry again; remove an entry. -/
inductive Loops (s : St) (f : Path → Option (Event × Bool)) (s' : St) : Prop
  | still (h1 : s'.grips = s.grips) (h2 : s'.ng = s.ng) (h3 : ∀ w, (s'.wds w).slots = (s.wds w).slots) (h4 : s'.m = s.m) (h5 : ∀ g, tok s' g = tok s g)
      (h6 : s'.queue = s.queue)
  | reopen (w : Nat) (s1 : St) (hw : w < s.nw) (hm : s.m.get? (s.wds w).path = some w) (h1 : s1.grips = s.grips) (h2 : s1.ng = s.ng)
      (h3 : ∀ w, (s1.wds w).slots = (s.wds w).slots) (h4 : s1.m = s.m) (h5 : ∀ g, tok s1 g = tok s g) (h6 : s1.queue = s.queue)
      (h7 : (s1.wds w).path = (s.wds w).path) (h8 : (s1.wds w).filter = (s.wds w).filter) (h9 : s1.nw = s.nw) (hb : Base s1) (R : Rec s1 s' w)
  | drop (w : Nat) (hw : w < s.nw) (hf : f (s.wds w).path = none) (h1 : ∀ g, (s'.grips g).path = (s.grips g).path ∧ (s'.grips g).parent = (s.grips g).parent ∧
      (s'.grips g).filter = (s.grips g).filter) (h2 : s'.ng = s.ng) (h3 : ∀ w, (s'.wds w).slots = (s.wds w).slots)
      (h4 : ∀ p, p ≠ (s.wds w).path → s'.m.get? p = s.m.get? p) (h5 : ∀ g, tok s' g = tok s g)
      (h6 : s'.m.get? (s.wds w).path = none)

theorem Inv.loops {s s' : St} {f : Path → Option (Event × Bool)} {D : Prop} (hi : Inv s f D) (h : loopstate s {} {} = some s') : Loops s f s' := by
  have hre := @Inv.reopen s f D hi
  unfold loopstate at h
  split at h
  · rename_i g hl
    have hre := @hre g hl
    simp only at h
    have hpos : 0 < pend s g := by unfold pend; rw [hl]; simp
    obtain ⟨hw, hgs⟩ := hi.base.own g (.inl hpos)
    obtain ⟨-, -, hpath, -⟩ := hi.base.slot _ hw g hgs
    generalize hpw : (s.grips g).parent = w at *
    have ht0 : ∀ x, tok { s with loop := .idle } x = tok s x := by intro x; unfold tok; rw [hl]; simp
    have hsl : ∀ c w', (({ s with loop := .idle }.setWd w { s.wds w with count := c }).wds w').slots = (s.wds w').slots := by
      intro c w'
      simp only [St.setWd]
      by_cases e : w' = w
      · subst e; rw [upd_same]; rfl
      · rw [upd_ne _ _ e]
    by_cases h0 : (s.wds w).filter &&& onlyStates = 0
    · rw [if_pos h0] at h
      cases h
      exact .still rfl rfl (fun _ => rfl) rfl ht0 rfl
    · rw [if_neg h0] at h
      by_cases hz : (s.wds w).count - 1 = 0
      · rw [if_pos hz, hz] at h
        by_cases h1 : (s.wds w).filter &&& onlyStates = stRewatch
        · rw [if_pos h1] at h
          obtain ⟨s2, hr, R⟩ := hre h1 hz
          rw [hr] at h
          cases h
          have hm : s.m.get? (s.wds w).path = some w := by
            cases hi.cls w hw with
            | up F e h1 => exact h1
            | re e h1 => exact h1
            | un F h1 => exact h1
            | gone a b c =>
              rcases c with c | ⟨c, _⟩ <;> rw [c] at h1 <;> exact absurd h1 (by decide)
          have hb0 : Base { s with loop := .idle } :=
            hi.base.move rfl rfl rfl rfl rfl rfl rfl hi.base.rd (fun x => by rw [ht0]; exact hi.base.tok x) (fun x hx => by
              unfold pend at hx ⊢
              rw [ht0] at hx
              simp at hx
              omega)
          refine .reopen w ({ s with loop := .idle }.setWd w { s.wds w with count := 0 }) hw hm rfl rfl (hsl 0) rfl ht0 rfl ?_ ?_ rfl (Base.setWd hb0 w { s.wds w with count := 0 } rfl rfl) R
          · simp only [St.setWd]; rw [upd_same]
          · simp only [St.setWd]; rw [upd_same]
        · rw [if_neg h1] at h
          by_cases h2 : (s.wds w).filter &&& onlyStates = stUnwatch
          · rw [if_pos h2] at h
            have hb0 : Base { s with loop := .idle } :=
              hi.base.move rfl rfl rfl rfl rfl rfl rfl hi.base.rd (fun x => by rw [ht0]; exact hi.base.tok x) (fun x hx => by
                unfold pend at hx ⊢
                rw [ht0] at hx
                simp at hx
                omega)
            have hbase : Base ({ s with loop := .idle }.setWd w { s.wds w with count := 0 }) := Base.setWd hb0 w _ rfl rfl
            obtain ⟨b1, b2, -, b4, b5, b6, b7, b8, b9⟩ := closeHandle_base hbase (w := w) hw
            cases h
            have hfn : f (s.wds w).path = none := by
              cases hi.cls w hw with
              | up F e a b c d => rw [c, valid_states d] at h2; exact absurd h2 (by decide)
              | re e a b c d => rw [c, rewatch_states d] at h2; exact absurd h2 (by decide)
              | un F a b => exact b
              | gone a b c d =>
                rcases c with c | ⟨_, c | c⟩
                · rw [c] at h2; exact absurd h2 (by decide)
                · rw [c.1] at hz; exact absurd hz (by decide)
                · have hlt := (s.wds w).count.isLt
                  have h3 : (s.wds w).count = 1 := by
                    generalize (s.wds w).count = k at hz
                    have := congrArg (fun x : BitVec 8 => x + 1) hz
                    simp only [BitVec.sub_add_cancel] at this
                    exact this
                  rw [h3] at c
                  exfalso
                  have : (1 : BitVec 8).toNat = 1 := rfl
                  omega
            refine .drop w hw hfn ?_ b6 ?_ ?_ ?_ ?_
            · intro x
              simp only
              rw [b9]
              split <;> exact ⟨rfl, rfl, rfl⟩
            · intro w'
              simp only
              rw [b4]
              exact hsl 0 w'
            · intro p hp
              simp only
              rw [b7, GoMap.get?_del, if_neg]
              · rfl
              · rw [hpath]; exact fun e => hp e.symm
            · intro x
              exact (b2 x).trans (ht0 x)
            · simp only
              rw [b7, GoMap.get?_del, if_pos hpath]
          · rw [if_neg h2] at h; cases h
      · rw [if_neg hz] at h
        cases h
        exact .still rfl rfl (hsl _) rfl ht0 rfl
  · cases h
    exact .still rfl rfl (fun _ => rfl) rfl (fun _ => rfl) rfl

/-! ### The handles of a directory -/

/-- The entry `w` of `tp` reports `G`: the filters of its handles have it, and packets of other entries for `tp` are not on their way. -/
structure Feeds (s : St) (tp : Path) (w : Nat) (G : Event) : Prop where
  tab : s.m.get? tp = some w
  flt : ∀ g ∈ (s.wds w).slots, G ⊑ (s.grips g).filter
  mine : ∀ g, 0 < tok s g → (s.grips g).path = tp → (s.grips g).parent = w

theorem Feeds.same {s s' : St} {tp : Path} {w : Nat} {G : Event} (h : Feeds s tp w G)
    (hg : ∀ g, (s'.grips g).path = (s.grips g).path ∧ (s'.grips g).parent = (s.grips g).parent ∧ (s'.grips g).filter = (s.grips g).filter)
    (hs : (s'.wds w).slots = (s.wds w).slots) (hm : s'.m.get? tp = s.m.get? tp) (ht : ∀ g, tok s' g ≤ tok s g) : Feeds s' tp w G where
  tab := hm.trans h.tab
  flt := by intro g hg'; rw [hs] at hg'; rw [(hg g).2.2]; exact h.flt g hg'
  mine := by
    intro g h1 h2
    rw [(hg g).1] at h2
    rw [(hg g).2.1]
    exact h.mine g (Nat.lt_of_lt_of_le h1 (ht g)) h2

theorem filt_sub {G F : Event} (hG : G &&& dirName = 0) (h : G ⊑ F) (i : Bool) : G ⊑ filt i F := by
  intro j hj
  have h1 := h j hj
  cases i
  · simp only [filt, fileFilter, Event.bit_andNot, h1]
    have := Event.bext.1 hG j
    rw [BitVec.getLsbD_and, hj] at this
    simp at this
    rw [this]; rfl
  · simp only [filt, dirFilter, BitVec.getLsbD_or, h1]; rfl

theorem up_flt {s : St} {w : Nat} {F G : Event} (hu : Up s w F) (hG : G &&& dirName = 0) (h : G ⊑ F) : ∀ g ∈ (s.wds w).slots, G ⊑ (s.grips g).filter := by
  intro g hg
  obtain ⟨i, k, -, -, -, hf, -⟩ := hu.handle hg
  rw [hf]
  exact filt_sub hG h i

/-- Opening the handles of an entry. -/
theorem Feeds.reopen {s s' : St} {tp : Path} {w w' : Nat} {G : Event} (h : Feeds s tp w G) (hb : Base s) (R : Rec s s' w') (hw : w' < s.nw)
    (hG : G &&& dirName = 0) (hF : w' = w → G ⊑ (s.wds w').filter) (hp : w' ≠ w → (s.wds w').path ≠ tp) (hwn : w < s.nw) : Feeds s' tp w G where
  tab := by rw [R.m]; exact h.tab
  flt := by
    by_cases e : w' = w
    · subst e
      exact up_flt R.up hG (hF rfl)
    · intro g hg
      rw [R.wds w (Ne.symm e)] at hg
      have hs := hb.slot w hwn g hg
      have := R.rest g hs.1 (fun hx => e (slot_parent hb hw hwn hx hg))
      rw [this.1]
      exact h.flt g hg
  mine := by
    intro g h1 h2
    by_cases hx : g ∈ (s.wds w').slots ∨ s.ng ≤ g
    · -- one of the handles
      obtain ⟨o1, o2⟩ := R.base.own g (.inl (Nat.lt_of_lt_of_le h1 (Nat.le_add_right _ _)))
      by_cases e : (s'.grips g).parent = w
      · exact e
      · exfalso
        have hs := R.base.slot _ o1 g o2
        rw [h2] at hs
        by_cases e2 : (s'.grips g).parent = w'
        · rw [e2] at hs e
          rw [R.path] at hs
          exact hp e hs.2.2.1.symm
        · rw [R.wds _ e2] at o2
          rw [R.nw] at o1
          have hs0 := hb.slot _ o1 g o2
          rcases hx with hx | hx
          · exact e2 (slot_parent hb o1 hw o2 hx)
          · omega
    · push Not at hx
      have := R.rest g (by omega) hx.1
      rw [this.2] at h1
      rw [this.1] at h2 ⊢
      exact h.mine g h1 h2

theorem take_tok (s : St) (g : Nat) : tok (take s) g ≤ tok s g := by
  unfold take
  split
  · rename_i g' q hl hq
    split
    · unfold tok
      rw [hl, hq]
      simp only [List.count_cons, Loop.got.injEq, reduceCtorEq, if_false]
      by_cases e : g' = g
      · subst e; simp; omega
      · simp [e]
    · unfold tok
      rw [hl, hq]
      simp only [List.count_cons, reduceCtorEq, if_false]
      omega
  · exact Nat.le_refl _

theorem again_tok (s : St) (g : Nat) : tok (again s true) g ≤ tok s g := by
  unfold again
  split
  · rename_i g' hl
    unfold readDirChanges
    split
    · unfold tok; rw [hl]; simp
    · split
      · unfold tok
        rw [hl]
        simp only [List.countP_append, List.countP_cons, List.countP_nil, Loop.got.injEq, reduceCtorEq, if_false]
        by_cases e : g' = g
        · subst e; simp; omega
        · simp [e]
      · unfold tok; rw [hl]; simp
  · exact Nat.le_refl _

theorem again_same (s : St) : (again s true).grips = s.grips ∧ (again s true).wds = s.wds ∧ (again s true).m = s.m := by
  unfold again
  split
  · unfold readDirChanges
    split
    · exact ⟨rfl, rfl, rfl⟩
    · split <;> exact ⟨rfl, rfl, rfl⟩
  · exact ⟨rfl, rfl, rfl⟩

theorem take_same (s : St) : (take s).grips = s.grips ∧ (take s).ng = s.ng ∧ (take s).wds = s.wds ∧ (take s).m = s.m := by
  unfold take
  split
  · split <;> exact ⟨rfl, rfl, rfl, rfl⟩
  · exact ⟨rfl, rfl, rfl, rfl⟩

theorem CStep.stable {s s' : St} {f : Path → Option (Event × Bool)} {op : Op} (h : CStep f s op s') : Stable s s' := by
  cases h with
  | complete r hr => exact .same rfl rfl
  | take => exact .same (take_same s).1 (take_same s).2.1
  | again => exact (again_ext _ _).1
  | state _ hs => exact (loopstate_ext hs).1
  | watch p e isrec a0 a1 => exact (watch_ext _ _ _ _ _ _).1
  | rewatch p old new isrec _ ok hl hn hr hrw => exact (rewatch_ext hrw).1
  | unwatch p hl => exact (unwatch_ext _ _ _).1

/-- A directory that is watched before and after a step keeps its entry, and the handles of the entry report what the watch has before and after. -/
theorem CStep.feeds {s s' : St} {f : Path → Option (Event × Bool)} {D : Prop} {op : Op} (hi : Inv s f D) (h : CStep f s op s') {tp : Path} {w : Nat}
    {G e0 e1 : Event} {r0 r1 : Bool} (hG : G &&& dirName = 0) (hf0 : f tp = some (e0, r0)) (h0 : G ⊑ e0)
    (hf1 : askedStep f op tp = some (e1, r1)) (hF : Feeds s tp w G) : Feeds s' tp w G := by
  cases h with
  | complete r hr => exact hF.same (fun _ => ⟨rfl, rfl, rfl⟩) rfl rfl fun g => Nat.le_of_eq (complete_tok hr g)
  | take =>
    obtain ⟨h1, h2, h3, h4⟩ := take_same s
    exact hF.same (fun _ => by rw [h1]; exact ⟨rfl, rfl, rfl⟩) (by rw [h3]) (by rw [h4]) (take_tok s)
  | again =>
    obtain ⟨h1, h3, h4⟩ := again_same s
    exact hF.same (fun _ => by rw [h1]; exact ⟨rfl, rfl, rfl⟩) (by rw [h3]) (by rw [h4]) (again_tok s)
  | state _ hs =>
    cases hi.loops hs with
    | still h1 h2 h3 h4 h5 h6 =>
      exact hF.same (fun _ => by rw [h1]; exact ⟨rfl, rfl, rfl⟩) (h3 _) (by rw [h4]) fun g => Nat.le_of_eq (h5 g)
    | drop w hw hfn h1 h2 h3 h4 h5 _ =>
      refine hF.same h1 (h3 _) (h4 _ ?_) fun g => Nat.le_of_eq (h5 g)
      rintro rfl
      rw [hfn] at hf0
      cases hf0
    | reopen w' s1 hw hm h1 h2 h3 h4 h5 h6 h7 h8 h9 hb R =>
      have hF1 : Feeds s1 tp w G := hF.same (fun _ => by rw [h1]; exact ⟨rfl, rfl, rfl⟩) (h3 _) (by rw [h4]) fun g => Nat.le_of_eq (h5 g)
      obtain ⟨t1, t2⟩ := hi.base.tab _ _ hF.tab
      refine hF1.reopen hb R (by rw [h9]; exact hw) hG ?_ ?_ (by rw [h9]; exact t1)
      · rintro rfl
        rw [h8]
        obtain ⟨w2, -, a1, -, -, -, hc⟩ := hi.ask hf0
        rw [hF.tab] at a1
        cases a1
        rcases hc with ⟨b, _⟩ | ⟨b, _⟩
        · rw [b]; exact h0
        · rw [b]; exact h0.trans (Event.sub_or_right _ _)
      · intro hne e
        rw [h7] at e
        rw [e, hF.tab] at hm
        exact hne (Option.some.inj hm).symm
  | watch p e isrec a0 a1 hl hm h0' h1' =>
    obtain ⟨hfp, hne, hv⟩ := hl
    have hptp : p ≠ tp := by rintro rfl; rw [hfp] at hf0; cases hf0
    obtain ⟨t1, t2⟩ := hi.base.tab _ _ hF.tab
    unfold Dcw.watch
    rw [if_pos hv, hm]
    simp only
    generalize hs1 : { s.setWd s.nw { filter := e, recursive := isrec, path := p } with nw := s.nw + 1 } = s1
    have hb1 : Base s1 := by rw [← hs1]; exact Base.newWd hi.base _ rfl
    have hFw : s1.wds s.nw = { filter := e, recursive := isrec, path := p } := by
      rw [← hs1]; simp only [St.setWd]; rw [upd_same]
    have hFw' : ∀ w', w' < s.nw → s1.wds w' = s.wds w' := by
      intro w' h; rw [← hs1]; simp only [St.setWd]; rw [upd_ne _ _ (by omega)]
    have hn1 : s1.nw = s.nw + 1 := by rw [← hs1]
    have hslot : (s1.wds s.nw).slots = [] := by rw [hFw]; rfl
    have hF1 : Feeds s1 tp w G := by
      refine hF.same (fun _ => by rw [← hs1]; exact ⟨rfl, rfl, rfl⟩) (by rw [hFw' w t1]) (by rw [← hs1]; rfl) fun g => ?_
      rw [← hs1]; exact Nat.le_refl _
    rcases recreate_calm hb1 (by omega) (by rw [hFw]) hslot (by rw [hFw]; exact (C58_accepted e hv).2.2.1) h0' h1' with
      ⟨s2, hr, R⟩ | ⟨s2, hr, R⟩
    · rw [hr]
      simp only [if_true]
      have h2 := hF1.reopen hb1 R (by omega) hG (by intro e; omega) (by rw [hFw]; exact fun _ => hptp) (by omega)
      refine ⟨?_, h2.flt, h2.mine⟩
      simp only
      rw [GoMap.get?_set, if_neg hptp]
      exact h2.tab
    · rw [hr]
      simp only [Bool.false_eq_true, if_false]
      refine ⟨by rw [R.m]; exact hF1.tab, ?_, ?_⟩
      · intro g hg
        rw [R.wds w (by omega)] at hg
        have hs := hb1.slot w (by omega) g hg
        rw [(R.rest g hs.1 (by rw [hslot]; simp)).1]
        exact hF1.flt g hg
      · intro g g1 g2
        by_cases hx : g < s1.ng
        · have := R.rest g hx (by rw [hslot]; simp)
          rw [this.2] at g1
          rw [this.1] at g2 ⊢
          exact hF1.mine g g1 g2
        · exfalso
          obtain ⟨o1, o2⟩ := R.base.own g (.inl (Nat.lt_of_lt_of_le g1 (Nat.le_add_right _ _)))
          have hs := R.base.slot _ o1 g o2
          by_cases e2 : (s2.grips g).parent = s.nw
          · rw [e2, R.path, hFw] at hs
            rw [g2] at hs
            exact hptp hs.2.2.1.symm
          · rw [R.wds _ e2] at o2
            rw [R.nw] at o1
            exact hx (hb1.slot _ o1 g o2).1
  | rewatch p old new isrec _ ok hl hn hr hrw =>
    unfold Dcw.rewatch at hrw
    obtain ⟨hfp, hne, hv⟩ := hl
    rw [if_pos hv] at hrw
    cases hns : nonState s p with
    | none => rw [hns] at hrw; cases hrw; exact hF
    | some w' =>
      rw [hns] at hrw
      simp only at hrw
      split at hrw
      · have hw' : w' < s.nw := by
          unfold nonState at hns
          cases hm : s.m.get? p with
          | none => rw [hm] at hns; cases hns
          | some w2 =>
            rw [hm] at hns
            simp only at hns
            split at hns
            · cases hns
            · cases hns; exact (hi.base.tab _ _ hm).1
        generalize hs1 : s.setWd w' { s.wds w' with filter := stRewatch ||| new, recursive := isrec } = s1 at hrw
        have hb1 : Base s1 := by rw [← hs1]; exact Base.setWd hi.base w' _ rfl rfl
        obtain ⟨b1, b2, b3, b4, b5, b6, b7, b8, b9⟩ := closeHandle_base hb1 (w := w') (by rw [← hs1]; exact hw')
        rw [if_pos b3] at hrw
        cases hrw
        refine hF.same ?_ ?_ ?_ ?_
        · intro g
          rw [b9]
          have : s1.grips = s.grips := by rw [← hs1]; rfl
          split <;> rw [this] <;> exact ⟨rfl, rfl, rfl⟩
        · rw [b4, ← hs1]
          simp only [St.setWd]
          by_cases e : w = w'
          · subst e; rw [upd_same]; rfl
          · rw [upd_ne _ _ e]
        · rw [b7, ← hs1]; rfl
        · intro g
          rw [b2, ← hs1]; exact Nat.le_refl _
      · cases hrw
  | unwatch p hl =>
    unfold Dcw.unwatch
    cases hns : nonState s p with
    | none => exact hF
    | some w' =>
      simp only [Bool.false_eq_true, if_false]
      refine hF.same (fun _ => ⟨rfl, rfl, rfl⟩) ?_ rfl fun _ => Nat.le_refl _
      simp only [St.setWd]
      by_cases e : w = w'
      · subst e; rw [upd_same]; rfl
      · rw [upd_ne _ _ e]

/-- When nothing is on its way, the handles of a watched directory report what its watch has. -/
theorem feeds_quiet {ops : List Op} {s : St} (h : CHist ops s) (hq : Quiet s) {tp : Path} {G e : Event} {r : Bool} (hG : G &&& dirName = 0)
    (ha : asked ops tp = some (e, r)) (he : G ⊑ e) : ∃ w, Feeds s tp w G ∧ ∀ g ∈ (s.wds w).slots, ∃ rd ∈ s.reads, rd.g = g := by
  obtain ⟨-, w, F, hm, hF, hu⟩ := ask_up h hq ha
  have hGF : G ⊑ F := by
    intro j hj
    have := he j hj
    rw [← hF, Event.bit_andNot] at this
    revert this; cases F.getLsbD j <;> simp
  refine ⟨w, ⟨hm, up_flt hu hG hGF, ?_⟩, ?_⟩
  · intro g h1 h2
    have h3 : 0 < inUse s g := by
      rw [← quiet_pend hq]; exact Nat.lt_of_lt_of_le h1 (Nat.le_add_right _ _)
    unfold inUse at h3
    obtain ⟨rd, h4, h5⟩ := List.countP_pos_iff.1 h3
    simp only [decide_eq_true_eq] at h5
    subst h5
    have h6 := (reads_of h.inv hm h4).1 h2
    exact (h.inv.base.slot w (h.inv.base.tab _ _ hm).1 _ h6).2.1
  · intro g hg
    obtain ⟨_, _, _, _, _, _, _, ht⟩ := hu.handle hg
    have h3 : 0 < inUse s g := by
      rw [← quiet_pend hq]; unfold pend; omega
    unfold inUse at h3
    obtain ⟨rd, h4, h5⟩ := List.countP_pos_iff.1 h3
    exact ⟨rd, h4, by simpa using h5⟩

/-- What is read belongs to an entry of the table. -/
theorem Inv.read_tab {s : St} {f : Path → Option (Event × Bool)} {D : Prop} (hi : Inv s f D) {r : Read} (hr : r ∈ s.reads) :
    s.m.get? (s.grips r.g).path = some (s.grips r.g).parent := by
  have hh := (hi.base.rd r hr).1
  have ho := hi.base.own r.g (.inr (by rw [hh]; simp))
  have hs := hi.base.slot _ ho.1 r.g ho.2
  rw [hs.2.2.1]
  cases hi.cls _ ho.1 with
  | up F e h1 => exact h1
  | re e h1 => exact h1
  | un F h1 => exact h1
  | gone _ hd => rw [hd _ ho.2] at hh; cases hh

/-- A path without an entry that is not asked for gets none. -/
theorem CStep.clear {s s' : St} {f : Path → Option (Event × Bool)} {D : Prop} {op : Op} (hi : Inv s f D) (h : CStep f s op s') {t : Path}
    (hm : s.m.get? t = none) (hf : askedStep f op t = none) : s'.m.get? t = none := by
  cases h with
  | complete r hr => exact hm
  | take => rw [(take_same s).2.2.2]; exact hm
  | again => rw [(again_same s).2.2]; exact hm
  | state _ hs =>
    cases hi.loops hs with
    | still h1 h2 h3 h4 h5 h6 => rw [h4]; exact hm
    | drop w hw hfn h1 h2 h3 h4 h5 h6 =>
      by_cases e : t = (s.wds w).path
      · rw [e]; exact h6
      · rw [h4 t e]; exact hm
    | reopen w' s1 hw hm' h1 h2 h3 h4 h5 h6 h7 h8 h9 hb R => rw [R.m, h4]; exact hm
  | watch p e isrec a0 a1 hl hm' h0' h1' =>
    obtain ⟨hfp, hne, hv⟩ := hl
    revert hf
    unfold Dcw.watch
    rw [if_pos hv, hm']
    simp only
    generalize hs1 : { s.setWd s.nw { filter := e, recursive := isrec, path := p } with nw := s.nw + 1 } = s1
    have hb1 : Base s1 := by rw [← hs1]; exact Base.newWd hi.base _ rfl
    have hFw : s1.wds s.nw = { filter := e, recursive := isrec, path := p } := by
      rw [← hs1]; simp only [St.setWd]; rw [upd_same]
    have hm1 : s1.m = s.m := by rw [← hs1]; rfl
    have hn1 : s1.nw = s.nw + 1 := by rw [← hs1]
    have hslot : (s1.wds s.nw).slots = [] := by rw [hFw]; rfl
    rcases recreate_calm hb1 (by omega) (by rw [hFw]) hslot (by rw [hFw]; exact (C58_accepted e hv).2.2.1) h0' h1' with
      ⟨s2, hr, R⟩ | ⟨s2, hr, R⟩
    · rw [hr]
      simp only [if_true, askedStep]
      intro hf
      by_cases e' : t = p
      · rw [if_pos e'] at hf; cases hf
      · rw [GoMap.get?_set, if_neg (Ne.symm e'), R.m, hm1]; exact hm
    · rw [hr]
      simp only [Bool.false_eq_true, if_false]
      intro _
      rw [R.m, hm1]; exact hm
  | rewatch p old new isrec _ ok hl hn hr hrw =>
    unfold Dcw.rewatch at hrw
    obtain ⟨hfp, hne, hv⟩ := hl
    rw [if_pos hv] at hrw
    cases hns : nonState s p with
    | none => rw [hns] at hrw; cases hrw; exact hm
    | some w' =>
      rw [hns] at hrw
      simp only at hrw
      split at hrw
      · have hw' : w' < s.nw := by
          unfold nonState at hns
          cases hm : s.m.get? p with
          | none => rw [hm] at hns; cases hns
          | some w2 =>
            rw [hm] at hns
            simp only at hns
            split at hns
            · cases hns
            · cases hns; exact (hi.base.tab _ _ hm).1
        generalize hs1 : s.setWd w' { s.wds w' with filter := stRewatch ||| new, recursive := isrec } = s1 at hrw
        have hb1 : Base s1 := by rw [← hs1]; exact Base.setWd hi.base w' _ rfl rfl
        obtain ⟨b1, b2, b3, b4, b5, b6, b7, b8, b9⟩ := closeHandle_base hb1 (w := w') (by rw [← hs1]; exact hw')
        rw [if_pos b3] at hrw
        cases hrw
        rw [b7, ← hs1]; exact hm
      · cases hrw
  | unwatch p hl =>
    unfold Dcw.unwatch
    cases hns : nonState s p with
    | none => exact hm
    | some w' => exact hm

end Dcw
end Verif
