/-
The whole program on macOS: the stream that carries a path.
-/
import Verif.MacInv

namespace Verif
namespace Mac
open Rec (ROp SafeHist SafeSteps Safe rregOf Carries Rests Spares Named)
open Spec (Reg copies wants wantsBelow)

/-! ### Registrations -/

theorem calm_reg {base : List ROp} {c : Nat} {tp : Path} {ops : List ROp} (hc : ∀ op ∈ ops, Spares c tp op) (q : Path) :
    rregOf (base ++ ops) c q = rregOf base c q := by
  induction ops generalizing base with
  | nil => rw [List.append_nil]
  | cons op ops ih =>
    rw [show base ++ op :: ops = (base ++ [op]) ++ ops by simp, ih fun o ho => hc o (by simp [ho]), Rec.rregOf_snoc]
    have := hc op (by simp)
    cases op with
    | watch p isrec d e res =>
      simp only [Rec.rregStep]
      split
      · simp only [Reg.watch]
        rw [if_neg]
        rintro ⟨h, _⟩
        exact this.1 h.symm
      · rfl
    | stop d =>
      simp only [Rec.rregStep, Reg.stop]
      rw [if_neg fun h => this h.symm]
    | shuffle => rfl

/-- What makes `copies` positive. -/
theorem copies_inv {r : Reg} {c : Nat} {F : Event} {x : Path} (h : 0 < copies r c F x) :
    ∃ q E g, r c q = some (E, g) ∧ F ⊑ E ∧ (x = q ∨ x.dropLast = q ∨ (g = true ∧ q <+: x.dropLast)) := by
  have hw : ∀ q, wants r c F q = true → ∃ E g, r c q = some (E, g) ∧ F ⊑ E := by
    intro q hq
    unfold wants at hq
    rcases hx : r c q with _ | ⟨E, g⟩
    · rw [hx] at hq; cases hq
    · rw [hx] at hq; exact ⟨E, g, rfl, by simpa using hq⟩
  unfold copies at h
  by_cases h1 : wants r c F x = true
  · obtain ⟨E, g, h2, h3⟩ := hw _ h1; exact ⟨x, E, g, h2, h3, .inl rfl⟩
  by_cases h4 : wants r c F x.dropLast = true
  · obtain ⟨E, g, h2, h3⟩ := hw _ h4; exact ⟨_, E, g, h2, h3, .inr (.inl rfl)⟩
  rw [if_neg h1, if_neg h4] at h
  obtain ⟨i, _, hi⟩ := List.countP_pos_iff.1 (by omega : 0 < (List.range x.dropLast.length).countP (fun i => wantsBelow r c F (x.dropLast.take i)))
  unfold wantsBelow at hi
  rcases hx : r c (x.dropLast.take i) with _ | ⟨E, g⟩
  · rw [hx] at hi; cases hi
  · rw [hx] at hi
    simp only [Bool.and_eq_true, decide_eq_true_eq] at hi
    exact ⟨_, E, g, hx, hi.2, .inr (.inr ⟨hi.1, List.take_prefix _ _⟩)⟩

/-! ### The stream -/

section
variable {cfg : Sched.Cfg} {base ops o : List ROp} {s s' : MSt} {r : List (Nat × List Rep)} {g : List (Key × EventInfo)} {c : Nat} {x q tp : Path}
  {deep : Bool} {F : Event} {w k : Nat}

theorem J.carries (h : J base ops s) (hc : ∀ op ∈ ops, Spares c tp op) (hx : tp <+: x) (hr : Rests (rregOf base) c q tp deep F)
    (ha : Carries x tp deep F s.sys.tree.world.log) :
    Carries x tp deep F s.log ∧ (∀ l, s.sys.tree.world.log <:+ l → l <:+ s.log → Carries x tp deep F l) ∧
      ∀ r t, s.plan = some (r, t) → Carries x tp deep F t.world.log := by
  obtain ⟨ops₀, ops₁, rfl, h2, h3 | ⟨r, t, h3, h4, h5, h6⟩⟩ := h.tree
  · refine ⟨by rw [h3.2.2.1]; exact ha, ?_, by intro r t hp; rw [h3.1] at hp; cases hp⟩
    intro l h4 h5
    rw [h3.2.2.1] at h5
    rw [h5.eq_of_length_le h4.length_le]
    exact ha
  · have hc0 : ∀ op ∈ ops₀, Spares c tp op := fun o ho => hc o (by simp [ho])
    have hc1 : ∀ op ∈ ops₁, Spares c tp op := fun o ho => hc o (by simp [ho])
    have hl : s.log <:+ t.world.log := ⟨_, h6⟩
    have key : ∀ l, Amid s.sys.tree.world.log t.world.log l → Carries x tp deep F l :=
      fun l hl => SafeSteps.carries factsI h2 h4 hc1 hx (hr.steps hc0) ha hl
    refine ⟨key _ ⟨h5, hl⟩, fun l g1 g2 => key _ ⟨g1, g2.trans hl⟩, ?_⟩
    intro r' t' hp
    rw [h3] at hp
    cases hp
    exact key _ ⟨Rec.Grew.suffix h4.grew, List.suffix_rfl⟩

theorem J.carries_step (h : J base ops s) (hs : MStep cfg true s o r g s') (hc : ∀ op ∈ ops, Spares c tp op) (hx : tp <+: x)
    (hr : Rests (rregOf base) c q tp deep F) (ha : Carries x tp deep F s.sys.tree.world.log) :
    Carries x tp deep F s'.sys.tree.world.log := by
  cases hs with
  | go l sys' htr hl => simp only [free_tree htr hl]; exact ha
  | effect i r a b t hcalls hp ht hc' => exact (h.carries hc hx hr ha).2.2 _ _ hp
  | _ => exact ha

/-- The watch `w` with the stream `k` is the one that carries `x`. -/
structure Hold (x tp : Path) (deep : Bool) (F : Event) (w k : Nat) (s : MSt) : Prop where
  tab : s.str.table.get? tp = some (w, k)
  ev : F ⊑ (s.heap w).events
  wide : deep = true → (s.heap w).isrec = true
  one : ∀ p w' k', s.str.table.get? p = some (w', k') → p <+: x → p = tp

theorem J.hold (h : J base ops s) (hc : ∀ op ∈ ops, Spares c tp op) (hx : tp <+: x)
    (hr : Rests (rregOf base) c q tp deep F) (ha : Carries x tp deep F s.sys.tree.world.log) (ht : s.str.table.get? tp = some (w, k)) :
    Hold x tp deep F w k s := by
  obtain ⟨h1, h2, _⟩ := h.carries hc hx hr ha
  obtain ⟨E, f, h3, h4, h5⟩ := h1.top
  have hv := h.view
  rcases hca : s.caller with _ | ⟨w', f'⟩ | ⟨p', e', b'⟩
  · rw [settle_idle hca] at hv
    rw [← hv] at h3
    simp only [Mac.view, ht, Option.map_some, Option.some.injEq, Prod.mk.injEq] at h3
    refine ⟨ht, h3.1 ▸ h4, fun hd => h3.2 ▸ h5 hd, ?_⟩
    intro p w' k' hp hpx
    by_contra hne
    have := h1.one p hpx hne
    rw [← hv] at this
    simp [Mac.view, hp] at this
  all_goals
    obtain ⟨cl, l, g1, g2, g3⟩ := h.busy (by rw [hca]; simp)
    have hl := h2 l g2 (by rw [g1]; exact List.suffix_cons _ _)
    have hone : ∀ p w' k', s.str.table.get? p = some (w', k') → p <+: x → p = tp := by
      intro p w' k' hp hpx
      by_contra hne
      obtain ⟨e, he⟩ := g3 p w' k' hp
      rw [hl.one p hpx hne] at he
      cases he
    have hrec : deep = true → (s.heap w).isrec = true := by
      intro hd
      obtain ⟨E', f'', h6, _, h7⟩ := hl.top
      obtain ⟨e, he⟩ := g3 tp w k ht
      rw [h6] at he
      cases he
      exact h7 hd
    refine ⟨ht, ?_, hrec, hone⟩
    rw [← hv] at h3
  · simp only [settle, hca, ht, Option.map_some, Option.some.injEq, Prod.mk.injEq] at h3
    exact h3.1 ▸ h4
  · have hne : tp ≠ p' := by
      rintro rfl
      rw [(h.move _ _ _ hca).1] at ht
      cases ht
    simp only [settle, hca, if_neg hne, Mac.view, ht, Option.map_some, Option.some.injEq, Prod.mk.injEq] at h3
    exact h3.1 ▸ h4

/-- The entry of the table stays. -/
theorem J.tab_step (h : J base ops s) (hs : MStep cfg true s o r g s') (hsafe : ∀ op ∈ o, Safe (rregOf (base ++ ops)) s.sys.tree.world.log op)
    (hc : ∀ op ∈ ops ++ o, Spares c tp op) (hx : tp <+: x)
    (hr : Rests (rregOf base) c q tp deep F) (ha : Carries x tp deep F s.sys.tree.world.log) (ht : s.str.table.get? tp = some (w, k)) :
    s'.str.table.get? tp = some (w, k) := by
  have hc' : ∀ op ∈ ops, Spares c tp op := fun o ho => hc o (by simp [ho])
  have h' := (((h.step hs hsafe).carries hc hx hr (h.carries_step hs hc' hx hr ha)).1).top
  have hj' := h.step hs hsafe
  cases hs with
  | report k' w' p batch hk hb hcb =>
    show (Streams.take s.str k').table.get? tp = _
    unfold Streams.take
    split <;> exact ht
  | watch cl p e f y rest ho hca hto =>
    obtain ⟨h1, h2⟩ := watch_ok (h.planned hto).1
    show (Streams.watch s.str p y).1.table.get? tp = _
    rw [h2]
    simp only [GoMap.get?_set]
    rw [if_neg]
    · exact ht
    · rintro rfl; rw [h1] at ht; cases ht
  | arrive p e y hca =>
    obtain ⟨_, hok, _⟩ := h.move _ _ _ hca
    obtain ⟨h1, h2⟩ := watch_ok hok
    show (Streams.watch s.str p y).1.table.get? tp = _
    rw [h2]
    simp only [GoMap.get?_set]
    rw [if_neg]
    · exact ht
    · rintro rfl; rw [h1] at ht; cases ht
  | unwatch cl p rest ho hca hto =>
    have hok := (h.planned hto).1
    obtain ⟨w', k', h1, h2⟩ := unwatch_ok hok
    show (Streams.unwatch s.str p).1.table.get? tp = _
    rw [h2]
    simp only [GoMap.get?_del]
    rw [if_neg]
    · exact ht
    · rintro rfl
      obtain ⟨E, f, h3, _⟩ := h'
      simp only [hok] at h3
      rcases ho with rfl | rfl <;> simp [osRec] at h3
  | leave p p' old new ok rest hp hca hto hn hu =>
    have hok := (h.planned hto).1
    subst hok
    obtain ⟨w', k', h1, h2⟩ := unwatch_ok hu
    show (Streams.unwatch s.str p).1.table.get? tp = _
    rw [h2]
    simp only [GoMap.get?_del]
    rw [if_neg]
    · exact ht
    · rintro rfl
      obtain ⟨E, f, h3, _⟩ := h'
      simp [osRec, hp] at h3
  | _ => exact ht
end

end Mac
end Verif
