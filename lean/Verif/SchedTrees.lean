/-
The two trees as instances of `Sched`, and the claims about all schedules: C05, C30, C31.
-/
import Verif.PropsSched

namespace Verif
namespace Sched

/-- What the lock of the tree is taken for. -/
inductive Req
  /-- Watch(path or path/..., c, events) -/
  | watch (p : Path) (isrec : Bool) (c : Nat) (e : Event)
  | stop (c : Nat)
  /-- the internal goroutine -/
  | internal (ei : EventInfo)

def Req.stops (c : Nat) : Req → Prop
  | .stop c' => c' = c
  | _ => False

def Req.watches (c : Nat) : Req → Prop
  | .watch _ _ c' _ => c' = c
  | _ => False

/-- The non-recursive tree.  The order in which maps are iterated may change before each operation; OS
calls and directory listings have any outcome. -/
abbrev plainTree (P : Platform) : Sys where
  σ := St
  Req := Req
  init := NonRec.init
  step s r s' := ∃ s₁, (s₁ = s ∨ NonRec.Step P false s .shuffle s₁) ∧
    match r with
    | .watch p isrec c e => ∃ res, NonRec.Step P false s₁ (.watch p isrec c e res) s'
    | .stop c => NonRec.Step P false s₁ (.stop c) s'
    | .internal ei => NonRec.Step P false s₁ (.internal ei) s'
  sends s ei := NonRec.sends P s.root ei
  hand s ei := NonRec.toInternal P s.root ei
  intern := .internal
  user
    | .internal _ => False
    | _ => True
  okReq
    | .watch p _ _ e => NonRec.GoodPath p ∧ NonRec.UserEvents P e
    | .stop _ => True
    | .internal ei => NonRec.GoodPath ei.path
  okEv ei := NonRec.GoodPath ei.path

/-- A request as a label of a history. -/
theorem plain_step {P : Platform} {s s' : St} {r : Req} (h : (plainTree P).step s r s') :
    ∃ s₁ op, (s₁ = s ∨ NonRec.Step P false s .shuffle s₁) ∧ NonRec.Step P false s₁ op s' ∧
      (∀ c, op.watches c → r.watches c) ∧ (∀ c, r.stops c → op = .stop c) := by
  obtain ⟨s₁, h1, h2⟩ := h
  cases r with
  | watch p isrec c e =>
    obtain ⟨res, h2⟩ := h2
    exact ⟨s₁, _, h1, h2, fun d hd => hd, fun d hd => hd.elim⟩
  | stop c => exact ⟨s₁, _, h1, h2, fun d hd => hd.elim, fun d hd => by simp only [Req.stops] at hd; rw [hd]⟩
  | internal ei => exact ⟨s₁, _, h1, h2, fun d hd => hd.elim, fun d hd => hd.elim⟩

/-- The facts about the non-recursive tree. -/
def plainLaws (P : Platform) (hP : P.Facts) : Laws (plainTree P) where
  inv s := ∃ ops, NonRec.Hist P false ops s
  absent c s := ∀ q, NonRec.entry s.root c q = none
  isStop := Req.stops
  isWatch := Req.watches
  inv_init := ⟨[], .nil⟩
  inv_step := by
    rintro t r t' ⟨ops, h⟩ _ hst
    obtain ⟨s₁, op, h1, h2, _, _⟩ := plain_step hst
    rcases h1 with rfl | h1
    · exact ⟨_, h.snoc h2⟩
    · exact ⟨_, (h.snoc h1).snoc h2⟩
  total := by
    intro t r hr
    cases r with
    | watch p isrec c e =>
      exact ⟨_, t, .inl rfl, _, NonRec.Step.watch (O := .ok) (dt := .err) hr.1 hr.2 trivial (fun h => nomatch h)⟩
    | stop c => exact ⟨_, t, .inl rfl, NonRec.Step.stop (O := .ok) (fun h => nomatch h)⟩
    | internal ei =>
      exact ⟨_, t, .inl rfl, NonRec.Step.internal (O := .ok) (dt := .err) hr trivial (fun h => nomatch h)⟩
  intern_ok := id
  intern_watch := by intro c ei h; exact h
  stop_absent := by
    rintro t r t' c ⟨ops, h⟩ _ hr hst
    obtain ⟨s₁, op, h1, h2, _, h4⟩ := plain_step hst
    obtain rfl := h4 c hr
    have hs : NonRec.Shape P s₁.root := by
      rcases h1 with rfl | h1
      · exact NonRec.Hist.shape hP h
      · exact h1.shape hP (NonRec.Hist.shape hP h)
    intro q
    cases h2 with
    | stop hO => rw [(NonRec.stop_effect hP _ hs c).2 c q]; simp
  keep := by
    rintro t r t' c ⟨ops, h⟩ _ hr ha hst
    obtain ⟨s₁, op, h1, h2, h3, _⟩ := plain_step hst
    have hs := NonRec.Hist.shape hP h
    rcases h1 with rfl | h1
    · exact h2.absent hP hs (fun hw => hr (h3 c hw)) ha
    · exact h2.absent hP (h1.shape hP hs) (fun hw => hr (h3 c hw)) (h1.absent hP hs (fun hw => hw) ha)
  silent := by
    rintro t c ei ⟨ops, h⟩ ha _
    exact NonRec.not_sent (NonRec.Hist.shape hP h) ha ei

/-- The recursive tree, which has no internal goroutine. -/
abbrev recTree (P : Platform) : Sys where
  σ := St
  Req := Req
  init := Rec.init
  step s r s' := ∃ s₁, (s₁ = s ∨ Rec.RStep P false s .shuffle s₁) ∧
    match r with
    | .watch p isrec c e => ∃ res, Rec.RStep P false s₁ (.watch p isrec c e res) s'
    | .stop c => Rec.RStep P false s₁ (.stop c) s'
    | .internal _ => s' = s₁
  sends s ei := Rec.sends P s.root ei
  hand _ _ := false
  intern := .internal
  user
    | .internal _ => False
    | _ => True
  okReq
    | .watch p _ _ e => NonRec.GoodPath p ∧ NonRec.UserEvents P e
    | .stop _ => True
    | .internal _ => True
  okEv ei := NonRec.GoodPath ei.path

/-- The facts about the recursive tree. -/
def recLaws (P : Platform) (hP : P.Facts) : Laws (recTree P) where
  inv s := ∃ ops, Rec.RHist P false ops s
  absent c s := ∀ q, [] ∉ q → NonRec.entry s.root c q = none
  isStop := Req.stops
  isWatch := Req.watches
  inv_init := ⟨[], .nil⟩
  inv_step := by
    rintro t r t' ⟨ops, h⟩ _ ⟨s₁, h1, h2⟩
    have h1' : ∃ ops, Rec.RHist P false ops s₁ := by
      rcases h1 with rfl | h1
      · exact ⟨_, h⟩
      · exact ⟨_, h.snoc h1⟩
    obtain ⟨ops₁, h1'⟩ := h1'
    cases r with
    | watch p isrec c e => obtain ⟨res, h2⟩ := h2; exact ⟨_, h1'.snoc h2⟩
    | stop c => exact ⟨_, h1'.snoc h2⟩
    | internal ei => simp only at h2; subst h2; exact ⟨_, h1'⟩
  total := by
    intro t r hr
    cases r with
    | watch p isrec c e => exact ⟨_, t, .inl rfl, _, Rec.RStep.watch (O := .ok) hr.1 hr.2⟩
    | stop c => exact ⟨_, t, .inl rfl, Rec.RStep.stop (O := .ok) (fun h => nomatch h)⟩
    | internal ei => exact ⟨t, t, .inl rfl, rfl⟩
  intern_ok := fun _ => trivial
  intern_watch := by intro c ei h; exact h
  stop_absent := by
    rintro t r t' c ⟨ops, h⟩ _ hr ⟨s₁, h1, h2⟩
    cases r with
    | stop d =>
      simp only [Req.stops] at hr
      subst hr
      have hs := Rec.RHist.rok hP h
      have hs₁ : Rec.ROK (Rec.RW P) s₁.root := by
        rcases h1 with rfl | h1
        · exact hs
        · exact h1.rok hP hs
      intro q _
      simp only at h2
      cases h2 with
      | stop hO => rw [Rec.stop_entry _ hs₁]; simp
    | _ => exact hr.elim
  keep := by
    rintro t r t' c ⟨ops, h⟩ _ hr ha ⟨s₁, h1, h2⟩
    have hs := Rec.RHist.rok hP h
    have h1' : Rec.ROK (Rec.RW P) s₁.root ∧ ∀ q, [] ∉ q → NonRec.entry s₁.root c q = none := by
      rcases h1 with rfl | h1
      · exact ⟨hs, ha⟩
      · exact ⟨h1.rok hP hs, h1.absent hP hs (fun hw => hw) ha⟩
    cases r with
    | watch p isrec d e => obtain ⟨res, h2⟩ := h2; exact h2.absent hP h1'.1 hr h1'.2
    | stop d => exact Rec.RStep.absent hP h1'.1 h2 (fun hw => hw) h1'.2
    | internal ei => simp only at h2; subst h2; exact h1'.2
  silent := by
    rintro t c ei ⟨ops, h⟩ ha hev
    exact Rec.not_sent (Rec.RHist.rok hP h) ha hev.2

end Sched
end Verif
