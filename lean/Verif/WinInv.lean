/-
The whole program on Windows: what holds in every execution of harmless operations without the races of the watcher.
-/
import Verif.Win
import Verif.WinFeed

namespace Verif
namespace Win
open Rec (ROp SafeHist SafeSteps Safe rregOf Carries Rests Spares)
open Linux (Free sigs isEv)
open Spec (copies)

abbrev R : Platform := Platform.readdcw

theorem factsR : R.Facts := Platform.readdcw_wf.facts

/-! ### The invariant -/

/-- What the watcher was asked for, after the call that is running. -/
def settle (s : WSt) (wops : List Dcw.Op) (q : Path) : Option (Event × Bool) :=
  match s.caller with
  | .idle => Dcw.asked wops q
  | .moving p e _ => if q = p then some (e, true) else Dcw.asked wops q

/-- After the operations `base`, all of them done, and `ops`, of which the last may be under way; `wops` happened in the watcher. -/
structure J (base ops : List ROp) (wops : List Dcw.Op) (s : WSt) : Prop where
  tree : ∃ ops₀ ops₁, ops = ops₀ ++ ops₁ ∧ SafeHist R (base ++ ops₀) s.sys.tree ∧
    ((s.plan = none ∧ ops₁ = [] ∧ s.log = s.sys.tree.world.log ∧ s.caller = .idle ∧ s.todo = []) ∨
      ∃ r t, s.plan = some (r, t) ∧ SafeSteps R (base ++ ops₀) s.sys.tree ops₁ t ∧ s.sys.tree.world.log <:+ s.log ∧
        s.todo.reverse ++ s.log = t.world.log)
  hist : Dcw.CHist wops s.w
  view : settle s wops = osRec s.log
  queue : s.pk.map (·.1) = s.w.queue
  move : ∀ p e b, s.caller = .moving p e b → b = true ∧ ∃ c l, s.log = c :: l ∧ s.sys.tree.world.log <:+ l ∧ osRec l p = none

theorem settle_idle {s : WSt} {wops : List Dcw.Op} (h : s.caller = .idle) : settle s wops = Dcw.asked wops := by
  funext p; unfold settle; rw [h]

theorem J.init : J [] [] [] WSt.init where
  tree := ⟨[], [], rfl, .nil, .inl ⟨rfl, rfl, rfl, rfl, rfl⟩⟩
  hist := .nil
  view := rfl
  queue := rfl
  move := by intro p e b h; cases h

/-- A call that is begun succeeds, and an operation is under way. -/
theorem J.planned {base ops : List ROp} {wops : List Dcw.Op} {s : WSt} (h : J base ops wops s) {c : Call} {ok : Bool} {rest : List (Call × Bool)}
    (ht : s.todo = (c, ok) :: rest) :
    ok = true ∧ ∃ ops₀ ops₁, ops = ops₀ ++ ops₁ ∧ SafeHist R (base ++ ops₀) s.sys.tree ∧
      ∃ r t, s.plan = some (r, t) ∧ SafeSteps R (base ++ ops₀) s.sys.tree ops₁ t ∧ s.sys.tree.world.log <:+ s.log ∧
        rest.reverse ++ (c, ok) :: s.log = t.world.log := by
  obtain ⟨ops₀, ops₁, h1, h2, h3 | ⟨r, t, h3, h4, h5, h6⟩⟩ := h.tree
  · rw [h3.2.2.2.2] at ht; cases ht
  · have h7 : rest.reverse ++ (c, ok) :: s.log = t.world.log := by rw [← h6, ht]; simp
    refine ⟨?_, ops₀, ops₁, h1, h2, r, t, h3, h4, h5, h7⟩
    obtain ⟨new, g1, g2⟩ := h4.grew
    obtain ⟨mid, g3⟩ := h5
    refine g2 (c, ok) ?_
    rw [← h7, ← g3] at g1
    have : new = rest.reverse ++ (c, ok) :: mid := by
      apply List.append_cancel_right (bs := s.sys.tree.world.log)
      rw [← g1]; simp
    rw [this]; simp

/-- The calls of the watcher met their contract. -/
theorem J.valid {base ops : List ROp} {wops : List Dcw.Op} {s : WSt} (h : J base ops wops s) {c : Call} {ok : Bool} {rest : List (Call × Bool)}
    (ht : s.todo = (c, ok) :: rest) : c.ValidRec R (osRec s.log) := by
  obtain ⟨_, ops₀, ops₁, h1, h2, r, t, h3, h4, h5, h6⟩ := h.planned ht
  have hv := (Rec.C26_mirror_partial factsR (h2.append h4)).2.1
  rw [← h6] at hv
  have : ∀ (a l : Log), ValidLogRec R (a ++ l) → ValidLogRec R l := by
    intro a l
    induction a with
    | nil => exact id
    | cons x a ih => intro hv; exact ih hv.2
  exact (this _ _ hv).1

theorem safeSteps_one {ops : List ROp} {s t : St} {op : ROp} (h : Rec.RStep R true s op t) (hs : Safe (rregOf ops) s.world.log op) :
    SafeSteps R ops s [op] t := by
  have := SafeSteps.snoc (P := R) (pre := ops) (s := s) .nil h (by simpa using hs)
  simpa using this

theorem Plans.safe {ops o : List ROp} {s t : St} {r : Sched.Req} (h : Plans true s r o t) (hs : ∀ op ∈ o, Safe (rregOf ops) s.world.log op) :
    SafeSteps R ops s o t := by
  obtain ⟨h1, _, op, -, ho⟩ := h
  rcases ho with rfl | rfl
  · rw [show [op] = [] ++ [op] from rfl] at h1
    generalize hl : [] ++ [op] = l at h1
    cases h1 with
    | nil => cases hl
    | @snoc a s₁ op' _ ha hb =>
      obtain ⟨rfl, h3⟩ := List.append_inj' hl rfl
      cases h3
      generalize hl : ([] : List ROp) = l at ha
      cases ha with
      | nil => exact safeSteps_one hb (hs _ (by simp))
      | snoc => simp at hl
  · rw [show [ROp.shuffle, op] = [.shuffle] ++ [op] from rfl] at h1
    generalize hl : [ROp.shuffle] ++ [op] = l at h1
    cases h1 with
    | nil => cases hl
    | @snoc a s₁ op' _ ha hb =>
      obtain ⟨rfl, h3⟩ := List.append_inj' hl rfl
      cases h3
      generalize hl : [ROp.shuffle] = l at ha
      cases ha with
      | nil => cases hl
      | @snoc a s₂ op'' _ hc hd =>
        obtain ⟨rfl, h3⟩ := List.append_inj' (s₁ := []) hl rfl
        cases h3
        generalize hl : ([] : List ROp) = l at hc
        cases hc with
        | nil =>
          have h4 := safeSteps_one hd (hs _ (by simp))
          refine SafeSteps.snoc h4 hb ?_
          have h5 := hs op (by simp)
          have h6 : rregOf (ops ++ [.shuffle]) = rregOf ops := by rw [Rec.rregOf_snoc]; rfl
          rw [h6]
          cases hd
          exact h5
        | snoc => simp at hl

/-! ### Steps -/

theorem pk_more {pk : List (Nat × List Chg)} {w w' : Dcw.St} (h : pk.map (·.1) = w.queue) (hq : w.queue <+: w'.queue) :
    (pk ++ more w w').map (·.1) = w'.queue := by
  obtain ⟨l, hl⟩ := hq
  unfold more
  rw [List.map_append, h, ← hl, List.drop_left, List.map_map]
  exact congrArg _ (List.map_id' l)

theorem asked_tau (wops : List Dcw.Op) : Dcw.asked (wops ++ [.tau]) = Dcw.asked wops := by rw [Dcw.asked_snoc]; rfl

/-- A step of the loop or the kernel. -/
theorem J.tau {base ops : List ROp} {wops : List Dcw.Op} {s s' : WSt} (h : J base ops wops s) (h0 : s'.sys.tree = s.sys.tree) (h1 : s'.plan = s.plan)
    (h2 : s'.todo = s.todo) (h3 : s'.log = s.log) (hc : s'.caller = s.caller) (hw : Dcw.CStep (Dcw.asked wops) s.w .tau s'.w)
    (hq : s'.pk.map (·.1) = s'.w.queue) : J base ops (wops ++ [.tau]) s' where
  tree := by rw [h0, h1, h2, h3, hc]; exact h.tree
  hist := .snoc h.hist hw
  view := by rw [h3, ← h.view]; funext q; unfold settle; rw [hc, asked_tau]
  queue := hq
  move := by rw [hc, h3, h0]; exact h.move

/-- A step that leaves the watcher. -/
theorem J.still {base ops : List ROp} {wops : List Dcw.Op} {s s' : WSt} (h : J base ops wops s) (h0 : s'.sys.tree = s.sys.tree) (h1 : s'.plan = s.plan)
    (h2 : s'.todo = s.todo) (h3 : s'.log = s.log) (hc : s'.caller = s.caller) (hw : s'.w = s.w) (hq : s'.pk = s.pk) : J base ops wops s' where
  tree := by rw [h0, h1, h2, h3, hc]; exact h.tree
  hist := by rw [hw]; exact h.hist
  view := by rw [h3, ← h.view]; funext q; unfold settle; rw [hc]
  queue := by rw [hw, hq]; exact h.queue
  move := by rw [hc, h3, h0]; exact h.move

/-- A call of the watcher that is over in one step. -/
theorem J.call {base ops : List ROp} {wops : List Dcw.Op} {s s' : WSt} (h : J base ops wops s) (hcl : s.caller = .idle) {c : Call} {rest : List (Call × Bool)}
    {op : Dcw.Op} {ok : Bool} (ht : s.todo = (c, ok) :: rest) (h0 : s'.sys.tree = s.sys.tree) (h1 : s'.plan = s.plan) (h2 : s'.todo = rest)
    (h3 : s'.log = (c, ok) :: s.log) (hc : s'.caller = s.caller) (hw : Dcw.CStep (Dcw.asked wops) s.w op s'.w) (hq : s'.pk.map (·.1) = s'.w.queue)
    (ha : ok = true → Dcw.askedStep (osRec s.log) op = Fsevents.after c (osRec s.log)) : J base ops (wops ++ [op]) s' := by
  obtain ⟨rfl, ops₀, ops₁, g1, g2, r, t, g3, g4, g5, g6⟩ := h.planned ht
  refine ⟨⟨ops₀, ops₁, g1, by rw [h0]; exact g2, .inr ⟨r, t, by rw [h1]; exact g3, by rw [h0]; exact g4, ?_, by rw [h2, h3]; exact g6⟩⟩, .snoc h.hist hw, ?_, hq, ?_⟩
  · rw [h0, h3]; exact g5.trans (List.suffix_cons _ _)
  · rw [settle_idle (hc.trans hcl), Dcw.asked_snoc, h3]
    have := h.view
    rw [settle_idle hcl] at this
    rw [this, ha rfl]
    funext q
    rw [Fsevents.osRec_after]
  · intro p e b hb; rw [hc, hcl] at hb; cases hb

theorem J.step {cfg : Sched.Cfg} {base ops o : List ROp} {wops wo : List Dcw.Op} {s s' : WSt} {r : List Note} {g : List (Key × EventInfo)}
    (h : J base ops wops s) (hs : WStep cfg true s o wo r g s') (hsafe : ∀ op ∈ o, Safe (rregOf (base ++ ops)) s.sys.tree.world.log op)
    (hw : ∀ op ∈ wo, Dcw.CStep (Dcw.asked wops) s.w op s'.w) : J base (ops ++ o) (wops ++ wo) s' := by
  cases hs with
  | go l sys' htr hl =>
    rw [List.append_nil, List.append_nil]
    exact h.still (Mac.free_tree htr hl) rfl rfl rfl rfl rfl rfl
  | send o l ho hq =>
    rw [List.append_nil, List.append_nil]
    exact h.still rfl rfl rfl rfl rfl rfl rfl
  | complete r l hr hl =>
    rw [List.append_nil]
    refine h.tau rfl rfl rfl rfl rfl (hw _ (by simp)) ?_
    simp [Dcw.complete, h.queue]
  | take g l pk' hl hp ho =>
    rw [List.append_nil]
    refine h.tau rfl rfl rfl rfl rfl (hw _ (by simp)) ?_
    have hq := h.queue
    rw [hp] at hq
    simp only [List.map_cons] at hq
    show pk'.map (·.1) = (Dcw.take s.w).queue
    unfold Dcw.take
    rw [hl, ← hq]
    simp only
    split <;> rfl
  | again g ok hl ho =>
    rw [List.append_nil]
    refine h.tau rfl rfl rfl rfl rfl (hw _ (by simp)) ?_
    show s.pk.map (·.1) = (Dcw.again s.w ok).queue
    rw [h.queue]
    unfold Dcw.again
    rw [hl]
    exact ((Dcw.readDirChanges_same s.w g ok).2.2).symm
  | state g a0 a1 w' hl hw' =>
    rw [List.append_nil]
    exact h.tau rfl rfl rfl rfl rfl (hw _ (by simp)) (pk_more h.queue (Dcw.loopstate_ext hw').2)
  | plan r _ t new i hr hp ht hn =>
    rw [List.append_nil]
    obtain ⟨ops₀, ops₁, h1, h2, h3 | ⟨r', t', h3, _⟩⟩ := h.tree
    · obtain ⟨h3, rfl, h4, h5, h6⟩ := h3
      rw [List.append_nil] at h1
      subst h1
      refine ⟨⟨ops, o, rfl, h2, .inr ⟨r, t, rfl, ht.safe hsafe, by rw [h4]; exact List.suffix_rfl, ?_⟩⟩, h.hist, h.view, h.queue, h.move⟩
      show new.reverse.reverse ++ s.log = _
      rw [List.reverse_reverse, h4, hn]
    · rw [hp] at h3; cases h3
  | watch c p e f a0 a1 rest ho hc ht =>
    rw [List.append_nil]
    refine h.call hc ht rfl rfl rfl rfl rfl (hw _ (by simp)) (pk_more h.queue (Dcw.watch_ext _ _ _ _ _ _).2) ?_
    intro hok
    rw [hok]
    funext q
    rcases ho with ⟨rfl, rfl⟩ | ⟨rfl, rfl⟩ <;> rfl
  | unwatch c p gone rest ho hc ht =>
    rw [List.append_nil]
    refine h.call hc ht rfl rfl rfl rfl rfl (hw _ (by simp)) (pk_more h.queue (Dcw.unwatch_ext _ _ _).2) ?_
    intro hok
    rw [hok]
    funext q
    rcases ho with rfl | rfl <;> rfl
  | rewatch c p old new f w' ok rest ho hc hrw ht =>
    rw [List.append_nil]
    refine h.call hc ht rfl rfl rfl rfl rfl (hw _ (by simp)) (pk_more h.queue (Dcw.rewatch_ext hrw).2) ?_
    rintro rfl
    funext q
    rcases ho with ⟨rfl, rfl⟩ | ⟨rfl, rfl⟩
    · rfl
    · simp only [Dcw.askedStep, Fsevents.after]
      by_cases hq : q = p <;> simp [hq]
  | leave p p' old new gone ok rest hp hc ht hu =>
    obtain ⟨rfl, ops₀, ops₁, g1, g2, r, t, g3, g4, g5, g6⟩ := h.planned ht
    have hv := (h.valid ht).2.1.resolve_left (Ne.symm hp)
    rw [List.append_nil]
    refine ⟨⟨ops₀, ops₁, g1, g2, .inr ⟨r, t, g3, g4, g5.trans (List.suffix_cons _ _), g6⟩⟩, .snoc h.hist (hw _ (by simp)), ?_,
      pk_more h.queue (Dcw.unwatch_ext _ _ _).2, ?_⟩
    · have hview := h.view
      rw [settle_idle hc] at hview
      funext q
      simp only [settle, Dcw.asked_snoc, hview, Fsevents.osRec_after, Fsevents.after, Dcw.askedStep]
    · intro q e b hb
      simp only [Caller.moving.injEq] at hb
      obtain ⟨rfl, rfl, rfl⟩ := hb
      exact ⟨rfl, _, _, rfl, g5, hv⟩
  | arrive p e a0 a1 hc =>
    rw [List.append_nil]
    obtain ⟨hok, _⟩ := h.move _ _ _ hc
    obtain ⟨ops₀, ops₁, h1, h2, h3 | h3⟩ := h.tree
    · rw [h3.2.2.2.1] at hc; cases hc
    · refine ⟨⟨ops₀, ops₁, h1, h2, .inr h3⟩, .snoc h.hist (hw _ (by simp)), ?_, pk_more h.queue (Dcw.watch_ext _ _ _ _ _ _).2, by intro p e b hb; cases hb⟩
      rw [settle_idle rfl, Dcw.asked_snoc, hok]
      show _ = osRec s.log
      rw [← h.view]
      funext q
      simp only [settle, hc, Dcw.askedStep]
  | refuse p p' old new rest hp hc ht hu =>
    cases (h.planned ht).1
  | effect i r a b t hcalls hp ht hc =>
    rw [List.append_nil, List.append_nil]
    obtain ⟨ops₀, ops₁, h1, h2, h3 | ⟨r', t', h3, h4, h5, h6⟩⟩ := h.tree
    · rw [h3.1] at hp; cases hp
    · rw [hp] at h3
      cases h3
      rw [ht] at h6
      refine ⟨⟨ops, [], by simp, ?_, .inl ⟨rfl, rfl, by simpa using h6, hc, ht⟩⟩, h.hist, h.view, h.queue, ?_⟩
      · rw [h1, ← List.append_assoc]; exact h2.append h4
      · intro p e b hb; simp only [hc] at hb; cases hb

theorem J.rebase {base ops : List ROp} {wops : List Dcw.Op} {s : WSt} (h : J base ops wops s) (hp : s.plan = none) : J (base ++ ops) [] wops s where
  tree := by
    obtain ⟨ops₀, ops₁, h1, h2, h3 | ⟨r, t, h3, _⟩⟩ := h.tree
    · refine ⟨[], [], rfl, ?_, .inl ⟨h3.1, rfl, h3.2.2⟩⟩
      rw [h1, h3.2.1]; simpa using h2
    · rw [hp] at h3; cases h3
  hist := h.hist
  view := h.view
  queue := h.queue
  move := h.move

theorem WRun.j {cfg : Sched.Cfg} {base ops : List ROp} {wpre wops : List Dcw.Op} {s s' : WSt} {reps sg} (hj : J base [] wpre s)
    (h : WRun cfg true base wpre s ops wops reps sg s') : J base ops (wpre ++ wops) s' := by
  induction h with
  | refl => simpa using hj
  | step _ hs hsafe ih =>
    have := ih.step hs (hsafe rfl).1 (hsafe rfl).2
    rwa [List.append_assoc] at this

/-! ### The directory that carries a path -/

section
variable {cfg : Sched.Cfg} {base ops o : List ROp} {wops wo : List Dcw.Op} {s s' : WSt} {r : List Note} {g : List (Key × EventInfo)} {c : Nat} {x q tp : Path}
  {deep : Bool} {F : Event}

theorem J.carries (h : J base ops wops s) (hc : ∀ op ∈ ops, Spares c tp op) (hx : tp <+: x) (hr : Rests (rregOf base) c q tp deep F)
    (ha : Carries x tp deep F s.sys.tree.world.log) :
    Carries x tp deep F s.log ∧ (∀ l, s.sys.tree.world.log <:+ l → l <:+ s.log → Carries x tp deep F l) ∧
      ∀ r t, s.plan = some (r, t) → Carries x tp deep F t.world.log := by
  obtain ⟨ops₀, ops₁, rfl, h2, h3 | ⟨r, t, h3, h4, h5, h6⟩⟩ := h.tree
  · refine ⟨by rw [h3.2.2.1]; exact ha, ?_, by intro r t hp; rw [h3.1] at hp; cases hp⟩
    intro l h4 h5
    rw [h3.2.2.1] at h5
    rw [h5.eq_of_length_le h4.length_le]
    exact ha
  · have hc0 : ∀ op ∈ ops₀, Spares c tp op := fun o ho => hc o (by simp [ho])
    have hc1 : ∀ op ∈ ops₁, Spares c tp op := fun o ho => hc o (by simp [ho])
    have hl : s.log <:+ t.world.log := ⟨_, h6⟩
    have key : ∀ l, Amid s.sys.tree.world.log t.world.log l → Carries x tp deep F l :=
      fun l hl => SafeSteps.carries factsR h2 h4 hc1 hx (hr.steps hc0) ha hl
    refine ⟨key _ ⟨h5, hl⟩, fun l g1 g2 => key _ ⟨g1, g2.trans hl⟩, ?_⟩
    intro r' t' hp
    rw [h3] at hp
    cases hp
    exact key _ ⟨Rec.Grew.suffix h4.grew, List.suffix_rfl⟩

theorem J.carries_step (h : J base ops wops s) (hs : WStep cfg true s o wo r g s') (hc : ∀ op ∈ ops, Spares c tp op) (hx : tp <+: x)
    (hr : Rests (rregOf base) c q tp deep F) (ha : Carries x tp deep F s.sys.tree.world.log) :
    Carries x tp deep F s'.sys.tree.world.log := by
  cases hs with
  | go l sys' htr hl => simp only [Mac.free_tree htr hl]; exact ha
  | effect i r a b t hcalls hp ht hc' => exact (h.carries hc hx hr ha).2.2 _ _ hp
  | _ => exact ha

/-- The watcher has been asked for it, at every moment. -/
theorem J.holds (h : J base ops wops s) (hc : ∀ op ∈ ops, Spares c tp op) (hx : tp <+: x)
    (hr : Rests (rregOf base) c q tp deep F) (ha : Carries x tp deep F s.sys.tree.world.log) :
    (∃ E f, Dcw.asked wops tp = some (E, f) ∧ F ⊑ E ∧ (deep = true → f = true)) ∧ ∀ t, t <+: x → t ≠ tp → Dcw.asked wops t ≠ none → False := by
  obtain ⟨h1, h2, _⟩ := h.carries hc hx hr ha
  obtain ⟨E, f, h3, h4, h5⟩ := h1.top
  have hv := h.view
  rcases hca : s.caller with _ | ⟨p', e', b'⟩
  · rw [settle_idle hca] at hv
    refine ⟨⟨E, f, by rw [hv]; exact h3, h4, h5⟩, fun t ht hne hn => hn ?_⟩
    rw [hv]; exact h1.one t ht hne
  · obtain ⟨_, cl, l, g1, g2, g3⟩ := h.move _ _ _ hca
    have hl := h2 l g2 (by rw [g1]; exact List.suffix_cons _ _)
    have hs : ∀ q, q ≠ p' → Dcw.asked wops q = osRec s.log q := by
      intro q hq
      rw [← hv]
      simp only [settle, hca, if_neg hq]
    have hne : tp ≠ p' := by
      rintro rfl
      obtain ⟨_, _, h6, _⟩ := hl.top
      rw [g3] at h6; cases h6
    refine ⟨⟨E, f, by rw [hs tp hne]; exact h3, h4, h5⟩, fun t ht htn hn => ?_⟩
    by_cases e : t = p'
    · subst e
      have := h1.one t ht htn
      rw [← hv] at this
      simp [settle, hca] at this
    · exact hn (by rw [hs t e]; exact h1.one t ht htn)

theorem J.copies (h : J base ops wops s) (hc : ∀ op ∈ ops, Spares c tp op) {F : Event} (hF : F &&& R.internal = 0) (hpl : NonRec.PlainEvent R F) (hlen : 2 ≤ x.length) (hx0 : [] ∉ x)
    {ei : EventInfo} (hei : isEv F x ei = true) : (Y.sends s.sys.tree ei).count (.user c) = copies (rregOf base) c F x := by
  obtain ⟨ops₀, ops₁, rfl, h2, _⟩ := h.tree
  simp only [isEv, Bool.and_eq_true, decide_eq_true_eq] at hei
  obtain ⟨h1, h3⟩ := hei
  have := (Rec.C02_delivery_exact factsR h2.hist.1 (ei := ei) (by rw [h3]; exact hlen) (by rw [h3]; exact hx0)
    (by rw [h1]; exact hF) (by rw [h1]; exact hpl)).1 c (fun o ho => (h2.hist.2 o ho).for c)
  rw [h1, h3] at this
  exact Eq.trans this (Linux.copies_congr fun q _ => Mac.calm_reg (fun o ho => hc o (by simp [ho])) q)
end

end Win
end Verif
