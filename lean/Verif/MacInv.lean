/-
The whole program on macOS: what holds in every execution of harmless operations.
-/
import Verif.Mac

namespace Verif

/-! ### Calls of harmless operations succeed -/

/-- The calls made between `a` and `b` succeeded. -/
def Grew (a b : Log) : Prop := ∃ new, b = new ++ a ∧ ∀ x ∈ new, x.2 = true

theorem Grew.refl (a : Log) : Grew a a := ⟨[], rfl, by simp⟩

theorem Grew.trans {a b c : Log} (h1 : Grew a b) (h2 : Grew b c) : Grew a c := by
  obtain ⟨n1, rfl, g1⟩ := h1
  obtain ⟨n2, rfl, g2⟩ := h2
  exact ⟨n2 ++ n1, by simp, fun x hx => (List.mem_append.1 hx).elim (g2 x) (g1 x)⟩

theorem Grew.exec {O : Oracle} {s : World} {c : Call} (h : (s.exec O c).2 = true) : Grew s.log (s.exec O c).1.log :=
  ⟨[(c, O s.log c)], rfl, by simpa [World.exec] using h⟩

theorem Grew.ok (s : World) (c : Call) : Grew s.log (s.exec .ok c).1.log := Grew.exec rfl

namespace Rec
open GoMap NonRec Spec
variable {P : Platform}

theorem unwatchAll_grew (O : Oracle) (root : Node) (p : Path) (rs : List Path) (w : World) (h : (unwatchAll P O root p rs w).2 = true) :
    Grew w.log (unwatchAll P O root p rs w).1.log := by
  induction rs generalizing w with
  | nil => exact .refl _
  | cons r rs ih =>
    unfold unwatchAll at h ⊢
    simp only [Bool.and_eq_true] at h ⊢
    exact (Grew.exec h.1).trans (ih _ h.2)

theorem watchUnder_grew (O : Oracle) (s : St) (q p : Path) (isrec : Bool) (c : Nat) (e : Event) (h : (watchUnder P O s q p isrec c e).2 = true) :
    Grew s.world.log (watchUnder P O s q p isrec c e).1.world.log := by
  unfold watchUnder at h ⊢
  dsimp only at h ⊢
  generalize (if q = p then watchAdd P (nodeAt s.root q) (.user c) e else watchAddInactive P (nodeAt s.root q) (.user c) e) = r at h ⊢
  by_cases h1 : r.2 = Diff.none
  · rw [if_pos h1]; exact .refl _
  · rw [if_neg h1] at h ⊢
    by_cases h2 : r.2.1 = 0
    · rw [if_pos h2]; exact .refl _
    · rw [if_neg h2] at h ⊢
      generalize (if (isrec || watchIsRecursive P r.1) = true then Call.recRewatch r.1.name r.1.name r.2.1 r.2.2
        else Call.rewatch r.1.name r.2.1 r.2.2) = cl at h ⊢
      split
      · next hx => exact Grew.exec hx
      · next hx => rw [if_neg hx] at h; cases h

theorem watchTop_grew (O : Oracle) (s : St) (p : Path) (isrec : Bool) (c : Nat) (e : Event) (h : (watchTop P O s p isrec c e).2 = true) :
    Grew s.world.log (watchTop P O s p isrec c e).1.world.log := by
  unfold watchTop at h ⊢
  split
  · next hr =>
    rw [hr] at h
    dsimp only at h ⊢
    split
    · exact .refl _
    · next h1 =>
      rw [if_neg h1] at h
      split
      · next h2 =>
        rw [if_pos h2] at h
        generalize (if isrec = true then Call.recWatch (watchAdd P (nodeAt s.root p) (.user c) e).1.name (watchAdd P (nodeAt s.root p) (.user c) e).2.2
          else Call.watch (watchAdd P (nodeAt s.root p) (.user c) e).1.name (watchAdd P (nodeAt s.root p) (.user c) e).2.2) = cl at h ⊢
        split
        · next hx => exact Grew.exec hx
        · next hx => rw [if_neg hx] at h; cases h
      · exact .refl _
  · next r hr =>
    rw [hr] at h
    dsimp only at h ⊢
    split
    · next hx =>
      have := Grew.exec hx
      rw [copyAll_log] at this
      exact this
    · next hx => rw [if_neg hx] at h; cases h
  · next rs h1 h2 =>
    have hh : (watchTop P O s p isrec c e).2 = true := by
      unfold watchTop
      split at h
      · next hr => exact absurd hr h1
      · next r hr => exact absurd hr (h2 r)
      · exact h
    clear h
    unfold watchTop at hh
    split at hh
    · next hr => exact absurd hr h1
    · next r hr => exact absurd hr (h2 r)
    · dsimp only at hh ⊢
      split
      · next hx =>
        rw [if_pos hx] at hh
        have h3 := Grew.exec hx
        rw [copyAll_log] at h3
        exact h3.trans (unwatchAll_grew O _ p _ _ hh)
      · next hx => rw [if_neg hx] at hh; cases hh

mutual
theorem stopWalk_grew (c : Nat) (s : World) : ∀ nd : Node, Grew s.log (Node.stopWalk P .ok c s nd).1.log
  | .mk n w ch => by
    unfold Node.stopWalk
    dsimp only
    split
    · exact stopWalkF_grew c s ch
    · dsimp only
      split
      · exact .refl _
      · exact Grew.ok _ _
theorem stopWalkF_grew (c : Nat) (s : World) : ∀ f : Forest, Grew s.log (Forest.stopWalk P .ok c s f).1.log
  | .nil => by unfold Forest.stopWalk; exact .refl _
  | .cons b nd rest => by
    unfold Forest.stopWalk
    dsimp only
    split
    · exact stopWalkF_grew c s rest
    · exact (stopWalk_grew c s nd).trans (stopWalkF_grew c _ rest)
end

theorem RStep.grew {s s' : St} {op : ROp} (h : RStep P true s op s') (hop : op.succeeded) : Grew s.world.log s'.world.log := by
  cases h with
  | @watch p isrec c e O hp he =>
    have hop : (watchOp P O s p isrec c e).2 = true := hop
    unfold watchOp at hop ⊢
    dsimp only at hop ⊢
    split
    · next q hq => rw [hq] at hop; exact watchUnder_grew O { s with root := s.root.add p } q p isrec c _ hop
    · next hq => rw [hq] at hop; exact watchTop_grew O { s with root := s.root.add p } p isrec c _ hop
  | @stop c O hO =>
    rw [hO rfl]
    exact stopWalk_grew c s.world s.root
  | shuffle _ => exact .refl _

/-! ### Several harmless operations -/

/-- Harmless operations from `s` to `t`, after the history `pre`. -/
inductive SafeSteps (P : Platform) (pre : List ROp) (s : St) : List ROp → St → Prop
  | nil : SafeSteps P pre s [] s
  | snoc {ops s' op t} : SafeSteps P pre s ops s' → RStep P true s' op t → Safe (rregOf (pre ++ ops)) s'.world.log op →
      SafeSteps P pre s (ops ++ [op]) t

theorem SafeHist.append {pre ops : List ROp} {s t : St} (h : SafeHist P pre s) (h' : SafeSteps P pre s ops t) : SafeHist P (pre ++ ops) t := by
  induction h' with
  | nil => rwa [List.append_nil]
  | snoc _ hs hsafe ih => rw [← List.append_assoc]; exact ih.snoc hs hsafe

theorem SafeSteps.grew {pre ops : List ROp} {s t : St} (h : SafeSteps P pre s ops t) : Grew s.world.log t.world.log := by
  induction h with
  | nil => exact .refl _
  | snoc _ hs hsafe ih => exact ih.trans (hs.grew hsafe.succeeded)

theorem Grew.suffix {a b : Log} (h : Grew a b) : a <:+ b := by obtain ⟨n, rfl, _⟩ := h; exact List.suffix_append _ _

/-- Another channel's operation, and not a Watch of a directory strictly above `tp`. -/
def Spares (c : Nat) (tp : Path) : ROp → Prop
  | .watch p _ d _ _ => d ≠ c ∧ (p <+: tp → p = tp)
  | .stop d => d ≠ c
  | .shuffle => True

theorem Spares.stop {c : Nat} {tp : Path} {op : ROp} (h : Spares c tp op) : op ≠ .stop c := by
  rintro rfl; exact h rfl

theorem Spares.above {c : Nat} {tp : Path} {op : ROp} (h : Spares c tp op) :
    ∀ p isrec d e res, op = .watch p isrec d e res → p <+: tp → p = tp := by
  rintro p isrec d e res rfl; exact h.2

theorem Rests.steps {pre : List ROp} {c : Nat} {q tp : Path} {deep : Bool} {F : Event} (h : Rests (rregOf pre) c q tp deep F) :
    ∀ {ops : List ROp}, (∀ op ∈ ops, Spares c tp op) → Rests (rregOf (pre ++ ops)) c q tp deep F := by
  intro ops
  induction ops generalizing pre with
  | nil => intro _; rwa [List.append_nil]
  | cons op ops ih =>
    intro hc
    rw [show pre ++ op :: ops = (pre ++ [op]) ++ ops by simp]
    exact ih (h.step (hc op (by simp)).stop) fun o ho => hc o (by simp [ho])

theorem SafeSteps.carries (hP : P.Facts) {pre ops : List ROp} {s t : St} (h : SafeHist P pre s) (h' : SafeSteps P pre s ops t) {c : Nat}
    {x q tp : Path} {deep : Bool} {F : Event} (hc : ∀ op ∈ ops, Spares c tp op) (hx : tp <+: x) (hr : Rests (rregOf pre) c q tp deep F)
    (ha : Carries x tp deep F s.world.log) {l : Log} (hl : Amid s.world.log t.world.log l) : Carries x tp deep F l := by
  induction h' generalizing l with
  | nil => rw [hl.same]; exact ha
  | @snoc ops s' op t h1 hs hsafe ih =>
    have hc' : ∀ op ∈ ops, Spares c tp op := fun o ho => hc o (by simp [ho])
    have hsuf := Grew.suffix (hs.grew hsafe.succeeded)
    rcases amid_split hl hsuf with h2 | h2
    · exact ih hc' h2
    · have hcl := hc op (by simp)
      exact (h.append h1).carries hP hs hsafe hcl.stop hx (hr.steps hc') hcl.above
        (ih hc' ⟨Grew.suffix h1.grew, List.suffix_rfl⟩) h2

theorem SafeSteps.mids (hP : P.Facts) {pre ops : List ROp} {s t : St} (h : SafeHist P pre s) (h' : SafeSteps P pre s ops t) {Q : Path → Prop}
    (hQ : ∀ a s', a <+: ops → SafeSteps P pre s a s' → ∀ p, osRec s'.world.log p ≠ none → Q p) {l : Log} (hl : Amid s.world.log t.world.log l) :
    ∀ p, osRec l p ≠ none → Q p := by
  induction h' generalizing l with
  | nil => rw [hl.same]; exact hQ [] s (List.nil_prefix) .nil
  | @snoc ops s' op t h1 hs hsafe ih =>
    have hsuf := Grew.suffix (hs.grew hsafe.succeeded)
    rcases amid_split hl hsuf with h2 | h2
    · exact ih (fun a s' ha => hQ a s' (ha.trans (List.prefix_append _ _))) h2
    · intro p hp
      rcases (h.append h1).mids hP hs hsafe l h2 p hp with h3 | h3
      · exact hQ ops s' (List.prefix_append _ _) h1 p h3
      · exact hQ _ t List.prefix_rfl (h1.snoc hs hsafe) p h3

/-- The operation names a path whose components have no separator. -/
def Named : ROp → Prop
  | .watch p _ _ _ _ => PathStr.Comps p
  | _ => True

theorem rreg_named : ∀ {ops : List ROp}, (∀ op ∈ ops, Named op) → ∀ c q v, rregOf ops c q = some v → PathStr.Comps q := by
  intro ops
  induction ops using List.reverseRecOn with
  | nil => intro _ c q v h; cases h
  | append_singleton ops op ih =>
    intro hn c q v h
    have ih := ih fun o ho => hn o (by simp [ho])
    rw [rregOf_snoc] at h
    cases op with
    | watch p isrec d e res =>
      simp only [rregStep] at h
      split at h
      · simp only [Reg.watch] at h
        split at h
        · next hd => rw [hd.2]; exact hn (.watch p isrec d e res) (by simp)
        · exact ih c q v h
      · exact ih c q v h
    | stop d =>
      simp only [rregStep, Reg.stop] at h
      split at h
      · cases h
      · exact ih c q v h
    | shuffle => exact ih c q v h

theorem SafeHist.named (hP : P.Facts) {ops : List ROp} {s : St} (h : SafeHist P ops s) (hn : ∀ op ∈ ops, Named op) :
    ∀ p, osRec s.world.log p ≠ none → PathStr.Comps p := by
  intro p hp
  obtain ⟨⟨E, f⟩, hE⟩ := Option.ne_none_iff_exists'.1 hp
  obtain ⟨h0, hu⟩ := (C26_mirror_partial hP h).1.exact p E f hE
  obtain ⟨i, hi⟩ := ne_zero_bit h0
  have key : ∀ q, p <+: q → asks (rregOf ops) q i → PathStr.Comps p := by
    rintro q hq ⟨c, E', g, h1, _⟩ b hb
    exact rreg_named hn c q _ h1 b (hq.subset hb)
  rcases (hu i).1 hi with h1 | ⟨q, h1, _, h2⟩
  · exact key p List.prefix_rfl h1
  · exact key q h1 h2

end Rec

namespace Mac
open Rec (ROp SafeHist SafeSteps Safe rregOf Carries Rests Spares Named)

abbrev I : Platform := Platform.fsevents

theorem factsI : I.Facts := Platform.fsevents_wf.facts

/-! ### The invariant -/

/-- What the watcher has at `p`: event set and whether it is recursive. -/
def view (s : MSt) (p : Path) : Option (Event × Bool) := (s.str.table.get? p).map fun x => ((s.heap x.1).events, (s.heap x.1).isrec)

/-- The same, after the call that is running. -/
def settle (s : MSt) (p : Path) : Option (Event × Bool) :=
  match s.caller with
  | .idle => view s p
  | .storing w f => (s.str.table.get? p).map fun x => ((s.heap x.1).events, if x.1 = w then f else (s.heap x.1).isrec)
  | .moving p' e _ => if p = p' then some (e, true) else view s p

/-- The watches and streams, and the callback. -/
structure Wf (str : Streams.S) (heap : Nat → Fsevents.Watch) (cb : Option Cb) : Prop where
  inv : Streams.Inv str
  clean : ∀ k w, str.m.get? k = some w → ∃ p, str.table.get? p = some (w, k)
  born : ∀ k w p, (k, w, p) ∈ str.born → w < str.n ∧ (heap w).path = PathStr.str p ∧ PathStr.Comps p
  uniq : ∀ k k' w p p', (k, w, p) ∈ str.born → (k', w, p') ∈ str.born → k = k'
  cb : ∀ b, cb = some b → ∃ p, (b.k, b.w, p) ∈ str.born

/-- After the operations `base`, all of them done, and `ops`, of which the last may be under way. -/
structure J (base ops : List ROp) (s : MSt) : Prop where
  tree : ∃ ops₀ ops₁, ops = ops₀ ++ ops₁ ∧ SafeHist I (base ++ ops₀) s.sys.tree ∧
    ((s.plan = none ∧ ops₁ = [] ∧ s.log = s.sys.tree.world.log ∧ s.caller = .idle ∧ s.todo = []) ∨
      ∃ r t, s.plan = some (r, t) ∧ SafeSteps I (base ++ ops₀) s.sys.tree ops₁ t ∧ s.sys.tree.world.log <:+ s.log ∧
        s.todo.reverse ++ s.log = t.world.log)
  named : ∀ op ∈ base ++ ops, Named op
  wf : Wf s.str s.heap s.cb
  view : settle s = osRec s.log
  busy : s.caller ≠ .idle → ∃ c l, s.log = c :: l ∧ s.sys.tree.world.log <:+ l ∧
    ∀ p w k, s.str.table.get? p = some (w, k) → ∃ e, osRec l p = some (e, (s.heap w).isrec)
  move : ∀ p e b, s.caller = .moving p e b → s.str.table.get? p = none ∧ b = true ∧ PathStr.Comps p

theorem settle_idle {s : MSt} (h : s.caller = .idle) : settle s = Mac.view s := by
  funext p; unfold settle; rw [h]

theorem J.init : J [] [] MSt.init where
  tree := ⟨[], [], rfl, .nil, .inl ⟨rfl, rfl, rfl, rfl, rfl⟩⟩
  named := by simp
  wf := by
    constructor
    · exact Streams.Hist.nil.inv
    all_goals simp [MSt.init]
  view := rfl
  busy := fun h => absurd rfl h
  move := by intro p e b h; cases h

/-- A call that is begun succeeds, and an operation is under way. -/
theorem J.planned {base ops : List ROp} {s : MSt} (h : J base ops s) {c : Call} {ok : Bool} {rest : List (Call × Bool)} (ht : s.todo = (c, ok) :: rest) :
    ok = true ∧ ∃ ops₀ ops₁, ops = ops₀ ++ ops₁ ∧ SafeHist I (base ++ ops₀) s.sys.tree ∧
      ∃ r t, s.plan = some (r, t) ∧ SafeSteps I (base ++ ops₀) s.sys.tree ops₁ t ∧ s.sys.tree.world.log <:+ s.log ∧
        rest.reverse ++ (c, ok) :: s.log = t.world.log := by
  obtain ⟨ops₀, ops₁, h1, h2, h3 | ⟨r, t, h3, h4, h5, h6⟩⟩ := h.tree
  · rw [h3.2.2.2.2] at ht; cases ht
  · have h7 : rest.reverse ++ (c, ok) :: s.log = t.world.log := by rw [← h6, ht]; simp
    refine ⟨?_, ops₀, ops₁, h1, h2, r, t, h3, h4, h5, h7⟩
    obtain ⟨new, g1, g2⟩ := h4.grew
    obtain ⟨mid, g3⟩ := h5
    refine g2 (c, ok) ?_
    rw [← h7, ← g3] at g1
    have : new = rest.reverse ++ (c, ok) :: mid := by
      apply List.append_cancel_right (bs := s.sys.tree.world.log)
      rw [← g1]; simp
    rw [this]; simp

/-- The paths that the watcher has, or is about to have, are those of component lists. -/
theorem J.comps {base ops : List ROp} {s : MSt} (h : J base ops s) {c : Call} {ok : Bool} {rest : List (Call × Bool)} (ht : s.todo = (c, ok) :: rest) :
    ∀ p, osRec ((c, ok) :: s.log) p ≠ none → PathStr.Comps p := by
  obtain ⟨_, ops₀, ops₁, h1, h2, r, t, h3, h4, h5, h6⟩ := h.planned ht
  refine SafeSteps.mids factsI h2 h4 ?_ ⟨h5.trans (List.suffix_cons _ _), ⟨_, h6⟩⟩
  intro a s' ha hs' p hp
  refine (h2.append hs').named factsI ?_ p hp
  intro o ho
  apply h.named
  rw [h1, ← List.append_assoc]
  rcases List.mem_append.1 ho with h7 | h7
  · exact List.mem_append_left _ h7
  · exact List.mem_append_right _ (ha.subset h7)

/-- The calls of the watcher met their contract. -/
theorem J.valid {base ops : List ROp} {s : MSt} (h : J base ops s) {c : Call} {ok : Bool} {rest : List (Call × Bool)} (ht : s.todo = (c, ok) :: rest) :
    c.ValidRec I (osRec s.log) := by
  obtain ⟨_, ops₀, ops₁, h1, h2, r, t, h3, h4, h5, h6⟩ := h.planned ht
  have hv := (Rec.C26_mirror_partial factsI (h2.append h4)).2.1
  rw [← h6] at hv
  have : ∀ (a l : Log), ValidLogRec I (a ++ l) → ValidLogRec I l := by
    intro a l
    induction a with
    | nil => exact id
    | cons x a ih => intro hv; exact ih hv.2
  exact (this _ _ hv).1


theorem watch_ok {s : Streams.S} {p : Path} {x : Streams.Start} (h : (Streams.watch s p x).2 = true) :
    s.table.get? p = none ∧ (Streams.watch s p x).1 =
      { s with i := s.i + 1, m := s.m.set (s.i + 1) s.n, n := s.n + 1, born := (s.i + 1, s.n, p) :: s.born,
               table := s.table.set p (s.n, s.i + 1), kern := (s.i + 1, p) :: s.kern } := by
  unfold Streams.watch at h ⊢
  cases hg : s.table.get? p with
  | some _ => rw [hg] at h; cases h
  | none =>
    rw [hg] at h
    cases x with
    | ok => exact ⟨rfl, rfl⟩
    | noCreate => cases h
    | noStart => cases h

theorem unwatch_ok {s : Streams.S} {p : Path} (h : (Streams.unwatch s p).2 = true) :
    ∃ w k, s.table.get? p = some (w, k) ∧ (Streams.unwatch s p).1 = { Streams.stopStream s k with table := s.table.del p } := by
  unfold Streams.unwatch at h ⊢
  cases hg : s.table.get? p with
  | some x => exact ⟨x.1, x.2, rfl, rfl⟩
  | none => rw [hg] at h; cases h

theorem Wf.tab_inj {str : Streams.S} {heap : Nat → Fsevents.Watch} {cb : Option Cb} (h : Wf str heap cb) {p p' : Path} {w k k' : Nat}
    (h1 : str.table.get? p = some (w, k)) (h2 : str.table.get? p' = some (w, k')) : p = p' ∧ k = k' := by
  have g1 := (h.inv.tab _ _ _ h1).1
  have g2 := (h.inv.tab _ _ _ h2).1
  have := h.uniq _ _ _ _ _ g1 g2
  subst this
  exact ⟨(h.inv.fn _ _ _ _ _ g1 g2).2, rfl⟩

theorem Wf.lt {str : Streams.S} {heap : Nat → Fsevents.Watch} {cb : Option Cb} (h : Wf str heap cb) {p : Path} {w k : Nat}
    (h1 : str.table.get? p = some (w, k)) : w < str.n := (h.born _ _ _ (h.inv.tab _ _ _ h1).1).1

theorem Wf.setCb {str : Streams.S} {heap : Nat → Fsevents.Watch} {cb : Option Cb} (h : Wf str heap cb) {b b' : Cb} (hc : cb = some b)
    (h1 : b'.k = b.k) (h2 : b'.w = b.w) : Wf str heap (some b') where
  inv := h.inv
  clean := h.clean
  born := h.born
  uniq := h.uniq
  cb := by
    intro b'' hb
    cases hb
    rw [h1, h2]
    exact h.cb b hc

theorem Wf.put {str : Streams.S} {heap : Nat → Fsevents.Watch} {cb : Option Cb} (h : Wf str heap cb) {w : Nat} {v : Fsevents.Watch}
    (hv : v.path = (heap w).path) : Wf str (Mac.put heap w v) cb where
  inv := h.inv
  clean := h.clean
  born := by
    intro k w' p hb
    have := h.born k w' p hb
    refine ⟨this.1, ?_, this.2.2⟩
    unfold Mac.put
    split
    · next he => rw [hv, ← he]; exact this.2.1
    · exact this.2.1
  uniq := h.uniq
  cb := h.cb

theorem Wf.watch {str : Streams.S} {heap : Nat → Fsevents.Watch} {cb : Option Cb} (h : Wf str heap cb) {p : Path} {x : Streams.Start}
    (hx : (Streams.watch str p x).2 = true) (hp : PathStr.Comps p) {v : Fsevents.Watch} (hv : v.path = PathStr.str p) :
    Wf (Streams.watch str p x).1 (Mac.put heap str.n v) cb := by
  have hi := h.inv.watch p x
  obtain ⟨h1, h2⟩ := watch_ok hx
  rw [h2] at hi ⊢
  refine ⟨hi, ?_, ?_, ?_, ?_⟩
  · intro k w hk
    simp only [GoMap.get?_set] at hk ⊢
    split at hk
    · next he =>
      cases hk
      exact ⟨p, by rw [if_pos rfl, he]⟩
    · obtain ⟨p', hp'⟩ := h.clean k w hk
      refine ⟨p', ?_⟩
      rw [if_neg (by rintro rfl; rw [h1] at hp'; cases hp')]
      exact hp'
  · intro k w p' hb
    rcases List.mem_cons.1 hb with hb | hb
    · simp only [Prod.mk.injEq] at hb
      obtain ⟨_, rfl, rfl⟩ := hb
      exact ⟨Nat.lt_succ_self _, by simp [Mac.put, hv], hp⟩
    · obtain ⟨g1, g2, g3⟩ := h.born k w p' hb
      refine ⟨Nat.lt_succ_of_lt g1, ?_, g3⟩
      unfold Mac.put
      rw [if_neg (by omega)]
      exact g2
  · intro k k' w p₁ p₂ hb hb'
    rcases List.mem_cons.1 hb with hb | hb <;> rcases List.mem_cons.1 hb' with hb' | hb'
    · simp only [Prod.mk.injEq] at hb hb'; rw [hb.1, hb'.1]
    · simp only [Prod.mk.injEq] at hb; have := (h.born _ _ _ hb').1; omega
    · simp only [Prod.mk.injEq] at hb'; have := (h.born _ _ _ hb).1; omega
    · exact h.uniq _ _ _ _ _ hb hb'
  · intro b hb
    obtain ⟨p', hp'⟩ := h.cb b hb
    exact ⟨p', List.mem_cons_of_mem _ hp'⟩

theorem Wf.unwatch {str : Streams.S} {heap : Nat → Fsevents.Watch} {cb : Option Cb} (h : Wf str heap cb) {p : Path}
    (hx : (Streams.unwatch str p).2 = true) : Wf (Streams.unwatch str p).1 heap cb := by
  have hi := h.inv.unwatch p
  obtain ⟨w, k, h1, h2⟩ := unwatch_ok hx
  rw [h2] at hi ⊢
  refine ⟨hi, ?_, h.born, h.uniq, h.cb⟩
  intro k' w' hk
  simp only [Streams.stopStream, GoMap.get?_del] at hk ⊢
  split at hk
  · cases hk
  · next hne =>
    obtain ⟨p', hp'⟩ := h.clean k' w' hk
    refine ⟨p', ?_⟩
    rw [if_neg]
    · exact hp'
    · rintro rfl
      rw [h1] at hp'
      cases hp'
      exact hne rfl

theorem Wf.take {str : Streams.S} {heap : Nat → Fsevents.Watch} (h : Wf str heap none) (k : Nat) (batch : List Rep) :
    Wf (Streams.take str k) heap (enter str k batch) := by
  unfold Streams.take enter
  cases hg : str.m.get? k with
  | none => exact h
  | some w =>
    obtain ⟨p, hp⟩ := h.inv.reg _ _ hg
    refine ⟨⟨h.inv.nodup, h.inv.mnodup, h.inv.le, h.inv.fn, h.inv.reg, h.inv.tab, h.inv.kern, ?_⟩, h.clean, h.born, h.uniq, ?_⟩
    · intro k' w' hb
      rcases List.mem_cons.1 hb with hb | hb
      · cases hb; exact ⟨p, hp⟩
      · exact h.inv.busy _ _ hb
    · intro b hb
      simp only [Option.map_some, Option.some.injEq] at hb
      subst hb
      exact ⟨p, hp⟩

theorem Wf.done {str : Streams.S} {heap : Nat → Fsevents.Watch} {cb : Option Cb} (h : Wf str heap cb) (x : Nat × Nat) :
    Wf { str with busy := str.busy.erase x } heap none :=
  ⟨⟨h.inv.nodup, h.inv.mnodup, h.inv.le, h.inv.fn, h.inv.reg, h.inv.tab, h.inv.kern, fun k w hb => h.inv.busy k w (List.erase_subset hb)⟩,
    h.clean, h.born, h.uniq, by intro b hb; cases hb⟩

/-! ### The invariant is kept -/

theorem free_tree {P : Platform} {cfg : Sched.Cfg} {s s' : Sched.State (Sched.recTree P)} {l : Sched.Lab (Sched.recTree P).Req}
    (h : Sched.Tr (Sched.recTree P) cfg s l s') (hl : Linux.Free l) :
    s'.tree = s.tree := by
  cases h <;> first | rfl | exact hl.elim

/-- A step that leaves the table and the values of the watches. -/
theorem settle_congr {s s' : MSt} (hc : s'.caller = s.caller) (ht : s'.str.table = s.str.table)
    (he : ∀ w, (s'.heap w).events = (s.heap w).events) (hf : ∀ w, (s'.heap w).isrec = (s.heap w).isrec) : settle s' = settle s := by
  funext p
  unfold settle Mac.view
  simp only [hc, ht, he, hf]

theorem J.still {base ops : List ROp} {s s' : MSt} (h : J base ops s) (h0 : s'.sys.tree = s.sys.tree) (h1 : s'.plan = s.plan) (h2 : s'.todo = s.todo)
    (h3 : s'.log = s.log) (hc : s'.caller = s.caller) (ht : s'.str.table = s.str.table)
    (he : ∀ w, (s'.heap w).events = (s.heap w).events) (hf : ∀ w, (s'.heap w).isrec = (s.heap w).isrec)
    (hw : Wf s'.str s'.heap s'.cb) : J base ops s' where
  tree := by rw [h0, h1, h2, h3, hc]; exact h.tree
  named := h.named
  wf := hw
  view := by rw [settle_congr hc ht he hf, h3]; exact h.view
  busy := by
    intro hb
    rw [hc] at hb
    obtain ⟨c, l, g1, g2, g3⟩ := h.busy hb
    refine ⟨c, l, by rw [h3]; exact g1, by rw [h0]; exact g2, ?_⟩
    intro p w k hk
    rw [ht] at hk
    rw [hf]
    exact g3 p w k hk
  move := by
    intro p e b hb
    rw [hc] at hb
    rw [ht]
    exact h.move p e b hb

theorem safeSteps_one {ops : List ROp} {s t : St} {op : ROp} (h : Rec.RStep I true s op t) (hs : Safe (rregOf ops) s.world.log op) :
    SafeSteps I ops s [op] t := by
  have := SafeSteps.snoc (P := I) (pre := ops) (s := s) .nil h (by simpa using hs)
  simpa using this

theorem Plans.safe {ops o : List ROp} {s t : St} {r : Sched.Req} (h : Plans true s r o t) (hs : ∀ op ∈ o, Safe (rregOf ops) s.world.log op) :
    SafeSteps I ops s o t ∧ ∀ op ∈ o, Named op := by
  obtain ⟨h1, _, op, hf, ho⟩ := h
  have hn : Named op := by
    cases r with
    | watch p isrec c e => obtain ⟨g1, res, rfl⟩ := hf; exact g1
    | stop c => cases hf; trivial
    | internal ei => exact hf.elim
  rcases ho with rfl | rfl
  · refine ⟨?_, by simpa using hn⟩
    rw [show [op] = [] ++ [op] from rfl] at h1
    generalize hl : [] ++ [op] = l at h1
    cases h1 with
    | nil => cases hl
    | @snoc a s₁ op' _ ha hb =>
      obtain ⟨rfl, h3⟩ := List.append_inj' hl rfl
      cases h3
      generalize hl : ([] : List ROp) = l at ha
      cases ha with
      | nil => exact safeSteps_one hb (hs _ (by simp))
      | snoc => simp at hl
  · refine ⟨?_, by simpa [Named] using hn⟩
    rw [show [ROp.shuffle, op] = [.shuffle] ++ [op] from rfl] at h1
    generalize hl : [ROp.shuffle] ++ [op] = l at h1
    cases h1 with
    | nil => cases hl
    | @snoc a s₁ op' _ ha hb =>
      obtain ⟨rfl, h3⟩ := List.append_inj' hl rfl
      cases h3
      generalize hl : [ROp.shuffle] = l at ha
      cases ha with
      | nil => cases hl
      | @snoc a s₂ op'' _ hc hd =>
        obtain ⟨rfl, h3⟩ := List.append_inj' (s₁ := []) hl rfl
        cases h3
        generalize hl : ([] : List ROp) = l at hc
        cases hc with
        | nil =>
          have h4 := safeSteps_one hd (hs _ (by simp))
          refine SafeSteps.snoc h4 hb ?_
          have h5 := hs op (by simp)
          have h6 : rregOf (ops ++ [.shuffle]) = rregOf ops := by rw [Rec.rregOf_snoc]; rfl
          rw [h6]
          cases hd
          exact h5
        | snoc => simp at hl

theorem J.step {cfg : Sched.Cfg} {base ops o : List ROp} {s s' : MSt} {r : List (Nat × List Rep)} {g : List (Key × EventInfo)} (h : J base ops s)
    (hs : MStep cfg true s o r g s') (hsafe : ∀ op ∈ o, Safe (rregOf (base ++ ops)) s.sys.tree.world.log op) : J base (ops ++ o) s' := by
  have hview := h.view
  cases hs with
  | go l sys' htr hl =>
    rw [List.append_nil]
    exact h.still (free_tree htr hl) rfl rfl rfl rfl rfl (fun _ => rfl) (fun _ => rfl) h.wf
  | report k w p batch hk hb hc =>
    rw [List.append_nil]
    have hw := h.wf
    rw [hc] at hw
    refine h.still rfl rfl rfl rfl rfl ?_ (fun _ => rfl) (fun _ => rfl) (hw.take k batch)
    show (Streams.take s.str k).table = _
    unfold Streams.take
    split <;> rfl
  | loadEvents b hc hb =>
    rw [List.append_nil]
    exact h.still rfl rfl rfl rfl rfl rfl (fun _ => rfl) (fun _ => rfl) (h.wf.setCb hc rfl rfl)
  | loadRec b e hc he hb =>
    rw [List.append_nil]
    exact h.still rfl rfl rfl rfl rfl rfl (fun _ => rfl) (fun _ => rfl) (h.wf.setCb hc rfl rfl)
  | next b e f r l hc he hf hl ho =>
    rw [List.append_nil]
    refine h.still rfl rfl rfl rfl rfl rfl ?_ ?_ ((h.wf.put (by rfl)).setCb hc rfl rfl)
    · intro w; simp only [Mac.put]; split
      · next he => rw [he]; rfl
      · rfl
    · intro w; simp only [Mac.put]; split
      · next he => rw [he]; rfl
      · rfl
  | send b o l hc ho hq =>
    rw [List.append_nil]
    exact h.still rfl rfl rfl rfl rfl rfl (fun _ => rfl) (fun _ => rfl) (h.wf.setCb hc rfl rfl)
  | done b e f hc he hf hl ho =>
    rw [List.append_nil]
    exact h.still rfl rfl rfl rfl rfl rfl (fun _ => rfl) (fun _ => rfl) (h.wf.done _)
  | plan r ops' t new i hr hp ht hn =>
    obtain ⟨ops₀, ops₁, h1, h2, h3 | ⟨r', t', h3, _⟩⟩ := h.tree
    · obtain ⟨_, rfl, h5, h6, h7⟩ := h3
      rw [List.append_nil] at h1
      subst h1
      obtain ⟨g1, g2⟩ := ht.safe hsafe
      refine ⟨⟨ops, o, rfl, h2, .inr ⟨r, t, rfl, g1, ?_, ?_⟩⟩, ?_, h.wf, h.view, h.busy, h.move⟩
      · rw [h5]; exact List.suffix_rfl
      · simp only [List.reverse_reverse, h5]; exact hn.symm
      · intro op hop
        rw [← List.append_assoc] at hop
        rcases List.mem_append.1 hop with hop | hop
        · exact h.named op hop
        · exact g2 op hop
    · rw [hp] at h3; cases h3
  | watch c p e f x rest ho hc ht =>
    obtain ⟨hok, ops₀, ops₁, g1, g2, r, t, g3, g4, g5, g6⟩ := h.planned ht
    have hcomp := h.comps ht
    rw [hok] at ht hcomp g6
    have hos : ∀ q, osRec ((c, true) :: s.log) q = if q = p then some (e, f) else osRec s.log q := by
      intro q; rcases ho with ⟨rfl, rfl⟩ | ⟨rfl, rfl⟩ <;> simp [osRec]
    have hw := h.wf.watch hok (hcomp p (by rw [hos]; simp)) (v := { path := PathStr.str p, events := e, isrec := f }) rfl
    rw [settle_idle hc] at hview
    rw [List.append_nil]
    refine ⟨⟨ops₀, ops₁, g1, g2, .inr ⟨r, t, g3, g4, g5.trans (List.suffix_cons _ _), by simp only [hok]; exact g6⟩⟩, h.named, hw, ?_,
      fun hb => absurd hc hb, fun p e b hb => by simp only [hc] at hb; cases hb⟩
    rw [settle_idle (by exact hc)]
    funext q
    simp only [hok, hos, ← hview, Mac.view]
    obtain ⟨k1, k2⟩ := watch_ok hok
    rw [k2]
    simp only [GoMap.get?_set]
    by_cases hq : p = q
    · simp [hq, Mac.put]
    · rw [if_neg hq, if_neg (fun hx => hq hx.symm)]
      cases hg : s.str.table.get? q with
      | none => rfl
      | some y =>
        have := h.wf.lt (p := q) (w := y.1) (k := y.2) hg
        simp only [Option.map_some, Mac.put]
        rw [if_neg (by omega)]
  | unwatch c p rest ho hc ht =>
    obtain ⟨hok, ops₀, ops₁, g1, g2, r, t, g3, g4, g5, g6⟩ := h.planned ht
    rw [hok] at ht g6
    have hos : ∀ q, osRec ((c, true) :: s.log) q = if q = p then none else osRec s.log q := by
      intro q; rcases ho with rfl | rfl <;> simp [osRec]
    rw [settle_idle hc] at hview
    rw [List.append_nil]
    refine ⟨⟨ops₀, ops₁, g1, g2, .inr ⟨r, t, g3, g4, g5.trans (List.suffix_cons _ _), by simp only [hok]; exact g6⟩⟩, h.named, h.wf.unwatch hok, ?_,
      fun hb => absurd hc hb, fun p e b hb => by simp only [hc] at hb; cases hb⟩
    rw [settle_idle (by exact hc)]
    funext q
    simp only [hok, hos, ← hview, Mac.view]
    obtain ⟨w, k, k1, k2⟩ := unwatch_ok hok
    rw [k2]
    simp only [GoMap.get?_del]
    by_cases hq : p = q
    · simp [hq]
    · rw [if_neg hq, if_neg (fun hx => hq hx.symm)]
  | swap c p old new f w k rest ho hc ht hw he =>
    obtain ⟨hok, ops₀, ops₁, g1, g2, r, t, g3, g4, g5, g6⟩ := h.planned ht
    have hos : ∀ q, osRec ((c, true) :: s.log) q = if q = p then some (new, f) else osRec s.log q := by
      intro q; rcases ho with ⟨rfl, rfl⟩ | ⟨rfl, _, rfl⟩
      · simp [osRec]
      · simp only [osRec]; by_cases hq : q = p <;> simp [hq]
    rw [settle_idle hc] at hview
    rw [List.append_nil]
    refine ⟨⟨ops₀, ops₁, g1, g2, .inr ⟨r, t, g3, g4, g5.trans (List.suffix_cons _ _), g6⟩⟩, h.named, h.wf.put (by rfl), ?_, ?_,
      fun p e b hb => by cases hb⟩
    · funext q
      simp only [hos, ← hview, Mac.view, settle]
      by_cases hq : q = p
      · subst hq; simp [hw, Mac.put]
      · rw [if_neg hq]
        cases hg : s.str.table.get? q with
        | none => rfl
        | some y =>
          have : y.1 ≠ w := by
            rintro rfl
            exact hq (h.wf.tab_inj (k := y.2) hg hw).1
          simp [Mac.put, this]
    · intro _
      refine ⟨_, _, rfl, g5, ?_⟩
      intro q w' k' hq
      refine ⟨(s.heap w').events, ?_⟩
      rw [← hview]
      simp only [Mac.view, hq, Option.map_some, Mac.put]
      split
      · next hx => rw [hx]
      · rfl
  | store w f hc =>
    rw [List.append_nil]
    obtain ⟨ops₀, ops₁, h1, h2, h3 | h3⟩ := h.tree
    · rw [h3.2.2.2.1] at hc; cases hc
    · refine ⟨⟨ops₀, ops₁, h1, h2, .inr h3⟩, h.named, h.wf.put (by rfl), ?_, fun hb => absurd rfl hb, fun p e b hb => by cases hb⟩
      rw [settle_idle rfl, ← hview]
      funext q
      simp only [Mac.view, settle, hc]
      cases s.str.table.get? q with
      | none => rfl
      | some y =>
        simp only [Option.map_some, Mac.put]
        by_cases hy : y.1 = w <;> simp [hy]
  | mark p e w k rest hc ht hw =>
    obtain ⟨hok, ops₀, ops₁, g1, g2, r, t, g3, g4, g5, g6⟩ := h.planned ht
    have hv := (h.valid ht).1
    rw [settle_idle hc] at hview
    rw [List.append_nil]
    refine ⟨⟨ops₀, ops₁, g1, g2, .inr ⟨r, t, g3, g4, g5.trans (List.suffix_cons _ _), g6⟩⟩, h.named, h.wf.put (by rfl), ?_,
      fun hb => absurd hc hb, fun p e b hb => by simp only [hc] at hb; cases hb⟩
    rw [settle_idle (by exact hc)]
    funext q
    rw [← hview] at hv
    obtain ⟨f, hv⟩ := hv
    simp only [osRec, ← hview, Mac.view]
    simp only [Mac.view, hw, Option.map_some, Option.some.injEq, Prod.mk.injEq] at hv
    by_cases hq : q = p
    · subst hq; simp [hw, Mac.put, hv.1]
    · simp only [hq, Bool.not_true, Bool.false_eq_true, if_false]
      cases hg : s.str.table.get? q with
      | none => rfl
      | some y =>
        have : y.1 ≠ w := by
          rintro rfl
          exact hq (h.wf.tab_inj (k := y.2) hg hw).1
        simp [Mac.put, this]
  | leave p p' old new ok rest hp hc ht hn hu =>
    obtain ⟨hok, ops₀, ops₁, g1, g2, r, t, g3, g4, g5, g6⟩ := h.planned ht
    subst hok
    have hcomp := h.comps ht
    rw [settle_idle hc] at hview
    obtain ⟨w, k, k1, k2⟩ := unwatch_ok hu
    rw [List.append_nil]
    refine ⟨⟨ops₀, ops₁, g1, g2, .inr ⟨r, t, g3, g4, g5.trans (List.suffix_cons _ _), g6⟩⟩, h.named, h.wf.unwatch hu, ?_, ?_, ?_⟩
    · funext q
      simp only [osRec, ← hview, Mac.view, settle, k2, GoMap.get?_del]
      by_cases hq : q = p'
      · simp [hq]
      · simp only [hq, Bool.not_true, Bool.false_eq_true, if_false]
        by_cases hq' : p = q
        · simp [hq']
        · rw [if_neg hq', if_neg (fun hx => hq' hx.symm)]
    · intro _
      refine ⟨_, _, rfl, g5, ?_⟩
      intro q w' k' hq
      simp only [k2, GoMap.get?_del] at hq
      split at hq
      · cases hq
      · refine ⟨(s.heap w').events, ?_⟩
        rw [← hview]
        simp only [Mac.view, hq, Option.map_some]
    · intro q e b hb
      cases hb
      refine ⟨?_, rfl, hcomp p' (by simp [osRec])⟩
      simp only [k2, GoMap.get?_del]
      rw [if_neg hp]
      exact hn
  | arrive p e x hc =>
    rw [List.append_nil]
    obtain ⟨m1, hok, m3⟩ := h.move _ _ _ hc
    obtain ⟨ops₀, ops₁, h1, h2, h3 | h3⟩ := h.tree
    · rw [h3.2.2.2.1] at hc; cases hc
    · have hw := h.wf.watch hok m3 (v := { path := PathStr.str p, events := e, isrec := true }) rfl
      refine ⟨⟨ops₀, ops₁, h1, h2, .inr h3⟩, h.named, hw, ?_, fun hb => absurd rfl hb, fun p e b hb => by cases hb⟩
      rw [settle_idle rfl, ← hview]
      funext q
      simp only [Mac.view, settle, hc]
      obtain ⟨k1, k2⟩ := watch_ok hok
      rw [k2]
      simp only [GoMap.get?_set]
      by_cases hq : p = q
      · simp [hq, Mac.put]
      · rw [if_neg hq, if_neg (fun hx => hq hx.symm)]
        cases hg : s.str.table.get? q with
        | none => rfl
        | some y =>
          have := h.wf.lt (p := q) (w := y.1) (k := y.2) hg
          simp only [Option.map_some, Mac.put]
          rw [if_neg (by omega)]
  | refuse c rest ht hc hf =>
    obtain ⟨hok, _⟩ := h.planned ht
    cases hok
  | effect i r a b t hcalls hp ht hc =>
    obtain ⟨ops₀, ops₁, h1, h2, h3 | ⟨r', t', h3, h4, h5, h6⟩⟩ := h.tree
    · rw [h3.1] at hp; cases hp
    · rw [hp] at h3
      cases h3
      rw [List.append_nil]
      refine ⟨⟨ops, [], by simp, by rw [h1, ← List.append_assoc]; exact h2.append h4, .inl ⟨rfl, rfl, ?_, hc, ht⟩⟩, h.named, h.wf, h.view, fun hb => absurd hc hb, h.move⟩
      rw [ht] at h6; simpa using h6

theorem J.rebase {base ops : List ROp} {s : MSt} (h : J base ops s) (hp : s.plan = none) : J (base ++ ops) [] s where
  tree := by
    obtain ⟨ops₀, ops₁, h1, h2, h3 | ⟨r, t, h3, _⟩⟩ := h.tree
    · refine ⟨[], [], rfl, ?_, .inl ⟨h3.1, rfl, h3.2.2⟩⟩
      rw [h1, h3.2.1]; simpa using h2
    · rw [hp] at h3; cases h3
  named := by simpa using h.named
  wf := h.wf
  view := h.view
  busy := h.busy
  move := h.move

theorem MRun.j {cfg : Sched.Cfg} {base ops : List ROp} {s s' : MSt} {reps sg} (hj : J base [] s) (h : MRun cfg true base s ops reps sg s') :
    J base ops s' := by
  induction h with
  | refl => exact hj
  | step _ hs hsafe ih => exact ih.step hs (hsafe rfl)

end Mac
end Verif
