/-
The non-recursive tree in the programs of all its platforms: what `PropsLinux` shows of inotify, for any platform.

No definitions of the code here; used for the BSDs (`PropsBsd`).
-/
import Verif.PropsLinux

namespace Verif
namespace Plain
open NonRec (Hist Steps Op regOf NoFail GoodPath)
open Spec (wants copies Reg)
open Linux (Free sigs rest isSig isEv copies_congr)

abbrev Y (P : Platform) : Sched.Sys := Sched.plainTree P

/-- The operation is not one of channel `c`, nor the removal of `x` or of a directory above. -/
def Leaves (P : Platform) (c : Nat) (x : Path) : Op → Prop
  | .watch _ _ d _ _ => d ≠ c
  | .stop d => d ≠ c
  | .internal ei => ei.event = P.remove → ¬ ei.path <+: x
  | .shuffle => True

theorem regOf_snoc {P : Platform} (ops : List Op) (op : Op) : regOf P (ops ++ [op]) = NonRec.regStep P (regOf P ops) op := by
  simp [regOf, List.foldl_append]

theorem Leaves.noFail {P : Platform} {c : Nat} {x : Path} {op : Op} (h : Leaves P c x op) : NoFail c op := by
  cases op with
  | watch p isrec d e res => exact fun hd => absurd hd h
  | _ => trivial

theorem leaves_step {P : Platform} {c : Nat} {x q : Path} {op : Op} (h : Leaves P c x op) (hq : q <+: x) (r : Reg) : NonRec.regStep P r op c q = r c q := by
  cases op with
  | watch p isrec d e res =>
    simp only [NonRec.regStep]
    split
    · simp only [Reg.watch]
      rw [if_neg]
      rintro ⟨h1, _⟩
      exact h h1.symm
    · rfl
  | stop d =>
    simp only [NonRec.regStep, Reg.stop]
    rw [if_neg (fun hc => h hc.symm)]
  | internal ei =>
    simp only [NonRec.regStep]
    split
    · next he =>
      simp only [Reg.remove]
      rw [if_neg fun hp => h he (hp.trans hq)]
    · rfl
  | shuffle => rfl

theorem leaves_reg {P : Platform} {c : Nat} {x q : Path} (ops : List Op) : ∀ {ops' : List Op}, (∀ op ∈ ops', Leaves P c x op) → q <+: x →
    regOf P (ops ++ ops') c q = regOf P ops c q := by
  intro ops'
  induction ops' generalizing ops with
  | nil => intro _ _; rw [List.append_nil]
  | cons op ops' ih =>
    intro h hq
    rw [show ops ++ op :: ops' = (ops ++ [op]) ++ ops' by simp, ih (ops ++ [op]) (fun o ho => h o (by simp [ho])) hq, regOf_snoc,
      leaves_step (h op (by simp)) hq]

/-- The tree asks the OS for what is registered. -/
theorem wants_backed {P : Platform} (hP : P.Facts) {ops : List Op} {t : St} (ht : Hist P true ops t) {c : Nat} (hops : ∀ op ∈ ops, NoFail c op) {p : Path}
    {E : Event} (hE : E &&& P.internal = 0) (hreg : wants (regOf P ops) c E p = true) : E ⊑ osOf t.world.log p := by
  have href := NonRec.Hist.refines hP ht hops
  unfold wants at hreg
  rcases hx : regOf P ops c p with _ | ⟨ev, fl⟩
  · rw [hx] at hreg; cases hreg
  · rw [hx] at hreg
    have hs : E ⊑ ev := by simpa using hreg
    intro i hb
    refine ((NonRec.C11_os_mirror hP ht p).1 i).2 ⟨?_, .inl ⟨c, ev ||| (if fl then P.recursive else 0), ?_, ?_⟩⟩
    · have := congrArg (fun v => BitVec.getLsbD v i) hE
      simp only [BitVec.getLsbD_and] at this
      have hi' : BitVec.getLsbD E i = true := hb
      rw [hi'] at this
      simpa using this
    · rw [href.ent, hx]; rfl
    · rw [BitVec.getLsbD_or, hs i hb]; rfl

theorem hist_append {P : Platform} {ops ops' : List Op} {s t : St} (h : Hist P true ops s) (h' : Steps P true s ops' t) : Hist P true (ops ++ ops') t := by
  induction h' with
  | nil => rw [List.append_nil]; exact h
  | snoc _ hs ih => rw [← List.append_assoc]; exact ih.snoc hs

/-- Also in the middle of operations. -/
theorem backed_amid {P : Platform} (hP : P.Facts) {ops ops' : List Op} {s t : St} (h : Hist P true ops s) (h' : Steps P true s ops' t)
    {c : Nat} (hops : ∀ op ∈ ops ++ ops', NoFail c op) {p x : Path} (hp : p <+: x) (hl : ∀ op ∈ ops', Leaves P c x op) {E : Event}
    (hE : E &&& P.internal = 0) (hreg : wants (regOf P ops) c E p = true) {l : Log} (h1 : s.world.log <:+ l) (h2 : l <:+ t.world.log) :
    E ⊑ osOf l p := by
  induction h' with
  | nil =>
    rw [Amid.same ⟨h1, h2⟩]
    exact wants_backed hP h (by simpa using hops) hE hreg
  | @snoc ops'' s₃ op s₄ h3 h4 ih =>
    have hh3 := hist_append h h3
    have hst := NonRec.Step.steady hP (NonRec.Hist.good hP hh3) h4
    have hw : ∀ o, (∀ op ∈ o, Leaves P c x op) → wants (regOf P (ops ++ o)) c E p = true := by
      intro o ho
      unfold wants
      rw [leaves_reg ops ho hp]
      exact hreg
    rcases amid_split ⟨h1, h2⟩ hst.1 with hl' | hl'
    · exact ih (fun o ho => hops o (by simp only [List.mem_append] at ho ⊢; rcases ho with h | h; exact .inl h; exact .inr (.inl h)))
        (fun o ho => hl o (by simp [ho])) hl'.2
    · refine Event.Sub.trans ?_ (hst.2 l hl' p).1
      have h5 := wants_backed hP hh3 (fun o ho => hops o (by simp only [List.mem_append] at ho ⊢; rcases ho with h | h; exact .inl h; exact .inr (.inl h))) hE (hw _ fun o ho => hl o (by simp [ho]))
      have h6 := wants_backed hP (hist_append h (h3.snoc h4)) hops hE (hw _ hl)
      generalize osOf s₃.world.log p = a at *
      generalize osOf s₄.world.log p = b at *
      clear hst ih hops hl h4 h3 hw h hreg hE
      ebits

section
variable {P : Platform} (K : Nat) (c : Nat) (f : EventInfo → Bool)

/-- Signals for `c` that are still to be made. -/
def due (s : Sched.State (Y P)) : Nat := (s.disp.map (rest K c f)).sum + K * s.cq.countP f

/-- No goroutine has made or is about to make too many. -/
def Fit (s : Sched.State (Y P)) : Prop :=
  ∀ i ei d a, (i, ei, Sched.Disp.reading d a) ∈ s.disp → f ei = true → d.count (.user c) + (if a = some (.user c) then 1 else 0) ≤ K

end

theorem due_step {P : Platform} {K c : Nat} {f : EventInfo → Bool} {cfg : Sched.Cfg} {s s' : Sched.State (Y P)} {l : Sched.Lab (Y P).Req}
    (h : Sched.Tr (Y P) cfg s l s') (hl : Free l) (hK : ∀ ei, f ei = true → ((Y P).sends s.tree ei).count (.user c) = K) (hfit : Fit K c f s) :
    (sigs l).countP (isSig c f) + due K c f s' = due K c f s ∧ Fit K c f s' := by
  cases h with
  | report => exact hl.elim
  | push => exact hl.elim
  | effect => exact hl.elim
  | intEffect => exact hl.elim
  | spawn ei q hq =>
    constructor
    · simp only [sigs, due, hq, List.map_cons, List.sum_cons, List.countP_cons, rest, List.countP_nil]
      split <;> simp_all [Nat.mul_add] <;> omega
    · intro i ei' d a hm hf
      simp only [List.mem_cons, Prod.mk.injEq, reduceCtorEq, and_false, false_or] at hm
      exact hfit i ei' d a hm hf
  | rlock i ei a b hd hw hi hp =>
    constructor
    · simp [sigs, due, hd, rest]
    · intro i' ei' d' a' hm hf
      simp only [List.mem_append, List.mem_cons, Prod.mk.injEq, Sched.Disp.reading.injEq] at hm
      rcases hm with hm | ⟨_, _, rfl, rfl⟩ | hm
      · exact hfit i' ei' d' a' (by rw [hd]; simp [hm]) hf
      · simp
      · exact hfit i' ei' d' a' (by rw [hd]; simp [hm]) hf
  | pick i ei d k a b hd hk =>
    constructor
    · simp [sigs, due, hd, rest]
    · intro i' ei' d' a' hm hf
      simp only [List.mem_append, List.mem_cons, Prod.mk.injEq, Sched.Disp.reading.injEq] at hm
      rcases hm with hm | ⟨_, rfl, rfl, rfl⟩ | hm
      · exact hfit i' ei' d' a' (by rw [hd]; simp [hm]) hf
      · have := hK _ hf
        split
        · next hc =>
          cases hc
          rw [this] at hk
          omega
        · have := hfit i ei' d' none (by rw [hd]; simp) hf
          simpa using this
      · exact hfit i' ei' d' a' (by rw [hd]; simp [hm]) hf
  | send i ei d k a b hd =>
    have h1 := hfit i ei d (some k) (by rw [hd]; simp)
    constructor
    · simp only [sigs, due, hd, rest, isSig, List.map_append, List.map_cons, List.sum_append, List.sum_cons, List.countP_cons, List.countP_nil]
      by_cases hf : f ei = true
      · have h2 := h1 hf
        by_cases hk : k = .user c
        · subst hk
          simp only [if_true] at h2
          simp only [hf, if_true, List.count_cons_self, decide_true, Bool.and_self]
          omega
        · have h3 : (k :: d).count (.user c) = d.count (.user c) := List.count_cons_of_ne hk
          simp [hf, hk, h3]
      · simp [hf]
    · intro i' ei' d' a' hm hf
      simp only [List.mem_append, List.mem_cons, Prod.mk.injEq, Sched.Disp.reading.injEq] at hm
      rcases hm with hm | ⟨_, rfl, rfl, rfl⟩ | hm
      · exact hfit i' ei' d' a' (by rw [hd]; simp [hm]) hf
      · have h2 := h1 hf
        by_cases hk : k = .user c
        · subst hk
          simpa using h2
        · have h3 : (k :: d).count (.user c) = d.count (.user c) := List.count_cons_of_ne hk
          rw [h3]
          simp at h2 ⊢
          omega
      · exact hfit i' ei' d' a' (by rw [hd]; simp [hm]) hf
  | runlock i ei d a b hd hk hh =>
    constructor
    · have h0 : f ei = true → K - d.count (.user c) = 0 := by
        intro hf
        have := hk (.user c)
        rw [hK _ hf] at this
        omega
      simp only [sigs, due, hd, rest, List.map_append, List.map_cons, List.sum_append, List.sum_cons, List.countP_nil]
      split
      · next hf => rw [h0 hf]; omega
      · omega
    · intro i' ei' d' a' hm hf
      simp only [List.mem_append, List.mem_cons, Prod.mk.injEq, reduceCtorEq, and_false, false_or] at hm
      exact hfit i' ei' d' a' (by rw [hd]; rcases hm with hm | hm <;> simp [hm]) hf
  | fin i ei d a b hd hk hh =>
    constructor
    · have h0 : f ei = true → K - d.count (.user c) = 0 := by
        intro hf
        have := hk (.user c)
        rw [hK _ hf] at this
        omega
      simp only [sigs, due, hd, rest, List.map_append, List.map_cons, List.sum_append, List.sum_cons, List.countP_nil]
      split
      · next hf => rw [h0 hf]; omega
      · omega
    · intro i' ei' d' a' hm hf
      simp only [List.mem_append] at hm
      exact hfit i' ei' d' a' (by rw [hd]; rcases hm with hm | hm <;> simp [hm]) hf
  | handed i ei a b hd hc =>
    constructor
    · simp [sigs, due, hd, rest]
    · intro i' ei' d' a' hm hf
      simp only [List.mem_append] at hm
      exact hfit i' ei' d' a' (by rw [hd]; rcases hm with hm | hm <;> simp [hm]) hf
  | _ => exact ⟨by simp [sigs, due], hfit⟩

theorem free_tree {P : Platform} {cfg : Sched.Cfg} {s s' : Sched.State (Y P)} {l : Sched.Lab (Y P).Req} (h : Sched.Tr (Y P) cfg s l s') (hl : Free l) :
    s'.tree = s.tree := by
  cases h <;> first | rfl | exact hl.elim

/-! ### Operations under way -/

/-- After the operations `base`, all of them done, and `ops`, of which the last may be under way (`plan`, with calls `todo` still to make). -/
def Amid (P : Platform) (base ops : List Op) (tree : St) (plan : Option (Sched.Req × St)) (todo : List (Call × Bool)) (log : Log) : Prop :=
  ∃ ops₀ ops₁, ops = ops₀ ++ ops₁ ∧ Hist P true (base ++ ops₀) tree ∧
    ((plan = none ∧ ops₁ = [] ∧ log = tree.world.log ∧ todo = []) ∨
      ∃ r t, plan = some (r, t) ∧ Steps P true tree ops₁ t ∧ tree.world.log <:+ log ∧ todo.reverse ++ log = t.world.log)

theorem Amid.init (P : Platform) : Amid P [] [] NonRec.init none [] [] := ⟨[], [], rfl, .nil, .inl ⟨rfl, rfl, rfl, rfl⟩⟩

section
variable {P : Platform} {base ops : List Op} {tree : St} {plan : Option (Sched.Req × St)} {todo : List (Call × Bool)} {log : Log}

theorem Amid.begin (h : Amid P base ops tree none todo log) {o : List Op} {t : St} {new : Log} (r : Sched.Req) (hs : Steps P true tree o t)
    (hn : t.world.log = new ++ tree.world.log) : Amid P base (ops ++ o) tree (some (r, t)) new.reverse log := by
  obtain ⟨ops₀, ops₁, h1, h2, ⟨_, rfl, h5, h7⟩ | ⟨r', t', h3, _⟩⟩ := h
  · rw [List.append_nil] at h1
    subst h1
    refine ⟨ops, o, rfl, h2, .inr ⟨r, t, rfl, hs, ?_, ?_⟩⟩
    · rw [h5]; exact List.suffix_rfl
    · rw [List.reverse_reverse, h5]; exact hn.symm
  · cases h3

theorem Amid.call {y : Call × Bool} (h : Amid P base ops tree plan (y :: todo) log) : Amid P base ops tree plan todo (y :: log) := by
  obtain ⟨ops₀, ops₁, h1, h2, ⟨_, _, _, h7⟩ | ⟨r, t, g3, g4, g5, g6⟩⟩ := h
  · cases h7
  · exact ⟨ops₀, ops₁, h1, h2, .inr ⟨r, t, g3, g4, g5.trans (List.suffix_cons _ _), by rw [← g6]; simp⟩⟩

theorem Amid.done {r : Sched.Req} {t : St} (h : Amid P base ops tree (some (r, t)) [] log) : Amid P base ops t none [] log := by
  obtain ⟨ops₀, ops₁, h1, h2, ⟨h3, _⟩ | ⟨r', t', h3, h4, h5, h6⟩⟩ := h
  · cases h3
  · cases h3
    exact ⟨ops, [], by simp, by rw [h1, ← List.append_assoc]; exact hist_append h2 h4, .inl ⟨rfl, rfl, by simpa using h6, rfl⟩⟩

theorem Amid.rebase (h : Amid P base ops tree none todo log) : Amid P (base ++ ops) [] tree none todo log := by
  obtain ⟨ops₀, ops₁, h1, h2, h3 | ⟨r, t, h3, _⟩⟩ := h
  · refine ⟨[], [], rfl, ?_, .inl ⟨h3.1, rfl, h3.2.2⟩⟩
    rw [h1, h3.2.1]; simpa using h2
  · cases h3

/-- Between operations. -/
theorem Amid.idle (h : Amid P base ops tree none todo log) : Hist P true (base ++ ops) tree ∧ log = tree.world.log ∧ todo = [] := by
  obtain ⟨ops₀, ops₁, h1, h2, h3 | ⟨r, t, h3, _⟩⟩ := h
  · rw [h1, h3.2.1, List.append_nil]; exact ⟨h2, h3.2.2⟩
  · cases h3

theorem Amid.valid (hP : P.Facts) (h : Amid P base ops tree plan todo log) : ValidLog P log := by
  obtain ⟨ops₀, ops₁, h1, h2, ⟨_, _, h3, _⟩ | ⟨r, t, _, h4, _, h6⟩⟩ := h
  · rw [h3]; exact (NonRec.C12_contract hP h2).1
  · have hv := (NonRec.C12_contract hP (hist_append h2 h4)).1
    rw [← h6] at hv
    clear h6
    revert hv
    induction todo.reverse with
    | nil => exact id
    | cons y l ih => exact fun hv => ih hv.2

/-- What is registered is in the OS watch, also while operations of others are under way. -/
theorem Amid.backed (hP : P.Facts) (h : Amid P base ops tree plan todo log) {c : Nat} (hops : ∀ op ∈ base ++ ops, NoFail c op) {p x : Path}
    (hpx : p <+: x) (hl : ∀ op ∈ ops, Leaves P c x op) {E : Event} (hE : E &&& P.internal = 0) (hreg : wants (regOf P base) c E p = true) :
    E ⊑ osOf log p := by
  obtain ⟨ops₀, ops₁, rfl, h2, h3⟩ := h
  have hw : wants (regOf P (base ++ ops₀)) c E p = true := by
    unfold wants
    rw [leaves_reg base (fun o ho => hl o (by simp [ho])) hpx]
    exact hreg
  rw [← List.append_assoc] at hops
  rcases h3 with ⟨_, rfl, h5, _⟩ | ⟨r, t, _, h4, h5, h6⟩
  · rw [h5]
    exact wants_backed hP h2 (by simpa using hops) hE hw
  · exact backed_amid hP h2 h4 hops hpx (fun o ho => hl o (by simp [ho])) hE hw h5 ⟨_, h6⟩

/-- How often the tree sends an event, also while operations of others are under way. -/
theorem Amid.copies (hP : P.Facts) (h : Amid P base ops tree plan todo log) {c : Nat} (hops : ∀ op ∈ base ++ ops, NoFail c op) {x : Path}
    (hl : ∀ op ∈ ops, Leaves P c x op) {E : Event} (hE : E &&& P.internal = 0) (hpl : NonRec.PlainEvent P E) (hlen : 2 ≤ x.length) {ei : EventInfo}
    (hei : isEv E x ei = true) : ((Y P).sends tree ei).count (.user c) = copies (regOf P base) c E x := by
  obtain ⟨ops₀, ops₁, rfl, h2, _⟩ := h
  simp only [isEv, Bool.and_eq_true, decide_eq_true_eq] at hei
  obtain ⟨h1, h3⟩ := hei
  have := (NonRec.C01_delivery_exact hP h2 (ei := ei) (by rw [h3]; exact hlen)
    (by rw [h1]; exact hE) (by rw [h1]; exact hpl)).1 c (fun o ho => hops o (by
    simp only [List.mem_append] at ho ⊢; rcases ho with h | h; exact .inl h; exact .inr (.inl h)))
  rw [h1, h3] at this
  refine Eq.trans this (copies_congr fun q hq => ?_)
  exact leaves_reg base (fun o ho => hl o (by simp [ho])) hq
end

/-! ### Steps of `Sched` -/

theorem free_os {P : Platform} {cfg : Sched.Cfg} {s s' : Sched.State (Y P)} {l : Sched.Lab (Y P).Req} (h : Sched.Tr (Y P) cfg s l s') (hl : Free l) :
    s'.os = s.os := by
  cases h <;> first | rfl | exact hl.elim

theorem step_weaken {P : Platform} {b : Bool} {s s' : St} {op : Op} (h : NonRec.Step P b s op s') : NonRec.Step P false s op s' := by
  cases h with
  | watch h1 h2 h3 _ => exact .watch h1 h2 h3 (by intro h; cases h)
  | stop _ => exact .stop (by intro h; cases h)
  | internal h1 h2 _ => exact .internal h1 h2 (by intro h; cases h)
  | shuffle h => exact .shuffle h

theorem steps_snoc {P : Platform} {b : Bool} {s t : St} {ops : List Op} {op : Op} (h : Steps P b s (ops ++ [op]) t) :
    ∃ s₁, Steps P b s ops s₁ ∧ NonRec.Step P b s₁ op t := by
  generalize ho : ops ++ [op] = l at h
  cases h with
  | nil => simp at ho
  | @snoc ops' s1 op' _ h1 h2 =>
    obtain ⟨rfl, h3⟩ := List.append_inj' ho rfl
    obtain rfl : op = op' := by simpa using h3
    exact ⟨s1, h1, h2⟩

theorem steps_nil {P : Platform} {b : Bool} {s t : St} (h : Steps P b s [] t) : t = s := by
  generalize ho : ([] : List Op) = l at h
  cases h with
  | nil => rfl
  | snoc _ _ => simp at ho

theorem plans_step {P : Platform} {b : Bool} {s t : St} {r : Sched.Req} {ops : List Op} (h : Steps P b s ops t ∧ ∃ op, Linux.Fits r op ∧ (ops = [op] ∨ ops = [.shuffle, op])) : (Y P).step s r t := by
  obtain ⟨h1, op, h2, h3⟩ := h
  have key : ∃ s₁, (s₁ = s ∨ NonRec.Step P false s .shuffle s₁) ∧ NonRec.Step P false s₁ op t := by
    rcases h3 with rfl | rfl
    · obtain ⟨s1, h4, h5⟩ := steps_snoc (ops := []) h1
      exact ⟨s1, .inl (steps_nil h4), step_weaken h5⟩
    · obtain ⟨s1, h4, h5⟩ := steps_snoc (ops := [.shuffle]) h1
      obtain ⟨s2, h6, h7⟩ := steps_snoc (ops := []) h4
      obtain rfl := steps_nil h6
      exact ⟨s1, .inr (step_weaken h7), step_weaken h5⟩
  obtain ⟨s₁, h4, h5⟩ := key
  refine ⟨s₁, h4, ?_⟩
  cases r with
  | watch p isrec c e => obtain ⟨res, rfl⟩ := h2; exact ⟨res, h5⟩
  | stop c => obtain rfl := h2; exact h5
  | internal ei => obtain rfl := h2; exact h5

end Plain
end Verif
