/-
C120: what a channel is sent depends on the calls with this channel only.

Two executions are compared, in which other channels do different things.
-/
import Verif.PropsNonRec2
import Verif.PropsRec
import Verif.PropsRecFail

namespace Verif
open Spec

/-- What concerns one channel: its own calls with their results, and directories that were removed. -/
inductive Own
  | watch (p : Path) (isrec : Bool) (e : Event) (res : Bool)
  | stop
  | removed (p : Path)

/-- The table of one channel. -/
def Own.step (r : Path → Option (Event × Bool)) : Own → Path → Option (Event × Bool)
  | .watch p isrec e res => fun q => if res = true ∧ q = p then
      (match r p with
      | none => some (e, isrec)
      | some (e', f) => some (e' ||| e, f || isrec)) else r q
  | .stop => fun _ => none
  | .removed p => fun q => if p <+: q then none else r q

def Own.table (l : List Own) : Path → Option (Event × Bool) := l.foldl Own.step (fun _ => none)

/-! ### The non-recursive tree -/

namespace NonRec
variable {P : Platform}

/-- What an operation is to the channel `c`. -/
def own (P : Platform) (c : Nat) : Op → Option Own
  | .watch p isrec d e res => if d = c then some (.watch p isrec e res) else none
  | .stop d => if d = c then some .stop else none
  | .internal ei => if ei.event = P.remove then some (.removed ei.path) else none
  | .shuffle => none

theorem regStep_own (c : Nat) (r : Reg) (op : Op) :
    regStep P r op c = match own P c op with
      | none => r c
      | some o => Own.step (r c) o := by
  cases op with
  | watch p isrec d e res =>
    by_cases hd : d = c
    · subst hd
      funext q
      by_cases hq : q = p
      · subst hq
        cases res
        · simp [regStep, own, Own.step]
        · simp only [regStep, own, Own.step, Reg.watch, if_true, and_self]
          cases r d q <;> rfl
      · cases res <;> simp [regStep, own, Own.step, Reg.watch, hq]
    · funext q
      cases res <;> simp [regStep, own, Reg.watch, hd, Ne.symm hd]
  | stop d =>
    by_cases hd : d = c
    · subst hd; funext q; simp [regStep, own, Own.step, Reg.stop]
    · funext q; simp [regStep, own, Reg.stop, hd, Ne.symm hd]
  | internal ei =>
    by_cases h : ei.event = P.remove
    · funext q; simp [regStep, own, h, Own.step, Reg.remove]
    · simp [regStep, own, h]
  | shuffle => rfl

theorem foldl_own (c : Nat) : ∀ (ops : List Op) (r : Reg), ops.foldl (regStep P) r c = (ops.filterMap (own P c)).foldl Own.step (r c) := by
  intro ops
  induction ops with
  | nil => intro r; rfl
  | cons op l ih =>
    intro r
    rw [List.foldl_cons, ih, regStep_own]
    cases h : own P c op <;> simp [h]

theorem regOf_own (c : Nat) (ops : List Op) : regOf P ops c = Own.table (ops.filterMap (own P c)) := foldl_own c ops Reg.empty

/-- **C120** in full: if the calls with `c` and their results are the same in two executions, and the same directories were removed, then `c` is
sent the same. -/
def C120_full (P : Platform) : Prop := ∀ (rel rel' : Bool) (ops ops' : List Op) (s s' : St) (c : Nat), Hist P rel ops s → Hist P rel' ops' s' →
  ops.filterMap (own P c) = ops'.filterMap (own P c) → ∀ ei : EventInfo, (sends P s.root ei).count (.user c) = (sends P s'.root ei).count (.user c)

theorem own_noFail {c : Nat} {ops ops' : List Op} (hown : ops.filterMap (own P c) = ops'.filterMap (own P c))
    (hf : ∀ op ∈ ops, NoFail c op) : ∀ op ∈ ops', NoFail c op := by
  intro op hop
  cases op with
  | watch p isrec d e res =>
    intro hd
    subst hd
    have : Own.watch p isrec e res ∈ ops'.filterMap (own P d) := List.mem_filterMap.2 ⟨_, hop, by simp [own]⟩
    rw [← hown] at this
    obtain ⟨op, ho, he⟩ := List.mem_filterMap.1 this
    cases op with
    | watch p' isrec' d' e' res' =>
      simp only [own] at he
      split at he
      · next hdd =>
        simp only [Option.some.injEq, Own.watch.injEq] at he
        have := hf _ ho hdd
        rw [he.2.1, he.2.2.2] at this
        exact this
      · cases he
    | stop d' => simp only [own] at he; split at he <;> cases he
    | internal ei => simp only [own] at he; split at he <;> cases he
    | shuffle => cases he
  | _ => trivial

/-- **C120, partial**: it is if no plain Watch with `c` returned an error.  Calls with other channels may fail in any way, and recursive
Watches with `c`.  Missing: plain Watches with `c` that fail, see `C120_refuted`. -/
theorem C120_alone_partial (hP : P.Facts) {rel rel' : Bool} {ops ops' : List Op} {s s' : St} {c : Nat} (h : Hist P rel ops s)
    (h' : Hist P rel' ops' s') (hown : ops.filterMap (own P c) = ops'.filterMap (own P c)) (hf : ∀ op ∈ ops, NoFail c op) (ei : EventInfo) :
    (sends P s.root ei).count (.user c) = (sends P s'.root ei).count (.user c) := by
  have hf' := own_noFail hown hf
  by_cases hlen : 2 ≤ ei.path.length
  case neg => rw [sends_short _ (by omega), sends_short _ (by omega)]
  have hs := Hist.shape hP h
  have hs' := Hist.shape hP h'
  rw [count_sends hs.sound hlen, count_sends hs'.sound hlen]
  have he : ∀ q, entry s.root c q = entry s'.root c q := by
    intro q
    rw [(Hist.refines hP h hf).ent, (Hist.refines hP h' hf').ent, regOf_own, regOf_own, hown]
  have hh : ∀ q m, (watchAt s.root q).hit P (.user c) m = (watchAt s'.root q).hit P (.user c) m := by
    intro q m
    rw [hit_user (hs.sound q), hit_user (hs'.sound q)]
    have := he q
    unfold entry at this
    rw [this]
  simp only [hh]

/-- What comes after Stop, column by column. -/
theorem after_stop (hP : P.Facts) {rel rel1 : Bool} {ops : List Op} {s s1 s2 : St} {c : Nat} (h : Hist P rel ops s) (hstop : Step P rel s (.stop c) s1)
    {l : List Op} (hl : Steps P rel1 s1 l s2) (hf : ∀ op ∈ l, NoFail c op) :
    Shape P s2.root ∧ ∀ q, entry s2.root c q = enc P (Own.table (l.filterMap (own P c)) q) := by
  have hs := Hist.shape hP h
  have hs1 := hstop.shape hP hs
  have h0 : Refines P c s1.root Reg.empty := by
    refine ⟨fun q => ?_, fun q e f hr => by simp [Reg.empty] at hr⟩
    cases hstop with
    | stop hO => rw [(stop_effect hP _ hs c).2 c q]; simp [Reg.empty, enc]
  have key : Shape P s2.root ∧ Refines P c s2.root (l.foldl (regStep P) Reg.empty) := by
    induction hl with
    | nil => exact ⟨hs1, h0⟩
    | @snoc l s op s' _ h2 ih =>
      obtain ⟨i1, i2⟩ := ih (fun o ho => hf o (by simp [ho]))
      refine ⟨h2.shape hP i1, ?_⟩
      rw [List.foldl_append]
      exact i2.step hP i1 h2 (hf op (by simp))
  refine ⟨key.1, fun q => ?_⟩
  rw [key.2.ent, foldl_own]
  rfl

/-- What happened before the last Stop of the channel does not matter, not even calls that failed. -/
theorem C120_since_stop (hP : P.Facts) {rel rel1 rel' rel1' : Bool} {ops ops' l l' : List Op} {s s1 s2 s' s1' s2' : St} {c : Nat}
    (h : Hist P rel ops s) (hstop : Step P rel s (.stop c) s1) (hl : Steps P rel1 s1 l s2)
    (h' : Hist P rel' ops' s') (hstop' : Step P rel' s' (.stop c) s1') (hl' : Steps P rel1' s1' l' s2')
    (hown : l.filterMap (own P c) = l'.filterMap (own P c)) (hf : ∀ op ∈ l, NoFail c op) (ei : EventInfo) :
    (sends P s2.root ei).count (.user c) = (sends P s2'.root ei).count (.user c) := by
  obtain ⟨hs, he⟩ := after_stop hP h hstop hl hf
  obtain ⟨hs', he'⟩ := after_stop hP h' hstop' hl' (own_noFail hown hf)
  by_cases hlen : 2 ≤ ei.path.length
  case neg => rw [sends_short _ (by omega), sends_short _ (by omega)]
  rw [count_sends hs.sound hlen, count_sends hs'.sound hlen]
  have hh : ∀ q m, (watchAt s2.root q).hit P (.user c) m = (watchAt s2'.root q).hit P (.user c) m := by
    intro q m
    rw [hit_user (hs.sound q), hit_user (hs'.sound q)]
    have : entry s2.root c q = entry s2'.root c q := by rw [he, he', hown]
    unfold entry at this
    rw [this]
  simp only [hh]

namespace AloneEx
open Ex
/-- Channel 1 asks for Create and Write on `/a` and the OS refuses; nobody else watches. -/
def f1 : St := (watchOp I (fun _ _ => false) list init [a] false 1 CW).1
theorem step1 : Step I true init (.watch [a] false 1 CW false) f1 :=
  Step.watch (O := fun _ _ => false) good_a uCW list_named (fun _ h => by cases h)
/-- Channel 2 has failed to watch `/a`; then channel 1 watches it. -/
def g1 : St := (watchOp I (fun _ _ => false) list init [a] false 2 CW).1
def g2 : St := (watchOp I .ok list g1 [a] false 1 W).1
theorem gstep1 : Step I true init (.watch [a] false 2 CW false) g1 :=
  Step.watch (O := fun _ _ => false) good_a uCW list_named (fun _ h => by cases h)
theorem gstep2 : Step I true g1 (.watch [a] false 1 W true) g2 :=
  Step.watch (O := .ok) good_a uW list_named (fun _ _ => rfl)
/-- Channel 1 alone. -/
def h1 : St := (watchOp I .ok list init [a] false 1 W).1
theorem hstep1 : Step I true init (.watch [a] false 1 W true) h1 :=
  Step.watch (O := .ok) good_a uW list_named (fun _ _ => rfl)
end AloneEx

/-- The hypotheses of `C120_alone_partial` hold for channel 1 with and without a failed call with channel 2; it is sent one event. -/
example : Hist Ex.I true [.watch [Ex.a] false 2 Ex.CW false, .watch [Ex.a] false 1 Ex.W true] AloneEx.g2 ∧
    Hist Ex.I true [.watch [Ex.a] false 1 Ex.W true] AloneEx.h1 ∧
    [Op.watch [Ex.a] false 2 Ex.CW false, .watch [Ex.a] false 1 Ex.W true].filterMap (own Ex.I 1) =
      [Op.watch [Ex.a] false 1 Ex.W true].filterMap (own Ex.I 1) ∧
    (sends Ex.I AloneEx.g2.root { event := Ex.W, path := [Ex.a, Ex.f] }).count (.user 1) = 1 :=
  ⟨(Steps.nil.snoc AloneEx.gstep1).snoc AloneEx.gstep2, Steps.nil.snoc AloneEx.hstep1, rfl, by decide⟩

namespace AloneEx
open Ex
/-- After the failed Watch channel 1 is stopped and watches again. -/
def f2' : St := stop I .ok Ex.f2 1
def f3 : St := (watchOp I .ok list f2' [a] false 1 W).1
/-- The same without channel 2. -/
def f1' : St := stop I .ok f1 1
def f4 : St := (watchOp I .ok list f1' [a] false 1 W).1
end AloneEx

/-- The hypotheses of `C120_since_stop` hold for channel 1 after the failed Watch of `C120_refuted`. -/
example : Hist Ex.I true [.watch [Ex.a] false 2 Ex.W true, .watch [Ex.a] false 1 Ex.CW false] Ex.f2 ∧
    Step Ex.I true Ex.f2 (.stop 1) AloneEx.f2' ∧ Steps Ex.I true AloneEx.f2' [.watch [Ex.a] false 1 Ex.W true] AloneEx.f3 ∧
    Hist Ex.I true [.watch [Ex.a] false 1 Ex.CW false] AloneEx.f1 ∧
    Step Ex.I true AloneEx.f1 (.stop 1) AloneEx.f1' ∧ Steps Ex.I true AloneEx.f1' [.watch [Ex.a] false 1 Ex.W true] AloneEx.f4 ∧
    (sends Ex.I AloneEx.f3.root { event := Ex.W, path := [Ex.a, Ex.f] }).count (.user 1) = 1 :=
  ⟨(Steps.nil.snoc Ex.fstep1).snoc Ex.fstep2, .stop fun _ => rfl, Steps.nil.snoc (.watch (O := .ok) Ex.good_a (by unfold UserEvents; decide) Ex.list_named (fun _ _ => rfl)),
    Steps.nil.snoc AloneEx.step1, .stop fun _ => rfl,
    Steps.nil.snoc (.watch (O := .ok) Ex.good_a (by unfold UserEvents; decide) Ex.list_named (fun _ _ => rfl)), by decide⟩

/-- **C120 is false of the code**: a Watch with channel 1 returns an error.  If channel 2 watches the directory, channel 1 is sent events
afterwards; otherwise it is not. -/
theorem C120_refuted : ¬ C120_full Platform.inotify := by
  intro h
  have h1 : Hist Ex.I true [.watch [Ex.a] false 2 Ex.W true, .watch [Ex.a] false 1 Ex.CW false] Ex.f2 := (Steps.nil.snoc Ex.fstep1).snoc Ex.fstep2
  have h2 : Hist Ex.I true [.watch [Ex.a] false 1 Ex.CW false] AloneEx.f1 := Steps.nil.snoc AloneEx.step1
  have := h true true _ _ _ _ 1 h1 h2 rfl { event := Ex.W, path := [Ex.a, Ex.f] }
  revert this
  decide

end NonRec

/-! ### The recursive tree -/

namespace Rec
open NonRec (watchAt entry count_sends hit_user sends_short Sound enc)
variable {P : Platform}

/-- What an operation is to the channel `c`. -/
def own (c : Nat) : ROp → Option Own
  | .watch p isrec d e res => if d = c then some (.watch p isrec e res) else none
  | .stop d => if d = c then some .stop else none
  | .shuffle => none

theorem rregStep_own (c : Nat) (r : Reg) (op : ROp) :
    rregStep r op c = match own c op with
      | none => r c
      | some o => Own.step (r c) o := by
  cases op with
  | watch p isrec d e res =>
    by_cases hd : d = c
    · subst hd
      funext q
      by_cases hq : q = p
      · subst hq
        cases res
        · simp [rregStep, own, Own.step]
        · simp only [rregStep, own, Own.step, Reg.watch, if_true, and_self]
          cases r d q <;> rfl
      · cases res <;> simp [rregStep, own, Own.step, Reg.watch, hq]
    · funext q
      cases res <;> simp [rregStep, own, Reg.watch, hd, Ne.symm hd]
  | stop d =>
    by_cases hd : d = c
    · subst hd; funext q; simp [rregStep, own, Own.step, Reg.stop]
    · funext q; simp [rregStep, own, Reg.stop, hd, Ne.symm hd]
  | shuffle => rfl

theorem rfoldl_own (c : Nat) : ∀ (ops : List ROp) (r : Reg), ops.foldl rregStep r c = (ops.filterMap (own c)).foldl Own.step (r c) := by
  intro ops
  induction ops with
  | nil => intro r; rfl
  | cons op l ih =>
    intro r
    rw [List.foldl_cons, ih, rregStep_own]
    cases h : own c op <;> simp [h]

theorem rregOf_own (c : Nat) (ops : List ROp) : rregOf ops c = Own.table (ops.filterMap (own c)) := rfoldl_own c ops Reg.empty

/-- **C120** in full for the recursive tree. -/
def C120_full (P : Platform) : Prop := ∀ (rel rel' : Bool) (ops ops' : List ROp) (s s' : St) (c : Nat), RHist P rel ops s → RHist P rel' ops' s' →
  ops.filterMap (own c) = ops'.filterMap (own c) → ∀ ei : EventInfo, [] ∉ ei.path →
    (Rec.sends P s.root ei).count (.user c) = (Rec.sends P s'.root ei).count (.user c)

theorem own_succeeded {c : Nat} {ops ops' : List ROp} (hown : ops.filterMap (own c) = ops'.filterMap (own c))
    (hf : ∀ op ∈ ops, op.succeededFor c) : ∀ op ∈ ops', op.succeededFor c := by
  intro op hop
  cases op with
  | watch p isrec d e res =>
    intro hd
    subst hd
    have : Own.watch p isrec e res ∈ ops'.filterMap (own d) := List.mem_filterMap.2 ⟨_, hop, by simp [own]⟩
    rw [← hown] at this
    obtain ⟨op, ho, he⟩ := List.mem_filterMap.1 this
    cases op with
    | watch p' isrec' d' e' res' =>
      simp only [own] at he
      split at he
      · next hdd =>
        simp only [Option.some.injEq, Own.watch.injEq] at he
        have := hf _ ho hdd
        rw [he.2.2.2] at this
        exact this
      · cases he
    | stop d' => simp only [own] at he; split at he <;> cases he
    | shuffle => cases he
  | _ => trivial

theorem count_entry {root root' : Node} (hs : ∀ q, Sound P (watchAt root q)) (hs' : ∀ q, Sound P (watchAt root' q)) {c : Nat} {ei : EventInfo}
    (hpath : [] ∉ ei.path) (he : ∀ q, [] ∉ q → entry root c q = entry root' c q) :
    (NonRec.sends P root ei).count (.user c) = (NonRec.sends P root' ei).count (.user c) := by
  by_cases hlen : 2 ≤ ei.path.length
  case neg => rw [sends_short _ (by omega), sends_short _ (by omega)]
  rw [count_sends hs hlen, count_sends hs' hlen]
  have hh : ∀ q m, [] ∉ q → (watchAt root q).hit P (.user c) m = (watchAt root' q).hit P (.user c) m := by
    intro q m hq
    rw [hit_user (hs q), hit_user (hs' q)]
    have := he q hq
    unfold entry at this
    rw [this]
  have hdl : [] ∉ ei.path.dropLast := fun hc => hpath (List.dropLast_subset _ hc)
  rw [hh _ _ hpath, hh _ _ hdl]
  congr 2
  funext i
  rw [hh _ _ (fun hc => hdl (List.take_subset _ _ hc))]

/-- **C120, partial** for the recursive tree: it holds if no Watch with `c` returned an error.  Missing: those that do, see `C120_refuted`. -/
theorem C120_alone_partial (hP : P.Facts) {rel rel' : Bool} {ops ops' : List ROp} {s s' : St} {c : Nat} (h : RHist P rel ops s)
    (h' : RHist P rel' ops' s') (hown : ops.filterMap (own c) = ops'.filterMap (own c)) (hf : ∀ op ∈ ops, op.succeededFor c) {ei : EventInfo}
    (hpath : [] ∉ ei.path) : (Rec.sends P s.root ei).count (.user c) = (Rec.sends P s'.root ei).count (.user c) := by
  rw [sends_eq, sends_eq]
  refine count_entry (RHist.rok hP h).sound (RHist.rok hP h').sound hpath fun q hq => ?_
  rw [(RHist.refinesAt hP h hf).ent q hq, (RHist.refinesAt hP h' (own_succeeded hown hf)).ent q hq, rregOf_own, rregOf_own, hown]

theorem after_stop (hP : P.Facts) {rel rel1 : Bool} {ops : List ROp} {s s1 s2 : St} {c : Nat} (h : RHist P rel ops s) (hstop : RStep P rel s (.stop c) s1)
    {l : List ROp} (hl : RSteps P rel1 s1 l s2) (hf : ∀ op ∈ l, op.succeededFor c) :
    (∀ q, Sound P (watchAt s2.root q)) ∧ ∀ q, [] ∉ q → entry s2.root c q = enc P (Own.table (l.filterMap (own c)) q) := by
  have hs := RHist.rok hP h
  have hs1 := hstop.rok hP hs
  have h0 : RRefinesAt P c s1.root Reg.empty := by
    refine ⟨fun q _ => ?_, fun q e f hr => by simp [Reg.empty] at hr⟩
    cases hstop with
    | stop hO => rw [stop_entry _ hs]; simp [Reg.empty, enc]
  have key : ROK (RW P) s2.root ∧ RRefinesAt P c s2.root (l.foldl rregStep Reg.empty) := by
    induction hl with
    | nil => exact ⟨hs1, h0⟩
    | @snoc l s op s' _ h2 ih =>
      obtain ⟨i1, i2⟩ := ih (fun o ho => hf o (by simp [ho]))
      refine ⟨h2.rok hP i1, ?_⟩
      rw [List.foldl_append]
      exact i2.step hP i1 h2 (hf op (by simp))
  refine ⟨key.1.sound, fun q hq => ?_⟩
  rw [key.2.ent q hq, rfoldl_own]
  rfl

/-- What happened before the last Stop of the channel does not matter, not even calls that failed. -/
theorem C120_since_stop (hP : P.Facts) {rel rel1 rel' rel1' : Bool} {ops ops' l l' : List ROp} {s s1 s2 s' s1' s2' : St} {c : Nat}
    (h : RHist P rel ops s) (hstop : RStep P rel s (.stop c) s1) (hl : RSteps P rel1 s1 l s2)
    (h' : RHist P rel' ops' s') (hstop' : RStep P rel' s' (.stop c) s1') (hl' : RSteps P rel1' s1' l' s2')
    (hown : l.filterMap (own c) = l'.filterMap (own c)) (hf : ∀ op ∈ l, op.succeededFor c) {ei : EventInfo} (hpath : [] ∉ ei.path) :
    (Rec.sends P s2.root ei).count (.user c) = (Rec.sends P s2'.root ei).count (.user c) := by
  obtain ⟨hs, he⟩ := after_stop hP h hstop hl hf
  obtain ⟨hs', he'⟩ := after_stop hP h' hstop' hl' (own_succeeded hown hf)
  rw [sends_eq, sends_eq]
  exact count_entry hs hs' hpath fun q hq => by rw [he q hq, he' q hq, hown]

/-- The two trees send a channel the same if its calls are the same, no Watch with it returned an error, and no directory was removed:
whether the platform has native recursion makes no difference. -/
theorem C120_trees_partial (hP : P.Facts) {rel rel' : Bool} {ops : List NonRec.Op} {ops' : List ROp} {s s' : St} {c : Nat}
    (h : NonRec.Hist P rel ops s) (h' : RHist P rel' ops' s') (hown : ops.filterMap (NonRec.own P c) = ops'.filterMap (own c))
    (hf : ∀ op ∈ ops', op.succeededFor c) {ei : EventInfo} (hpath : [] ∉ ei.path) :
    (NonRec.sends P s.root ei).count (.user c) = (Rec.sends P s'.root ei).count (.user c) := by
  rw [sends_eq]
  have hf' : ∀ op ∈ ops, NonRec.NoFail c op := by
    intro op hop
    cases op with
    | watch p isrec d e res =>
      intro hd
      subst hd
      have : Own.watch p isrec e res ∈ ops.filterMap (NonRec.own P d) := List.mem_filterMap.2 ⟨_, hop, by simp [NonRec.own]⟩
      rw [hown] at this
      obtain ⟨op, ho, he⟩ := List.mem_filterMap.1 this
      cases op with
      | watch p' isrec' d' e' res' =>
        simp only [own] at he
        split at he
        · next hdd =>
          simp only [Option.some.injEq, Own.watch.injEq] at he
          have := hf _ ho hdd
          rw [he.2.2.2] at this
          exact .inr this
        · cases he
      | stop d' => simp only [own] at he; split at he <;> cases he
      | shuffle => cases he
    | _ => trivial
  refine count_entry (NonRec.Hist.shape hP h).sound (RHist.rok hP h').sound hpath fun q hq => ?_
  rw [(NonRec.Hist.refines hP h hf').ent q, (RHist.refinesAt hP h' hf).ent q hq, NonRec.regOf_own, rregOf_own, hown]

namespace AloneEx
open Ex
/-- Channel 2 watches `/a` for Write; then channel 1 asks for Create and Write there and the OS refuses. -/
def f1 : St := (watchOp F .ok init [a] false 2 W).1
def f2 : St := (watchOp F (fun _ _ => false) f1 [a] false 1 CW).1
theorem fstep1 : RStep F true init (.watch [a] false 2 W true) f1 := RStep.watch (O := .ok) good_a uW
theorem fstep2 : RStep F true f1 (.watch [a] false 1 CW false) f2 := RStep.watch (O := fun _ _ => false) good_a uCW
/-- Without channel 2. -/
def g1 : St := (watchOp F (fun _ _ => false) init [a] false 1 CW).1
theorem gstep1 : RStep F true init (.watch [a] false 1 CW false) g1 := RStep.watch (O := fun _ _ => false) good_a uCW
/-- Channel 1 alone watches `/a/...`, on this tree and on the other. -/
def h1 : St := (watchOp F .ok init [a] true 1 W).1
theorem hstep1 : RStep F true init (.watch [a] true 1 W true) h1 := RStep.watch (O := .ok) good_a uW
def n1 : St := (NonRec.watchOp F .ok (.dir .nil) init [a] true 1 W).1
theorem nstep1 : NonRec.Step F true init (.watch [a] true 1 W true) n1 :=
  NonRec.Step.watch (O := .ok) (dt := .dir .nil) good_a uW trivial (fun _ _ => rfl)
end AloneEx

/-- The hypotheses of `C120_alone_partial` hold for channel 1 with channel 2 and without; it is sent one event. -/
example : RHist Ex.F true Ex.ops2 Ex.s2 ∧ RHist Ex.F true [.watch [Ex.a] true 1 Ex.W true] AloneEx.h1 ∧
    Ex.ops2.filterMap (own 1) = [ROp.watch [Ex.a] true 1 Ex.W true].filterMap (own 1) ∧ (∀ op ∈ Ex.ops2, op.succeededFor 1) ∧
    (Rec.sends Ex.F Ex.s2.root Ex.ei).count (.user 1) = 1 :=
  ⟨Ex.hist2, RSteps.nil.snoc AloneEx.hstep1, rfl, fun op h => (Ex.ok2 op h).for 1, by decide⟩

/-- Those of `C120_trees_partial`, too. -/
example : NonRec.Hist Ex.F true [.watch [Ex.a] true 1 Ex.W true] AloneEx.n1 ∧ RHist Ex.F true Ex.ops2 Ex.s2 ∧
    [NonRec.Op.watch [Ex.a] true 1 Ex.W true].filterMap (NonRec.own Ex.F 1) = Ex.ops2.filterMap (own 1) ∧
    (NonRec.sends Ex.F AloneEx.n1.root Ex.ei).count (.user 1) = 1 :=
  ⟨NonRec.Steps.nil.snoc AloneEx.nstep1, Ex.hist2, rfl, by decide⟩

namespace AloneEx
open Ex
def f2' : St := stop F .ok f2 1
def f3 : St := (watchOp F .ok f2' [a] false 1 W).1
def g1' : St := stop F .ok g1 1
def g2 : St := (watchOp F .ok g1' [a] false 1 W).1
end AloneEx

/-- The hypotheses of `C120_since_stop` hold for channel 1 after the failed Watch of `C120_refuted`. -/
example : RHist Ex.F true [.watch [Ex.a] false 2 Ex.W true, .watch [Ex.a] false 1 Ex.CW false] AloneEx.f2 ∧
    RStep Ex.F true AloneEx.f2 (.stop 1) AloneEx.f2' ∧ RSteps Ex.F true AloneEx.f2' [.watch [Ex.a] false 1 Ex.W true] AloneEx.f3 ∧
    RHist Ex.F true [.watch [Ex.a] false 1 Ex.CW false] AloneEx.g1 ∧
    RStep Ex.F true AloneEx.g1 (.stop 1) AloneEx.g1' ∧ RSteps Ex.F true AloneEx.g1' [.watch [Ex.a] false 1 Ex.W true] AloneEx.g2 ∧
    (Rec.sends Ex.F AloneEx.f3.root { event := Ex.W, path := [Ex.a, Ex.f] }).count (.user 1) = 1 :=
  ⟨(RSteps.nil.snoc AloneEx.fstep1).snoc AloneEx.fstep2, .stop fun _ => rfl, RSteps.nil.snoc (.watch (O := .ok) Ex.good_a Ex.uW),
    RSteps.nil.snoc AloneEx.gstep1, .stop fun _ => rfl, RSteps.nil.snoc (.watch (O := .ok) Ex.good_a Ex.uW), by decide⟩

/-- **C120 is false of the code**, recursive tree: as with the other tree. -/
theorem C120_refuted : ¬ C120_full Platform.fsevents := by
  intro h
  have h1 : RHist Ex.F true [.watch [Ex.a] false 2 Ex.W true, .watch [Ex.a] false 1 Ex.CW false] AloneEx.f2 :=
    (RSteps.nil.snoc AloneEx.fstep1).snoc AloneEx.fstep2
  have h2 : RHist Ex.F true [.watch [Ex.a] false 1 Ex.CW false] AloneEx.g1 := RSteps.nil.snoc AloneEx.gstep1
  have := h true true _ _ _ _ 1 h1 h2 rfl { event := Ex.W, path := [Ex.a, Ex.f] } (by decide)
  revert this
  decide

end Rec
end Verif
