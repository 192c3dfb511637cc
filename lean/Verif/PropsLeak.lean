/-
The recursive tree: whether an OS watch remains when the last channel is stopped (C97).
-/
import Verif.RecTidy
import Verif.PropsGap

namespace Verif
namespace Rec
open GoMap NonRec Spec

variable {P : Platform}

/-- `c` was passed to Watch and not stopped since. -/
def Pending (c : Nat) (ops : List ROp) : Prop :=
  ∃ a b p isrec e res, ops = a ++ ROp.watch p isrec c e res :: b ∧ ROp.stop c ∉ b

theorem pending_snoc {c : Nat} {ops : List ROp} {op : ROp} (h : Pending c ops) (hop : op ≠ .stop c) :
    Pending c (ops ++ [op]) := by
  obtain ⟨a, b, p, r, e, res, rfl, hb⟩ := h
  refine ⟨a, b ++ [op], p, r, e, res, by simp, ?_⟩
  simp [hb, Ne.symm hop]

/-- A channel that is not pending has no line in the table. -/
theorem not_pending {c : Nat} : ∀ ops : List ROp, ¬ Pending c ops → ∀ q, rregOf ops c q = none := by
  intro ops
  generalize hn : ops.length = n
  induction n generalizing ops with
  | zero => intro _ q; rw [List.length_eq_zero_iff.1 hn]; rfl
  | succ n ih =>
    obtain ⟨ops, op, rfl⟩ : ∃ a b, ops = a ++ [b] := by
      rcases List.eq_nil_or_concat ops with h | ⟨a, b, h⟩
      · rw [h] at hn; simp at hn
      · exact ⟨a, b, by simpa using h⟩
    have ih := ih ops (by simpa using hn)
    intro hp q
    rw [rregOf_snoc]
    cases op with
    | watch p isrec d e res =>
      have hd : d ≠ c := by
        rintro rfl
        exact hp ⟨ops, [], p, isrec, e, res, by simp, by simp⟩
      have := ih (fun h => hp (pending_snoc h (by simp))) q
      simp only [rregStep]
      split
      · rw [Reg.watch, if_neg (fun h => hd h.1.symm)]; exact this
      · exact this
    | stop d =>
      simp only [rregStep, Reg.stop]
      by_cases hd : d = c
      · rw [if_pos hd.symm]
      · rw [if_neg (Ne.symm hd)]
        exact ih (fun h => hp (pending_snoc h (by simp [hd]))) q
    | shuffle => exact ih (fun h => hp (pending_snoc h (by simp))) q

theorem Honest.suffix {l l' : Log} (h : Honest l') (hs : l <:+ l') : Honest l := by
  obtain ⟨n, rfl⟩ := hs
  induction n with
  | nil => exact h
  | cons x n ih => exact ih h.1

theorem RSteps.tidy (hP : P.Facts) {rel : Bool} {ops : List ROp} {s : St} (h : RHist P rel ops s) (hh : Honest s.world.log)
    (hops : ∀ op ∈ ops, op.succeeded) : Tidy P s := by
  induction h with
  | nil => exact Tidy.init P
  | @snoc ops s op s' h' hs ih =>
    have hsuf := (RStep.smooth (RHist.rok hP h') hs).1
    have ih := ih (hh.suffix hsuf) (fun o ho => hops o (by simp [ho]))
    have hop := hops op (by simp)
    cases hs with
    | @watch p isrec c e O hp he => exact ih.watch hP O hp.2 isrec c he hop hh
    | @stop c O hO => exact ih.stop O c hh
    | shuffle hsh => exact ih.shuffle hsh

/-- **C97, partial: what the OS watches is needed.**  In any history in which every Watch returned nil, of a watcher that removes a watch
if and only if it has it and changes only watches that it has — it may refuse anything else, and Stop may be harmful in the sense of
C26: each OS watch has a registration at its path or below, and no OS watch is below another.  Missing: histories in which a Watch
returned an error, of which this is false (`C97_refuted`). -/
theorem C97_needed_partial (hP : P.Facts) {rel : Bool} {ops : List ROp} {s : St} (h : RHist P rel ops s) (hh : Honest s.world.log)
    (hops : ∀ op ∈ ops, op.succeeded) :
    (∀ q, osRec s.world.log q ≠ none → ∃ x, q <+: x ∧ Registered (rregOf ops) x) ∧
    ∀ q q', osRec s.world.log q ≠ none → osRec s.world.log q' ≠ none → q <+: q' → q = q' := by
  have ht := RSteps.tidy hP h hh hops
  have hr := RHist.refines hP h hops
  refine ⟨fun q hq => ?_, fun q q' hq hq' hqq => (ht.os q hq).unique (ht.os q' hq') hqq List.prefix_rfl⟩
  have hT := ht.os q hq
  obtain ⟨i, hi⟩ : ∃ i, BitVec.getLsbD (tot P s.root q) i = true := by
    by_contra hn
    push Not at hn
    apply hT.2.1
    rw [Event.bext]
    intro i
    simpa using hn i
  obtain ⟨h1, d, h2⟩ := (tot_bit ht.book.ok q i).1 hi
  have key : ∀ x, [] ∉ x → BitVec.getLsbD (uset s.root x d) i = true → Registered (rregOf ops) x := by
    intro x hx hb
    obtain ⟨E, f, h3, _⟩ := (uset_bit hr hx d i).1 ⟨h1, hb⟩
    exact ⟨d, by rw [h3]; simp⟩
  rcases h2 with h2 | h2
  · exact ⟨q, List.prefix_rfl, key q hT.1 h2⟩
  · obtain ⟨x, h3, h4, h5, h6⟩ := ht.book.sub q d i hT.1 h2
    exact ⟨x, h3, key x h5 h6⟩

/-- **C97, partial: nothing is left.**  If moreover each channel that was passed to Watch was stopped since, the OS has no watch. -/
theorem C97_nothing_left_partial (hP : P.Facts) {rel : Bool} {ops : List ROp} {s : St} (h : RHist P rel ops s)
    (hh : Honest s.world.log) (hops : ∀ op ∈ ops, op.succeeded) (hstop : ∀ c, ¬ Pending c ops) :
    ∀ q, osRec s.world.log q = none := by
  intro q
  by_contra hq
  obtain ⟨x, _, c, hc⟩ := (C97_needed_partial hP h hh hops).1 q hq
  exact hc (not_pending ops (hstop c) x)

namespace LeakEx

abbrev y : Comp := ['y']
theorem good_aby : GoodPath [Ex.a, Ex.b, y] := by simp [GoodPath]

/-- A watcher that refuses only to remove or change what it does not have. -/
def os : Oracle := fun l c =>
  match c with
  | .unwatch p | .recUnwatch p => (osRec l p).isSome
  | .rewatch p _ _ | .recRewatch p _ _ _ => (osRec l p).isSome
  | _ => true

/-- Channel 1 watches `/a/b`, channel 2 `/a/b/x`, channel 3 `/a/b/y`, all for Write; channel 1 is stopped; channel 4 watches `/a`, which
fails; all are stopped. -/
def s1 : St := (watchOp Ex.F os init [Ex.a, Ex.b] false 1 Ex.W).1
def s2 : St := (watchOp Ex.F os s1 [Ex.a, Ex.b, Ex.x] false 2 Ex.W).1
def s3 : St := (watchOp Ex.F os s2 [Ex.a, Ex.b, y] false 3 Ex.W).1
def s4 : St := stop Ex.F .ok s3 1
def s5 : St := (watchOp Ex.F os s4 [Ex.a] false 4 Ex.W).1
def s6 : St := stop Ex.F .ok s5 4
def s7 : St := stop Ex.F .ok s6 2
def s8 : St := stop Ex.F .ok s7 3

def ops : List ROp := [.watch [Ex.a, Ex.b] false 1 Ex.W true, .watch [Ex.a, Ex.b, Ex.x] false 2 Ex.W true,
  .watch [Ex.a, Ex.b, y] false 3 Ex.W true, .stop 1, .watch [Ex.a] false 4 Ex.W false, .stop 4, .stop 2, .stop 3]

theorem hist : RHist Ex.F true ops s8 :=
  have e1 : RStep Ex.F true init (.watch [Ex.a, Ex.b] false 1 Ex.W true) s1 := RStep.watch (O := os) Ex.good_ab Ex.uW
  have e2 : RStep Ex.F true s1 (.watch [Ex.a, Ex.b, Ex.x] false 2 Ex.W true) s2 := RStep.watch (O := os) Ex.good_abx Ex.uW
  have e3 : RStep Ex.F true s2 (.watch [Ex.a, Ex.b, y] false 3 Ex.W true) s3 := RStep.watch (O := os) good_aby Ex.uW
  have e5 : RStep Ex.F true s4 (.watch [Ex.a] false 4 Ex.W false) s5 := RStep.watch (O := os) Ex.good_a Ex.uW
  (((((((RSteps.nil.snoc e1).snoc e2).snoc e3).snoc (RStep.stop fun _ => rfl)).snoc e5).snoc (RStep.stop fun _ => rfl)).snoc
    (RStep.stop fun _ => rfl)).snoc (RStep.stop fun _ => rfl)

theorem log : s8.world.log = [(.unwatch [Ex.a], true), (.unwatch [Ex.a, Ex.b, y], false),
    (.unwatch [Ex.a, Ex.b, Ex.x], false), (.recWatch [Ex.a] Ex.W, true), (.watch [Ex.a, Ex.b] Ex.W, true)] := by decide

/-- The history of `C26_refuted`, continued: Stop of channel 2 has taken the OS watch that channel 1 needs, so that the call Stop
of channel 1 makes fails. -/
def n3 : St := stop Ex.F os Ex.n2 2
def n4 : St := stop Ex.F os n3 1
theorem nlog : n4.world.log = [(.unwatch [Ex.a], false), (.unwatch [Ex.a], true),
    (.recRewatch [Ex.a] [Ex.a] Ex.W (Ex.W ||| Ex.R), true), (.watch [Ex.a] Ex.W, true)] := by decide
theorem nhist : RHist Ex.F false (Ex.nops ++ [.stop 2] ++ [.stop 1]) n4 :=
  have e1 : RStep Ex.F false init (.watch [Ex.a] false 1 Ex.W true) Ex.n1 := RStep.watch (O := .ok) Ex.good_a Ex.uW
  have e2 : RStep Ex.F false Ex.n1 (.watch [Ex.a, Ex.b] false 2 Ex.R true) Ex.n2 := RStep.watch (O := .ok) Ex.good_ab Ex.uR
  (((RSteps.nil.snoc e1).snoc e2).snoc (RStep.stop nofun)).snoc (RStep.stop nofun)

theorem stopped {ops : List ROp} (h : ∀ i p r c e res, ops[i]? = some (.watch p r c e res) → ROp.stop c ∈ ops.drop (i + 1))
    (c : Nat) :
    ¬ Pending c ops := by
  rintro ⟨a, b, p, r, e, res, h1, h2⟩
  have := h a.length p r c e res (by simp [h1])
  rw [h1] at this
  have hd : (a ++ ROp.watch p r c e res :: b).drop (a.length + 1) = b := by
    rw [List.append_cons, List.drop_left' (by simp)]
  rw [hd] at this
  exact h2 this

end LeakEx

/-- **C97 is false** of the code.  With nested registrations on `/a/b`, `/a/b/x` and `/a/b/y`, after Stop of the first of these a Watch
of `/a` sets a watch of `/a` and tries to remove those of `/a/b/x` and `/a/b/y`, which do not exist; the one of `/a/b`, which exists, it overlooks, and
it returns an error.  When all channels are stopped the watch of `/a/b` is still there.  Each call of the watcher fails only if it is to remove what is not there. -/
theorem C97_refuted : ∃ ops s, RHist Ex.F true ops s ∧ Honest s.world.log ∧ (∀ c, ¬ Pending c ops) ∧
    osRec s.world.log [Ex.a, Ex.b] ≠ none := by
  refine ⟨LeakEx.ops, LeakEx.s8, LeakEx.hist, ?_, ?_, by decide⟩
  · rw [LeakEx.log]
    simp only [Honest, osRec]
    decide
  · refine LeakEx.stopped ?_
    intro i p r c e res hi
    match i with
    | 0 | 1 | 2 | 4 => simp [LeakEx.ops] at hi; obtain ⟨-, -, rfl, -⟩ := hi; simp [LeakEx.ops]
    | 3 | 5 | 6 | 7 => simp [LeakEx.ops] at hi
    | n + 8 => simp [LeakEx.ops] at hi

/-- Non-trivial case of the partial theorems: a history with a harmful Stop, and a failing call. -/
example : RHist Ex.F false (Ex.nops ++ [.stop 2] ++ [.stop 1]) LeakEx.n4 ∧ Honest LeakEx.n4.world.log ∧
    (∀ op ∈ Ex.nops ++ [.stop 2] ++ [.stop 1], op.succeeded) ∧ (∀ c, ¬ Pending c (Ex.nops ++ [.stop 2] ++ [.stop 1])) ∧
    osRec Ex.n2.world.log [Ex.a] ≠ none := by
  refine ⟨LeakEx.nhist, ?_, by simp [Ex.nops, ROp.succeeded], LeakEx.stopped ?_, by decide⟩
  · rw [LeakEx.nlog]
    simp only [Honest, osRec]
    decide
  · intro i p r c e res hi
    match i with
    | 0 | 1 => simp [Ex.nops] at hi; obtain ⟨-, -, rfl, -⟩ := hi; simp [Ex.nops]
    | 2 | 3 => simp [Ex.nops] at hi
    | n + 4 => simp [Ex.nops] at hi

end Rec
end Verif
