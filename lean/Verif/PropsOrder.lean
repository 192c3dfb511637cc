/-
No two events are protected from being sent in the wrong order (C31).
-/
import Verif.PropsSched3
import Verif.RecEx

namespace Verif
namespace Sched

/-- Nothing runs and nothing is on its way. -/
structure AtRest {Y : Sys} (s : State Y) : Prop where
  os : s.os = []
  cq : s.cq = []
  disp : s.disp = []
  calls : s.calls = []
  int : s.int = .idle

/-- **C31, never guaranteed.**  For every tree, in every state at rest, and for any two events that channel `c` is sent: there is an
execution in which the OS reports `A` before `B` and the first thing sent to `c` is `B`, then `A`.  Go's lock policy is irrelevant. -/
theorem C31_swap (Y : Sys) {cfg : Cfg} (hcap : 2 ≤ cfg.capC) {s : State Y} (hs : AtRest s) {A B : EventInfo} (hA : Y.okEv A) (hB : Y.okEv B)
    {c : Nat} (sA : Key.user c ∈ Y.sends s.tree A) (sB : Key.user c ∈ Y.sends s.tree B) :
    ∃ t s', Run Y cfg s t s' ∧ reported t = [A, B] ∧ sentTo c t = [B, A] := by
  obtain ⟨tr, os, cq, rq, disp, calls, int, n⟩ := s
  obtain ⟨h1, h2, h3, h4, h5⟩ := hs
  simp only at h1 h2 h3 h4 h5
  subst h1 h2 h3 h4 h5
  have kA : ([] : List Key).count (.user c) < (Y.sends tr A).count (.user c) := by simpa using List.count_pos_iff.2 sA
  have kB : ([] : List Key).count (.user c) < (Y.sends tr B).count (.user c) := by simpa using List.count_pos_iff.2 sB
  have noC : ∀ q d m, ¬ (⟨tr, [], q, rq, d, [], .idle, m⟩ : State Y).CallHolds := by rintro q d m ⟨i, r, h | h⟩ <;> simp at h
  have noI : ∀ q d m, ¬ (⟨tr, [], q, rq, d, [], .idle, m⟩ : State Y).IntHolds := by rintro q d m ⟨ei, h | h⟩ <;> simp at h
  have noW : ∀ q d m, ¬ (⟨tr, [], q, rq, d, [], .idle, m⟩ : State Y).WriterWaits := by
    rintro q d m (⟨i, r, h⟩ | ⟨ei, h⟩) <;> simp at h
  refine ⟨[.report [A, B], .push A, .push B, .spawn n A, .spawn (n + 1) B, .rlock (n + 1), .pick (n + 1) (.user c),
    .send (n + 1) (.user c) B, .rlock n, .pick n (.user c), .send n (.user c) A],
    ⟨tr, [], [], rq, [(n + 1, B, .reading [.user c] none), (n, A, .reading [.user c] none)], [], .idle, n + 2⟩, ?_, rfl, by simp [sentTo]⟩
  refine Run.cons (Tr.report (Y := Y) [A, B] (by simpa using ⟨hA, hB⟩) rfl) ?_
  refine Run.cons (Tr.push (Y := Y) A [B] rfl (show (0 : Nat) < cfg.capC by omega)) ?_
  refine Run.cons (Tr.push (Y := Y) B [] rfl (show (1 : Nat) < cfg.capC by omega)) ?_
  refine Run.cons (Tr.spawn (Y := Y) A [B] rfl) ?_
  refine Run.cons (Tr.spawn (Y := Y) B [] rfl) ?_
  refine Run.cons (Tr.rlock (Y := Y) (n + 1) B [] [(n, A, .start)] rfl (noC _ _ _) (noI _ _ _) (fun _ => noW _ _ _)) ?_
  refine Run.cons (Tr.pick (Y := Y) (n + 1) B [] (.user c) [] [(n, A, .start)] rfl kB) ?_
  refine Run.cons (Tr.send (Y := Y) (n + 1) B [] (.user c) [] [(n, A, .start)] rfl) ?_
  refine Run.cons (Tr.rlock (Y := Y) n A [(n + 1, B, .reading [.user c] none)] [] rfl (noC _ _ _) (noI _ _ _) (fun _ => noW _ _ _)) ?_
  refine Run.cons (Tr.pick (Y := Y) n A [] (.user c) [(n + 1, B, .reading [.user c] none)] [] rfl kA) ?_
  exact Run.cons (Tr.send (Y := Y) n A [] (.user c) [(n + 1, B, .reading [.user c] none)] [] rfl) .nil

/-- **C31 is false of the code** with native recursion too: the OS reports A before B, and channel 1 is sent B before A. -/
theorem C31_rec_refuted : ∃ (A B : EventInfo) (t : List (Lab Req)) (s : State (recTree Rec.Ex.F)), Exec (recTree Rec.Ex.F) Ex.conf t s ∧
    reported t = [A, B] ∧ A ≠ B ∧ sentTo 1 t = [B, A] := by
  let Y := recTree Rec.Ex.F
  let r : Y.Req := Req.watch [Rec.Ex.a] true 1 Rec.Ex.W
  let t1 : St := (Rec.watchOp Rec.Ex.F .ok Rec.init [Rec.Ex.a] true 1 Rec.Ex.W).1
  have hst : Y.step Rec.init r t1 := ⟨_, .inl rfl, true, Rec.RStep.watch (O := .ok) Rec.Ex.good_a Rec.Ex.uW⟩
  have hrun : Exec Y Ex.conf [.call 0 r, .lock 0, .effect 0 r, .unlock 0, .ret 0 r] { State.init Y with tree := t1, next := 1 } := by
    refine Run.cons (Tr.call (Y := Y) (s := State.init Y) r ⟨Rec.Ex.good_a, Rec.Ex.uW⟩ trivial) ?_
    refine Run.cons (Tr.lock (Y := Y) 0 r [] [] rfl ?_ ?_ ?_) ?_
    · rintro ⟨i, ei, d, x, h⟩; simp [State.init] at h
    · rintro ⟨i, q, h | h⟩ <;> simp [State.init] at h
    · rintro ⟨ei, h | h⟩ <;> simp [State.init] at h
    refine Run.cons (Tr.effect (Y := Y) 0 r [] [] t1 rfl hst (fun _ => rfl)) ?_
    refine Run.cons (Tr.unlock (Y := Y) 0 r [] [] rfl) ?_
    exact Run.cons (Tr.ret (Y := Y) 0 r [] [] rfl) .nil
  let A : EventInfo := { event := Rec.Ex.W, path := [Rec.Ex.a, Rec.Ex.b, Rec.Ex.f] }
  let B : EventInfo := { event := Rec.Ex.W, path := [Rec.Ex.a, Rec.Ex.b] }
  have hA : Rec.sends Rec.Ex.F t1.root A = [.user 1] := by decide
  have hB : Rec.sends Rec.Ex.F t1.root B = [.user 1] := by decide
  obtain ⟨t, s', h1, h2, h3⟩ := C31_swap Y (cfg := Ex.conf) (by decide) (s := { State.init Y with tree := t1, next := 1 })
    ⟨rfl, rfl, rfl, rfl, rfl⟩ (A := A) (B := B) Rec.Ex.good_abf Rec.Ex.good_ab (c := 1) (by show _ ∈ Rec.sends _ _ _; rw [hA]; simp)
    (by show _ ∈ Rec.sends _ _ _; rw [hB]; simp)
  refine ⟨A, B, _, s', hrun.trans h1, ?_, by decide, ?_⟩
  · rw [reported, List.flatMap_append]; exact h2
  · rw [sentTo, List.filterMap_append]; exact h3

/-- A case for `C31_swap`: the state after channel 1 has watched `/a/...`. -/
example : AtRest Ex.w1 ∧ Key.user 1 ∈ Ex.T.sends Ex.w1.tree Ex.evA ∧ Key.user 1 ∈ Ex.T.sends Ex.w1.tree Ex.evB ∧ 2 ≤ Ex.conf.capC :=
  ⟨⟨rfl, rfl, rfl, rfl, rfl⟩, by rw [show Ex.w1.tree = NonRec.Ex.s1 from rfl, Ex.sendsA]; simp,
    by rw [show Ex.w1.tree = NonRec.Ex.s1 from rfl, Ex.sendsB]; simp, by decide⟩

end Sched
end Verif
