/-
The whole program on macOS: what is left when the last channel is stopped (C97).
-/
import Verif.PropsMac
import Verif.PropsLeak

namespace Verif
namespace Mac
open Rec (ROp SafeHist rregOf)

/-- **C97, macOS, partial.**  In any execution of the whole program from the start in which no call fails and every Watch and Stop is harmless
in the sense of C26, at a moment at which no operation is under way: if each channel that was passed to Watch was stopped since, no stream runs, the
watcher's table is empty, and so is the registry of callback functions.  Missing: harmful operations and failing calls. -/
theorem C97_mac_nothing_left_partial {cfg : Sched.Cfg} {ops : List ROp} {reps : List (Nat × List Rep)} {sg : List (Key × EventInfo)} {s : MSt}
    (h : MRun cfg true [] MSt.init ops reps sg s) (hplan : s.plan = none) (hstop : ∀ c, ¬ Rec.Pending c ops) :
    s.str.kern = [] ∧ s.str.table = [] ∧ s.str.m = [] := by
  have hj : J ops [] s := (h.j J.init).rebase hplan
  obtain ⟨hsafe, hlog, hidle⟩ : SafeHist I ops s.sys.tree ∧ s.log = s.sys.tree.world.log ∧ s.caller = .idle := by
    obtain ⟨a, b, h1, h2, h3 | ⟨r, t, h3, _⟩⟩ := hj.tree
    · obtain ⟨rfl, rfl⟩ := List.append_eq_nil_iff.1 h1.symm
      exact ⟨by simpa using h2, h3.2.2.1, h3.2.2.2.1⟩
    · rw [hplan] at h3; cases h3
  have hmir := (Rec.C26_mirror_partial factsI hsafe).1
  have hnone : ∀ q, osRec s.log q = none := by
    intro q
    by_contra hq
    obtain ⟨⟨E, f⟩, hE⟩ := Option.ne_none_iff_exists'.1 hq
    rw [hlog] at hE
    obtain ⟨h1, h2⟩ := hmir.exact q E f hE
    apply h1
    rw [Event.bext]
    intro i
    by_contra hc
    have hi : BitVec.getLsbD E i = true := by simpa using hc
    rcases (h2 i).1 hi with ⟨c, E', g, h3, _⟩ | ⟨x, _, _, c, E', g, h3, _⟩
    · rw [Rec.not_pending ops (hstop c)] at h3; cases h3
    · rw [Rec.not_pending ops (hstop c)] at h3; cases h3
  have htab : ∀ p, s.str.table.get? p = none := by
    intro p
    have h1 := congrFun hj.view p
    rw [settle_idle hidle, hnone] at h1
    unfold view at h1
    simpa using h1
  refine ⟨?_, ?_, ?_⟩
  · match hk : s.str.kern with
    | [] => rfl
    | (k, p) :: _ =>
      obtain ⟨w, hw⟩ := hj.wf.inv.kern k p (by rw [hk]; simp)
      rw [htab] at hw; cases hw
  · exact (GoMap.eq_nil_iff_get? _).2 htab
  · refine (GoMap.eq_nil_iff_get? _).2 fun k => ?_
    cases hk : s.str.m.get? k with
    | none => rfl
    | some w =>
      obtain ⟨p, hp⟩ := hj.wf.clean k w hk
      rw [htab] at hp; cases hp

namespace LeftEx
open Ex

def op3 : ROp := .stop 1
def req3 : Sched.Req := .stop 1
def t3 : St := Rec.stop I .ok t1 1
theorem step3 : Rec.RStep I true t1 op3 t3 := Rec.RStep.stop fun _ => rfl

theorem not_pending : ∀ c, ¬ Rec.Pending c [op1, op3] := by
  refine Rec.LeakEx.stopped ?_
  intro i p r c e res hi
  match i with
  | 0 => simp [op1, op3] at hi; obtain ⟨-, -, rfl, -⟩ := hi; simp [op3]
  | 1 => simp [op3] at hi
  | n + 2 => simp at hi

theorem safe3 : Rec.Safe (rregOf [op1]) t1.world.log op3 := by
  intro q hq
  have hqd : q = d := by
    by_contra hn
    have hl : t1.world.log = [(.watch d C, true)] := by decide
    apply hq
    rw [hl]
    simp [osRec, hn]
  subst hqd
  refine .inl ⟨8, ⟨1, C, false, by decide, by decide⟩, ?_⟩
  rintro ⟨c, E, f, h1, h2⟩
  by_cases hc : c = 1
  · subst hc
    simp [Spec.Reg.stop] at h1
  · simp [Spec.Reg.stop, hc, rregOf, Rec.rregStep, op1, Spec.Reg.watch, Spec.Reg.empty] at h1

/-- Channel 1 has watched `/d` and its stream has run; it is stopped. -/
theorem run3 : ∃ s', MRun cfg true [op1] s1 [op3] [] [] s' ∧ s'.plan = none ∧ s'.sys.calls = [] := by
  have h := MRun.refl (cfg := cfg) (safe := true) (pre := [op1]) (s := s1)
  have h := h.step (.go _ _ (.call (Y := Y) req3 trivial trivial) trivial) (by simp)
  have h := h.step (.go _ _ (.lock 1 req3 [] [] rfl (by rintro ⟨_, _, _, _, h⟩; cases h)
    (by rintro ⟨_, _, h | h⟩ <;> cases h <;> contradiction) (by rintro ⟨_, h | h⟩ <;> cases h)) trivial) (by simp)
  have h := h.step (.plan req3 [op3] t3 [(.unwatch d, true)] 1 (.head _) rfl
    ⟨Rec.RSteps.nil.snoc step3, by decide, op3, rfl, .inl rfl⟩ rfl) (by
      intro _ op hop
      simp only [List.mem_singleton] at hop
      subst hop
      exact safe3)
  have h := h.step (.unwatch (.unwatch d) d [] (.inl rfl) rfl rfl) (by simp)
  have h := h.step (.effect 1 req3 [] [] t3 rfl rfl rfl rfl) (by simp)
  have h := h.step (.go _ _ (.unlock 1 req3 [] [] rfl) trivial) (by simp)
  have h := h.step (.go _ _ (.ret 1 req3 [] [] rfl) trivial) (by simp)
  exact ⟨_, h, rfl, rfl⟩

theorem run_trans {cfg : Sched.Cfg} {b : Bool} {pre o1 o2 : List ROp} {r1 r2 g1 g2} {s s1 s2 : MSt} (h1 : MRun cfg b pre s o1 r1 g1 s1)
    (h2 : MRun cfg b (pre ++ o1) s1 o2 r2 g2 s2) : MRun cfg b pre s (o1 ++ o2) (r1 ++ r2) (g1 ++ g2) s2 := by
  induction h2 with
  | refl => simpa using h1
  | step _ hs hsafe ih =>
    rw [← List.append_assoc, ← List.append_assoc, ← List.append_assoc]
    exact ih.step hs (by simpa using hsafe)

/-- While channel 1 was registered a stream ran; now nothing is left. -/
example : s1.str.kern ≠ [] ∧ ∃ s', MRun cfg true [] MSt.init [op1, op3] [(1, [mk])] [] s' ∧ s'.str.kern = [] ∧ s'.str.table = [] ∧ s'.str.m = [] := by
  obtain ⟨s', h, hp, _⟩ := run3
  have h' : MRun cfg true [] MSt.init [op1, op3] [(1, [mk])] [] s' := run_trans run1 h
  exact ⟨by decide, s', h', C97_mac_nothing_left_partial h' hp not_pending⟩

end LeftEx

end Mac
end Verif
