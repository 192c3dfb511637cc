/-
The whole program on Windows: what is left when the last channel is stopped (C106).
-/
import Verif.PropsWin2
import Verif.PropsLeak
import Verif.PropsReaddcw7

namespace Verif
namespace Win
open Rec (ROp SafeHist rregOf)

/-- As long as no operation begins none is under way. -/
theorem WRun.idle {cfg : Sched.Cfg} {pre : List ROp} {wpre wops : List Dcw.Op} {reps : List Note} {sg : List (Key × EventInfo)} {s s' : WSt} {ops : List ROp}
    (h : WRun cfg true pre wpre s ops wops reps sg s') (ho : ops = []) (hp : s.plan = none) : s'.plan = none := by
  induction h with
  | refl => exact hp
  | step _ hs _ ih =>
    obtain ⟨h1, h2⟩ := List.append_eq_nil_iff.1 ho
    have ih := ih h1
    cases hs with
    | plan r o t new i hr hp ht hn =>
      obtain ⟨-, -, op, -, h3 | h3⟩ := ht <;> rw [h2] at h3 <;> cases h3
    | effect => rfl
    | _ => exact ih

/-- The steps of the watcher in an execution, with the number of reports about a directory that is not watched. -/
theorem WRun.since {cfg : Sched.Cfg} {pre : List ROp} {wpre wops : List Dcw.Op} {reps : List Note} {sg : List (Key × EventInfo)} {s s' : WSt} {ops : List ROp}
    (h : WRun cfg true pre wpre s ops wops reps sg s') {p : Path} (w : Nat) (ha : ∀ l, l <+: wops → Dcw.asked (wpre ++ l) p = none) :
    ∃ n k, reps.countP (fun x => decide (x.1 = p)) ≤ n ∧ Dcw.Since p w wpre s.w wops n k s'.w := by
  induction h with
  | refl => exact ⟨0, 0, Nat.le_refl _, .refl⟩
  | @step ops wops reps sg o wo r g s' s'' hr hs hsafe ih =>
    obtain ⟨n, k, hn, hS⟩ := ih fun l hl => ha l (hl.trans (List.prefix_append _ _))
    have hc := (hsafe rfl).2
    have key : ∀ op, wo = [op] → r = [] → ∃ n k, (reps ++ r).countP (fun x => decide (x.1 = p)) ≤ n ∧ Dcw.Since p w wpre s.w (wops ++ wo) n k s''.w := by
      rintro op rfl rfl
      obtain ⟨n', k', h1, h2⟩ := hS.step (hc op (by simp)) (by rw [List.append_assoc]; exact ha _ List.prefix_rfl)
      exact ⟨n', k', by rw [List.append_nil]; omega, h2⟩
    have stay : wo = [] → r = [] → s''.w = s'.w → ∃ n k, (reps ++ r).countP (fun x => decide (x.1 = p)) ≤ n ∧ Dcw.Since p w wpre s.w (wops ++ wo) n k s''.w := by
      rintro rfl rfl hw
      exact ⟨n, k, by rw [List.append_nil]; exact hn, by rw [List.append_nil, hw]; exact hS⟩
    cases hs with
    | complete rd l hrd hl =>
      refine ⟨_, _, ?_, .complete rd hS hrd⟩
      rw [List.countP_append, List.countP_singleton]
      simp only [decide_eq_true_eq]
      split <;> omega
    | go => exact stay rfl rfl rfl
    | send => exact stay rfl rfl rfl
    | plan => exact stay rfl rfl rfl
    | effect => exact stay rfl rfl rfl
    | refuse => exact key _ rfl rfl
    | take => exact key _ rfl rfl
    | again => exact key _ rfl rfl
    | state => exact key _ rfl rfl
    | watch => exact key _ rfl rfl
    | unwatch => exact key _ rfl rfl
    | rewatch => exact key _ rfl rfl
    | leave => exact key _ rfl rfl
    | arrive => exact key _ rfl rfl

/-- At a moment without operation, after every channel was stopped, the watcher is asked for nothing. -/
theorem J.nothing {ops : List ROp} {wops : List Dcw.Op} {s : WSt} (hj : J ops [] wops s) (hplan : s.plan = none) (hstop : ∀ c, ¬ Rec.Pending c ops) (p : Path) :
    Dcw.asked wops p = none := by
  obtain ⟨hsafe, hlog, hidle⟩ : SafeHist R ops s.sys.tree ∧ s.log = s.sys.tree.world.log ∧ s.caller = .idle := by
    obtain ⟨a, b, h1, h2, h3 | ⟨r, t, h3, _⟩⟩ := hj.tree
    · obtain ⟨rfl, rfl⟩ := List.append_eq_nil_iff.1 h1.symm
      exact ⟨by simpa using h2, h3.2.2.1, h3.2.2.2.1⟩
    · rw [hplan] at h3; cases h3
  have hmir := (Rec.C26_mirror_partial factsR hsafe).1
  have hview := hj.view
  rw [settle_idle hidle, hlog] at hview
  rw [hview]
  by_contra hq
  obtain ⟨⟨E, f⟩, hE⟩ := Option.ne_none_iff_exists'.1 hq
  obtain ⟨h1, h2⟩ := hmir.exact p E f hE
  apply h1
  rw [Event.bext]
  intro i
  by_contra hc
  have hi : BitVec.getLsbD E i = true := by simpa using hc
  rcases (h2 i).1 hi with ⟨c, E', g, h3, _⟩ | ⟨x, _, _, c, E', g, h3, _⟩
  · rw [Rec.not_pending ops (hstop c)] at h3; cases h3
  · rw [Rec.not_pending ops (hstop c)] at h3; cases h3

/-- An execution can be cut at any moment of the watcher. -/
theorem WRun.cut {cfg : Sched.Cfg} {pre : List ROp} {wpre wops : List Dcw.Op} {reps : List Note} {sg : List (Key × EventInfo)} {s s' : WSt} {ops : List ROp}
    (h : WRun cfg true pre wpre s ops wops reps sg s') (l : List Dcw.Op) (hl : l <+: wops) (ho : ops = []) :
    ∃ reps' sg' s'', WRun cfg true pre wpre s [] l reps' sg' s'' := by
  induction h with
  | refl => rw [List.prefix_nil.1 hl]; exact ⟨_, _, _, .refl⟩
  | @step ops wops reps sg o wo r g s' s'' hr hs hsafe ih =>
    obtain ⟨h1, h2⟩ := List.append_eq_nil_iff.1 ho
    by_cases hle : l <+: wops
    · exact ih hle h1
    · have h3 := h1
      subst h1 h2
      have : l = wops ++ wo := by
        have hwo : wo.length ≤ 1 := by cases hs <;> simp
        rcases List.prefix_or_prefix_of_prefix hl (List.prefix_append wops wo) with h | ⟨t, rfl⟩
        · exact absurd h hle
        · have ht := (List.prefix_append_right_inj wops).1 hl
          have : t = wo := by
            refine ht.eq_of_length ?_
            have h4 := ht.length_le
            have : t.length ≠ 0 := fun h0 => hle (by rw [List.length_eq_zero_iff.1 h0, List.append_nil]; exact List.prefix_rfl)
            omega
          rw [this]
      subst this
      exact ⟨_, _, _, hr.step hs hsafe⟩

/-- **C106, partial.**  In any execution of the whole program from the start in which every Watch and Stop is harmless in the sense of C26 and the watcher meets none of the
races and failures of C60-C62, at a moment at which no operation is under way and each channel that was passed to Watch was stopped since: from then on, until a Watch or Stop begins,
the kernel reports at most four times about each directory and not at all about directories that are not in the table of the watcher, and no directory gets into the table.  Whenever the
table is empty no handle is open and nothing is read.
Missing: harmful operations, races and failures.  That no handle is left open is false (`C106_refuted`). -/
theorem C106_windows_rest_partial {cfg : Sched.Cfg} {ops : List ROp} {wops : List Dcw.Op} {reps : List Note} {sg : List (Key × EventInfo)} {s : WSt}
    (h : WRun cfg true [] [] WSt.init ops wops reps sg s) (hplan : s.plan = none) (hstop : ∀ c, ¬ Rec.Pending c ops)
    {wops' : List Dcw.Op} {reps' : List Note} {sg' : List (Key × EventInfo)} {s' : WSt} (h' : WRun cfg true ops wops s [] wops' reps' sg' s') :
    (∀ p, reps'.countP (fun x => decide (x.1 = p)) ≤ 4) ∧
    (∀ p, s.w.m.get? p = none → s'.w.m.get? p = none ∧ ∀ x ∈ reps', x.1 ≠ p) ∧
    ((∀ p, s'.w.m.get? p = none) → s'.w.opened = [] ∧ s'.w.reads = []) := by
  have hj : J ops [] wops s := (WRun.j J.init h).rebase hplan
  have hj' : J ops [] (wops ++ wops') s' := WRun.j hj h'
  have hask : ∀ p l, l <+: wops' → Dcw.asked (wops ++ l) p = none := by
    intro p l hl
    obtain ⟨r1, g1, s1, h1⟩ := h'.cut l hl rfl
    exact (WRun.j hj h1).nothing (h1.idle rfl hplan) hstop p
  have h0 : ∀ p, Dcw.asked wops p = none := fun p => hj.nothing hplan hstop p
  refine ⟨fun p => ?_, fun p hm => ?_, fun hm => ⟨?_, ?_⟩⟩
  · cases hm : s.w.m.get? p with
    | some w =>
      obtain ⟨n, k, h1, h2⟩ := h'.since w (hask p)
      exact Nat.le_trans h1 ((Dcw.C105_any_partial hj.hist (h0 p) h2).1 hm)
    | none =>
      obtain ⟨n, k, h1, h2⟩ := h'.since 0 (hask p)
      have := ((Dcw.C105_any_partial hj.hist (h0 p) h2).2 hm).1
      omega
  · obtain ⟨n, k, h1, h2⟩ := h'.since 0 (hask p)
    obtain ⟨h3, h4⟩ := (Dcw.C105_any_partial hj.hist (h0 p) h2).2 hm
    refine ⟨h4, fun x hx hp => ?_⟩
    have : 0 < reps'.countP (fun x => decide (x.1 = p)) := List.countP_pos_iff.2 ⟨x, hx, by simpa using hp⟩
    omega
  · refine List.eq_nil_iff_forall_not_mem.2 fun k hk => ?_
    obtain ⟨p, w, g, h1, -⟩ := Dcw.C63_noleak_partial hj'.hist k hk
    rw [hm] at h1; cases h1
  · refine List.eq_nil_iff_forall_not_mem.2 fun r hr => ?_
    have := hj'.hist.inv.read_tab hr
    rw [hm] at this; cases this

/-- Whatever was left, there are at most four reports for each directory that was in the table. -/
theorem C106_total_partial {cfg : Sched.Cfg} {ops : List ROp} {wops : List Dcw.Op} {reps : List Note} {sg : List (Key × EventInfo)} {s : WSt}
    (h : WRun cfg true [] [] WSt.init ops wops reps sg s) (hplan : s.plan = none) (hstop : ∀ c, ¬ Rec.Pending c ops)
    {wops' : List Dcw.Op} {reps' : List Note} {sg' : List (Key × EventInfo)} {s' : WSt} (h' : WRun cfg true ops wops s [] wops' reps' sg' s') :
    reps'.length ≤ 4 * s.w.m.length := by
  obtain ⟨h1, h2, -⟩ := C106_windows_rest_partial h hplan hstop h'
  have hk : ∀ x ∈ reps', x.1 ∈ s.w.m.map (·.1) := by
    intro x hx
    by_contra hn
    refine (h2 x.1 ?_).2 x hx rfl
    cases hg : s.w.m.get? x.1 with
    | none => rfl
    | some w => exact absurd (List.mem_map.2 ⟨_, GoMap.mem_of_get? hg, rfl⟩) hn
  have key : ∀ (ks : List Path) (l : List Note), (∀ x ∈ l, x.1 ∈ ks) → (∀ p, l.countP (fun x => decide (x.1 = p)) ≤ 4) → l.length ≤ 4 * ks.length := by
    intro ks
    induction ks with
    | nil =>
      intro l hl _
      cases l with
      | nil => simp
      | cons x l => exact absurd (hl x List.mem_cons_self) (by simp)
    | cons a ks ih =>
      intro l hl hc
      have h3 := ih (l.filter fun x => !decide (x.1 = a)) (by
        intro x hx
        obtain ⟨hx1, hx2⟩ := List.mem_filter.1 hx
        rcases List.mem_cons.1 (hl x hx1) with e | e
        · simp [e] at hx2
        · exact e) (fun p => Nat.le_trans (List.filter_sublist.countP_le) (hc p))
      have h4 := List.length_eq_countP_add_countP (fun x : Note => decide (x.1 = a)) (l := l)
      rw [← List.countP_eq_length_filter] at h3
      have h5 := hc a
      have h6 : l.countP (fun x => !decide (x.1 = a)) = l.countP (fun x => decide ¬(decide (x.1 = a)) = true) := by
        apply List.countP_congr; intro x _; simp
      rw [List.length_cons]
      omega
  have := key _ _ hk h1
  rwa [List.length_map] at this

theorem TwiceEx.stopped (c : Nat) : ¬ Rec.Pending c [TwiceEx.op1, TwiceEx.op2] := by
  rintro ⟨a, b, p, r, e, res, h1, h2⟩
  match a with
  | [] =>
    obtain ⟨h3, h4⟩ := List.cons.inj h1
    have : c = 1 := by simp [TwiceEx.op1] at h3; exact h3.2.2.1.symm
    subst this
    exact h2 (h4 ▸ List.mem_cons_self)
  | [_] =>
    have h3 := (List.cons.inj (List.cons.inj h1).2).1
    cases h3
  | _ :: _ :: _ => simp at h1

/-- **C106 is false** of the code: a channel watches `/a/...` and is stopped, nothing is on its way, and the handles of `/a` are open and read. -/
theorem C106_refuted : ∃ (cfg : Sched.Cfg) (ops : List ROp) (wops : List Dcw.Op) (s : WSt), WRun cfg true [] [] WSt.init ops wops [] [] s ∧ s.plan = none ∧
    s.sys.calls = [] ∧ s.Quiet ∧ (∀ c, ¬ Rec.Pending c ops) ∧ s.w.opened.length = 2 ∧ s.w.reads.length = 2 :=
  ⟨_, _, _, _, TwiceEx.runA.trans TwiceEx.runB, rfl, rfl, ⟨rfl, rfl, rfl, rfl, rfl⟩, TwiceEx.stopped, by decide, by decide⟩

/-- C106 for this execution: at most four reports follow. -/
example : ∀ wops' reps' sg' s', WRun Ex.cfg true [TwiceEx.op1, TwiceEx.op2] [.watch TwiceEx.a Ex.C true true, .unwatch TwiceEx.a true] TwiceEx.sB [] wops' reps' sg' s' →
    reps'.length ≤ 4 :=
  fun _ _ _ _ h' => C106_total_partial (TwiceEx.runA.trans TwiceEx.runB) rfl TwiceEx.stopped h'

end Win
end Verif
