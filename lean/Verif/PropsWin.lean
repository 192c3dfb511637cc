/-
The whole program on Windows (C99).
-/
import Verif.WinInv

namespace Verif
namespace Win
open Rec (ROp SafeHist SafeSteps Safe rregOf Carries Rests Spares)
open Linux (Free sigs isEv Gets)
open Spec (copies)
open Mac (due Fit isSig)

/-! ### Records -/

/-- The record is about `x`, and its action is the portable event `G`. -/
def hit (G : Event) (x dir : Path) (y : Chg) : Bool := decide (dir ++ y.name = x) && decide (y.act.generic = G)

/-- How many such records the handles reported, of the directories `sel`. -/
def hits (G : Event) (x : Path) (sel : Path → Bool) (reps : List Note) : Nat :=
  (reps.map fun n => if sel n.1 then n.2.countP (hit G x n.1) else 0).sum

theorem hits_append (G : Event) (x : Path) (sel : Path → Bool) (a b : List Note) : hits G x sel (a ++ b) = hits G x sel a + hits G x sel b := by
  simp [hits, List.sum_append]

theorem hits_mono {G : Event} {x : Path} {sel sel' : Path → Bool} {reps : List Note}
    (h : ∀ n ∈ reps, sel n.1 = true → sel' n.1 = true ∨ n.2.countP (hit G x n.1) = 0) : hits G x sel reps ≤ hits G x sel' reps := by
  induction reps with
  | nil => simp [hits]
  | cons n l ih =>
    have h1 := ih fun m hm => h m (List.mem_cons_of_mem _ hm)
    have h2 := h n (by simp)
    simp only [hits, List.map_cons, List.sum_cons] at h1 ⊢
    refine Nat.add_le_add ?_ h1
    by_cases hs : sel n.1 = true
    · rcases h2 hs with h3 | h3
      · rw [if_pos hs, if_pos h3]; exact Nat.le_refl _
      · rw [h3]; simp
    · rw [if_neg hs]; exact Nat.zero_le _

/-- What `send` makes of a record: at most one such event, and one if the filter has it. -/
theorem send_count (a0 : Dcw.Action) (h0 : a0.generic ≠ 0) (F : Event) (a : Dcw.Action) (p x : Path) :
    (Dcw.send F a p).countP (isEv a0.generic x) ≤ (if p = x ∧ a.generic = a0.generic then 1 else 0) ∧
      (a0.generic ⊑ F → (Dcw.send F a p).countP (isEv a0.generic x) = if p = x ∧ a.generic = a0.generic then 1 else 0) := by
  have hraw : (Dcw.decode F a).2 ≠ a0.generic := by
    have : (Dcw.decode F a).2 = 0 ∨ (Dcw.decode F a).2 = a.raw := by
      cases a <;> simp only [Dcw.decode, Dcw.gensys]
      · split
        · right; decide
        · left; rfl
      · split
        · right; decide
        · left; rfl
      · split
        · right; decide
        · left; rfl
      · split
        · right; decide
        · left; rfl
      · split
        · right; decide
        · left; rfl
      · left; trivial
    rcases this with h | h
    · rw [h]; exact Ne.symm h0
    · rw [h]; revert h0; cases a <;> cases a0 <;> decide
  have hgen : (Dcw.decode F a).1 = if F &&& a.generic ≠ 0 then a.generic else 0 := by
    cases a
    case other => exact (ite_self (c := F &&& Dcw.Action.other.generic ≠ 0) (0 : Event)).symm
    all_goals rfl
  have hsub : a0.generic ⊑ F → F &&& a0.generic ≠ 0 := by
    intro h
    rw [Event.ne_zero_iff] at h0 ⊢
    obtain ⟨j, hj⟩ := h0
    exact ⟨j, by rw [BitVec.getLsbD_and, hj, h j hj]; rfl⟩
  have hcount : (Dcw.send F a p).countP (isEv a0.generic x) = if p = x ∧ (Dcw.decode F a).1 = a0.generic then 1 else 0 := by
    unfold Dcw.send
    simp only
    by_cases h1 : (Dcw.decode F a).1 = 0
    · have h2 : (Dcw.decode F a).1 ≠ a0.generic := by rw [h1]; exact Ne.symm h0
      have h5 : ¬ (p = x ∧ (Dcw.decode F a).1 = a0.generic) := fun h => h2 h.2
      by_cases h3 : (Dcw.decode F a).2 = 0
      · rw [if_pos ⟨h1, h3⟩, if_neg h5]; rfl
      · rw [if_neg (fun h => h3 h.2), if_pos h1, if_neg h5]
        simp [isEv, hraw]
    · rw [if_neg (fun h => h1 h.1), if_neg h1]
      split
      · by_cases h3 : p = x <;> by_cases h4 : (Dcw.decode F a).1 = a0.generic <;> simp [isEv, hraw, h3, h4]
      · by_cases h3 : p = x <;> by_cases h4 : (Dcw.decode F a).1 = a0.generic <;> simp [isEv, h3, h4]
  rw [hcount, hgen]
  constructor
  · by_cases h1 : p = x ∧ (if F &&& a.generic ≠ 0 then a.generic else 0) = a0.generic
    · rw [if_pos h1]
      have : a.generic = a0.generic := by
        by_cases h2 : F &&& a.generic ≠ 0
        · rw [if_pos h2] at h1; exact h1.2
        · rw [if_neg h2] at h1; exact absurd h1.2.symm h0
      rw [if_pos ⟨h1.1, this⟩]; exact Nat.le_refl _
    · rw [if_neg h1]; exact Nat.zero_le _
  · intro hs
    by_cases h2 : a.generic = a0.generic
    · rw [h2, if_pos (hsub hs)]
    · have : (if F &&& a.generic ≠ 0 then a.generic else 0) ≠ a0.generic := by
        split
        · exact h2
        · exact Ne.symm h0
      rw [if_neg (fun h => this h.2), if_neg (fun h => h2 h.2)]

theorem events_count (a0 : Dcw.Action) (h0 : a0.generic ≠ 0) (g : Dcw.Grip) (x : Path) (l : List Chg) :
    (events g l).countP (isEv a0.generic x) ≤ l.countP (hit a0.generic x g.path) ∧
      (a0.generic ⊑ g.filter → (events g l).countP (isEv a0.generic x) = l.countP (hit a0.generic x g.path)) := by
  induction l with
  | nil => simp [events]
  | cons y l ih =>
    have h1 := send_count a0 h0 g.filter y.act (g.path ++ y.name) x
    have h2 : (events g (y :: l)).countP (isEv a0.generic x) =
        (Dcw.send g.filter y.act (g.path ++ y.name)).countP (isEv a0.generic x) + (events g l).countP (isEv a0.generic x) := by
      simp [events, List.countP_append]
    have h3 : (y :: l).countP (hit a0.generic x g.path) =
        l.countP (hit a0.generic x g.path) + (if g.path ++ y.name = x ∧ y.act.generic = a0.generic then 1 else 0) := by
      rw [List.countP_cons]
      simp [hit]
    rw [h2, h3]
    exact ⟨by have := h1.1; have := ih.1; omega, fun h => by rw [h1.2 h, ih.2 h]; omega⟩

/-! ### Counting -/

/-- Records that wait in the queue. -/
def pend (G : Event) (x : Path) (sel : Path → Bool) (w : Dcw.St) (pk : List (Nat × List Chg)) : Nat :=
  hits G x sel (pk.map fun y => ((w.grips y.1).path, y.2))

theorem pend_append (G : Event) (x : Path) (sel : Path → Bool) (w : Dcw.St) (a b : List (Nat × List Chg)) :
    pend G x sel w (a ++ b) = pend G x sel w a + pend G x sel w b := by
  simp [pend, hits_append]

theorem pend_more (G : Event) (x : Path) (sel : Path → Bool) (v w w' : Dcw.St) : pend G x sel v (more w w') = 0 := by
  unfold more
  generalize w'.queue.drop w.queue.length = l
  induction l with
  | nil => rfl
  | cons g l ih =>
    rw [List.map_cons, ← List.singleton_append, pend_append, ih]
    simp [pend, hits]

theorem pend_stable {G : Event} {x : Path} {sel : Path → Bool} {w w' : Dcw.St} {pk : List (Nat × List Chg)} (h : Dcw.Stable w w')
    (hl : ∀ y ∈ pk, y.1 < w.ng) : pend G x sel w' pk = pend G x sel w pk := by
  unfold pend
  congr 1
  refine List.map_congr_left fun y hy => ?_
  rw [(h.2 y.1 (hl y hy)).1]

theorem queued {w : Dcw.St} (hb : Dcw.Base w) {g : Nat} (hg : g ∈ w.queue) :
    0 < Dcw.tok w g ∧ (w.grips g).parent < w.nw ∧ g ∈ (w.wds (w.grips g).parent).slots ∧ g < w.ng ∧ (w.grips g).linked = true := by
  have h1 : 0 < Dcw.tok w g := by
    unfold Dcw.tok
    have := List.count_pos_iff.2 hg
    omega
  obtain ⟨h2, h3⟩ := hb.own g (.inl (Nat.lt_of_lt_of_le h1 (Nat.le_add_right _ _)))
  obtain ⟨h4, _, _, h5⟩ := hb.slot _ h2 _ h3
  exact ⟨h1, h2, h3, h4, h5⟩

section
variable {cfg : Sched.Cfg} {base ops o : List ROp} {wops wo : List Dcw.Op} {s s' : WSt} {reps r : List Note} {sg g : List (Key × EventInfo)} {c : Nat}
  {x q tp : Path} {deep : Bool} {a0 : Dcw.Action} {w K : Nat}

theorem J.lt (h : J base ops wops s) : ∀ y ∈ s.pk, y.1 < s.w.ng := by
  intro y hy
  refine (queued h.hist.inv.base (g := y.1) ?_).2.2.2.1
  rw [← h.queue]
  exact List.mem_map.2 ⟨y, hy, rfl⟩

/-- `N` records so far made events, all those of `tp` among them. -/
structure Cnt (c : Nat) (x tp : Path) (deep : Bool) (G : Event) (w K : Nat) (reps : List Note) (sg : List (Key × EventInfo)) (s : WSt) : Prop where
  car : Carries x tp deep G s.sys.tree.world.log
  feeds : Dcw.Feeds s.w tp w G
  fit : Fit K c (isEv G x) s.sys
  sum : ∃ N, sg.countP (isSig c (isEv G x)) + due K c (isEv G x) s.sys + K * s.out.countP (isEv G x) = K * N ∧
    hits G x (fun p => decide (p = tp)) reps ≤ N + pend G x (fun p => decide (p = tp)) s.w s.pk ∧
    N + pend G x (fun _ => true) s.w s.pk ≤ hits G x (fun _ => true) reps

/-- A step that makes no events and no reports. -/
theorem Cnt.other (h : Cnt c x tp deep a0.generic w K reps sg s) (hj : J base ops wops s) (hcar : Carries x tp deep a0.generic s'.sys.tree.world.log)
    (hf : Dcw.Feeds s'.w tp w a0.generic) (hd : s'.sys.disp = s.sys.disp) (hq : s'.sys.cq = s.sys.cq) (ho : s'.out = s.out) {add : List (Nat × List Chg)}
    (hp : s'.pk = s.pk ++ add) (ha : ∀ sel, pend a0.generic x sel s'.w add = 0) (hst : Dcw.Stable s.w s'.w) :
    Cnt c x tp deep a0.generic w K reps sg s' where
  car := hcar
  feeds := hf
  fit := by unfold Fit; rw [hd]; exact h.fit
  sum := by
    have h1 : ∀ sel, pend a0.generic x sel s'.w s'.pk = pend a0.generic x sel s.w s.pk := by
      intro sel
      rw [hp, pend_append, ha, pend_stable hst hj.lt, Nat.add_zero]
    have h2 : due K c (isEv a0.generic x) s'.sys = due K c (isEv a0.generic x) s.sys := by unfold due; rw [hd, hq]
    rw [h1, h1, ho, h2]
    exact h.sum

theorem Cnt.step (hj : J base ops wops s) (hs : WStep cfg true s o wo r g s') (hsafe : ∀ op ∈ o, Safe (rregOf (base ++ ops)) s.sys.tree.world.log op)
    (hw : ∀ op ∈ wo, Dcw.CStep (Dcw.asked wops) s.w op s'.w) (hc : ∀ op ∈ ops ++ o, Spares c tp op) (htpx : tp <+: x)
    (hr : Rests (rregOf base) c q tp deep a0.generic) (h0 : a0.generic ≠ 0)
    (hK : ∀ ei, isEv a0.generic x ei = true → (Y.sends s.sys.tree ei).count (.user c) = K) (h : Cnt c x tp deep a0.generic w K reps sg s) :
    Cnt c x tp deep a0.generic w K (reps ++ r) (sg ++ g) s' := by
  have hG : a0.generic &&& Dcw.dirName = 0 := by cases a0 <;> decide
  have hc' := fun op ho => hc op (List.mem_append_left _ ho)
  have hj' := hj.step hs hsafe hw
  have hcar := hj.carries_step hs hc' htpx hr h.car
  obtain ⟨⟨E0, f0, k1, k2, _⟩, _⟩ := hj.holds hc' htpx hr h.car
  obtain ⟨⟨E1, f1, k3, _, _⟩, _⟩ := hj'.holds hc htpx hr hcar
  have hfeed : ∀ op, wo = [op] → Dcw.Feeds s'.w tp w a0.generic ∧ Dcw.Stable s.w s'.w := by
    rintro op rfl
    have := hw op (by simp)
    rw [Dcw.asked_snoc] at k3
    exact ⟨this.feeds hj.hist.inv hG k1 k2 k3 h.feeds, this.stable⟩
  have nil : reps ++ [] = reps := List.append_nil _
  have nil' : sg ++ [] = sg := List.append_nil _
  cases hs with
  | go l sys' htr hl =>
    obtain ⟨h1, h2⟩ := Mac.due_step htr hl hK h.fit
    rw [nil]
    refine ⟨hcar, h.feeds, h2, ?_⟩
    obtain ⟨N, n1, n2, n3⟩ := h.sum
    refine ⟨N, ?_, n2, n3⟩
    rw [List.countP_append]
    have : (sigs l).countP (isSig c (isEv a0.generic x)) + due K c (isEv a0.generic x) sys' = due K c (isEv a0.generic x) s.sys := h1
    show _ + _ + due K c _ sys' + K * s.out.countP _ = _
    omega
  | send o l ho hq =>
    rw [nil, nil']
    refine ⟨hcar, h.feeds, h.fit, ?_⟩
    obtain ⟨N, n1, n2, n3⟩ := h.sum
    refine ⟨N, ?_, n2, n3⟩
    rw [ho] at n1
    rw [← n1]
    simp only [due, List.countP_append, List.countP_cons, List.countP_nil, Nat.mul_add]
    omega
  | complete r l hr' hl =>
    obtain ⟨f1, f2⟩ := hfeed _ rfl
    rw [nil']
    refine ⟨hcar, f1, h.fit, ?_⟩
    obtain ⟨N, n1, n2, n3⟩ := h.sum
    have hp : ∀ sel, pend a0.generic x sel (Dcw.complete s.w r) (s.pk ++ [(r.g, l)]) = pend a0.generic x sel s.w s.pk +
        hits a0.generic x sel [((s.w.grips r.g).path, l)] := by
      intro sel; rw [pend_append]; rfl
    refine ⟨N, n1, ?_, ?_⟩
    · rw [hits_append, hp]; omega
    · rw [hits_append, hp]; omega
  | take g l pk' hl hp ho =>
    obtain ⟨f1, f2⟩ := hfeed _ rfl
    rw [nil, nil']
    refine ⟨hcar, f1, h.fit, ?_⟩
    obtain ⟨N, n1, n2, n3⟩ := h.sum
    have hmem : g ∈ s.w.queue := by rw [← hj.queue, hp]; simp
    obtain ⟨q1, q2, q3, q4, q5⟩ := queued hj.hist.inv.base hmem
    have hpd : ∀ sel, pend a0.generic x sel s.w s.pk = (if sel (s.w.grips g).path then l.countP (hit a0.generic x (s.w.grips g).path) else 0) +
        pend a0.generic x sel (Dcw.take s.w) pk' := by
      intro sel
      rw [hp, ← List.singleton_append, pend_append, pend_stable f2 (fun y hy => hj.lt y (by rw [hp]; exact List.mem_cons_of_mem _ hy))]
      simp [pend, hits]
    obtain ⟨e1, e2⟩ := events_count a0 h0 (s.w.grips g) x l
    have htp : (s.w.grips g).path = tp → (events (s.w.grips g) l).countP (isEv a0.generic x) = l.countP (hit a0.generic x (s.w.grips g).path) := by
      intro hpath
      refine e2 (h.feeds.flt g ?_)
      rw [← h.feeds.mine g q1 hpath]
      exact q3
    rw [hpd] at n2 n3
    refine ⟨N + (events (s.w.grips g) l).countP (isEv a0.generic x), ?_, ?_, ?_⟩
    · rw [ho] at n1
      simp only [q5, if_true, Nat.mul_add]
      simp only [List.countP_nil, Nat.mul_zero] at n1
      omega
    · by_cases hpath : (s.w.grips g).path = tp
      · rw [htp hpath]
        simp only [hpath, decide_true, if_true] at n2 ⊢
        omega
      · simp only [hpath, decide_false, Bool.false_eq_true, if_false] at n2
        dsimp only
        omega
    · simp only [if_true] at n3
      dsimp only
      omega
  | again g ok hl ho =>
    obtain ⟨f1, f2⟩ := hfeed _ rfl
    rw [nil, nil']
    exact h.other hj hcar f1 rfl rfl rfl (List.append_nil _).symm (fun _ => rfl) f2
  | plan r _ t new i hr' hp ht hn =>
    rw [nil, nil']
    exact h.other hj hcar h.feeds rfl rfl rfl (List.append_nil _).symm (fun _ => rfl) (.same rfl rfl)
  | effect i r a b t hcalls hp ht hc' =>
    rw [nil, nil']
    exact h.other hj hcar h.feeds rfl rfl rfl (List.append_nil _).symm (fun _ => rfl) (.same rfl rfl)
  | refuse p p' old new rest hp hc' ht hu =>
    obtain ⟨f1, f2⟩ := hfeed _ rfl
    rw [nil, nil']
    exact h.other hj hcar f1 rfl rfl rfl (List.append_nil _).symm (fun _ => rfl) f2
  | state g b0 b1 w' hl hw' =>
    obtain ⟨f1, f2⟩ := hfeed _ rfl
    rw [nil, nil']
    exact h.other hj hcar f1 rfl rfl rfl rfl (fun _ => pend_more _ _ _ _ _ _) f2
  | watch =>
    obtain ⟨f1, f2⟩ := hfeed _ rfl
    rw [nil, nil']
    exact h.other hj hcar f1 rfl rfl rfl rfl (fun _ => pend_more _ _ _ _ _ _) f2
  | unwatch =>
    obtain ⟨f1, f2⟩ := hfeed _ rfl
    rw [nil, nil']
    exact h.other hj hcar f1 rfl rfl rfl rfl (fun _ => pend_more _ _ _ _ _ _) f2
  | rewatch =>
    obtain ⟨f1, f2⟩ := hfeed _ rfl
    rw [nil, nil']
    exact h.other hj hcar f1 rfl rfl rfl rfl (fun _ => pend_more _ _ _ _ _ _) f2
  | leave =>
    obtain ⟨f1, f2⟩ := hfeed _ rfl
    rw [nil, nil']
    exact h.other hj hcar f1 rfl rfl rfl rfl (fun _ => pend_more _ _ _ _ _ _) f2
  | arrive =>
    obtain ⟨f1, f2⟩ := hfeed _ rfl
    rw [nil, nil']
    exact h.other hj hcar f1 rfl rfl rfl rfl (fun _ => pend_more _ _ _ _ _ _) f2

theorem WRun.cnt {wpre : List Dcw.Op} (hj : J base [] wpre s) (h : WRun cfg true base wpre s ops wops reps sg s') (hc : ∀ op ∈ ops, Spares c tp op) (htpx : tp <+: x)
    (hr : Rests (rregOf base) c q tp deep a0.generic) (h0 : a0.generic ≠ 0) (hx0 : [] ∉ x) (hlen : 2 ≤ x.length)
    (hcnt : Cnt c x tp deep a0.generic w (copies (rregOf base) c a0.generic x) [] [] s) :
    Cnt c x tp deep a0.generic w (copies (rregOf base) c a0.generic x) reps sg s' := by
  induction h with
  | refl => exact hcnt
  | step h1 hs hsafe ih =>
    have hc' := fun op ho => hc op (List.mem_append_left _ ho)
    have hj' := WRun.j hj h1
    obtain ⟨hpl, hint⟩ := Dcw.generic_plain a0
    exact (ih hc').step hj' hs (hsafe rfl).1 (hsafe rfl).2 hc htpx hr h0 (fun ei hei => hj'.copies hc' hint hpl hlen hx0 hei)

/-- If the watcher has no other entry on the way to `x`, no other directory reports about `x`. -/
theorem WRun.clear {wpre : List Dcw.Op} {F : Event} (hj : J base [] wpre s) (h : WRun cfg true base wpre s ops wops reps sg s') (hc : ∀ op ∈ ops, Spares c tp op)
    (htpx : tp <+: x) (hr : Rests (rregOf base) c q tp deep F) (hcar : Carries x tp deep F s.sys.tree.world.log)
    (hm : ∀ t, t <+: x → t ≠ tp → s.w.m.get? t = none) :
    Carries x tp deep F s'.sys.tree.world.log ∧ (∀ t, t <+: x → t ≠ tp → s'.w.m.get? t = none) ∧ ∀ n ∈ reps, n.1 <+: x → n.1 = tp := by
  induction h with
  | refl => exact ⟨hcar, hm, by intro n hn; cases hn⟩
  | @step ops wops reps sg o wo r g s' s'' h1 hs hsafe ih =>
    have hc' := fun op ho => hc op (List.mem_append_left _ ho)
    obtain ⟨i1, i2, i3⟩ := ih hc'
    have hj' := WRun.j hj h1
    have hj'' := hj'.step hs (hsafe rfl).1 (hsafe rfl).2
    have i1' := hj'.carries_step hs hc' htpx hr i1
    have hno := (hj''.holds hc htpx hr i1').2
    refine ⟨i1', ?_, ?_⟩
    · intro t ht hne
      have hnone : Dcw.asked (wpre ++ wops ++ wo) t = none := by
        by_contra hn
        exact hno t ht hne hn
      have key : ∀ op, wo = [op] → s''.w.m.get? t = none := by
        rintro op rfl
        rw [Dcw.asked_snoc] at hnone
        exact ((hsafe rfl).2 op (by simp)).clear hj'.hist.inv (i2 t ht hne) hnone
      cases hs with
      | go | send | plan | effect => exact i2 t ht hne
      | _ => exact key _ rfl
    · intro n hn
      rcases List.mem_append.1 hn with hn | hn
      · exact i3 n hn
      · cases hs with
        | complete rd l hrd hl =>
          simp only [List.mem_singleton] at hn
          subst hn
          intro hp
          by_contra hne
          have := hj'.hist.inv.read_tab hrd
          rw [i2 _ hp hne] at this
          cases this
        | _ => cases hn
end

/-- **C99.**  The whole program on Windows, in any execution from the start in which every Watch and Stop is harmless in the sense of C26 and the
watcher meets none of the races and failures of C60-C62: any number of goroutines call Watch and Stop, any schedule of these, of the goroutine of the tree,
of the loop of the watcher and of the kernel.  In a moment in which nothing is on its way let `c` be registered for the portable event of an action at
`x`.  Then the watcher has an entry for a directory `tp` at or above `x`, for a set that has the event.  Until there is a Watch or Stop with `c` or a Watch
of a path above `tp` the entry stays at every moment, and all its handles are read with filters that have the event.  When nothing is on its way again, the kernel watches `tp` for
all of a set that has the event, and for the whole subtree if it did before and `x` is not directly in `tp`.  Then the event has been signalled to `c` at least once
for each record of the handles of `tp` about `x` and each registration of `c` that covers it, and at most once for each record of any handle and each such
registration: exactly as often as asked for, if in the beginning the watcher had no other entry of a directory at or above `x` (then no handle of another directory
at or above `x` reports at all), or no handle of another directory reported about `x`.
Missing: what else may report about `x` (C100), raw events, the races of C60-C62. -/
theorem C99_windows_signalled_partial {cfg : Sched.Cfg} {ops₀ : List ROp} {wops₀ : List Dcw.Op} {reps₀ : List Note} {sg₀ : List (Key × EventInfo)} {s : WSt}
    (h0 : WRun cfg true [] [] WSt.init ops₀ wops₀ reps₀ sg₀ s) (hplan : s.plan = none) (hq : s.Quiet) {c : Nat} {a : Dcw.Action} (ha : a.generic ≠ 0)
    {x : Path} (hx0 : [] ∉ x) (hlen : 2 ≤ x.length) (hreg : 1 ≤ copies (rregOf ops₀) c a.generic x) :
    ∃ tp w E f, tp <+: x ∧ s.w.m.get? tp = some w ∧ a.generic ⊑ E ∧ (Dcw.held s.w tp).Perm (Dcw.wanted E f) ∧
      ∀ ops wops reps sg s', WRun cfg true ops₀ wops₀ s ops wops reps sg s' → (∀ op ∈ ops, Spares c tp op) →
        s'.w.m.get? tp = some w ∧ (∀ g ∈ (s'.w.wds w).slots, a.generic ⊑ (s'.w.grips g).filter) ∧
        ((∀ t, t <+: x → t ≠ tp → s.w.m.get? t = none) → ∀ n ∈ reps, n.1 <+: x → n.1 = tp) ∧
        (s'.Quiet →
          (∃ E' f', a.generic ⊑ E' ∧ (tp.length + 1 < x.length → f = true → f' = true) ∧ (Dcw.held s'.w tp).Perm (Dcw.wanted E' f')) ∧
          copies (rregOf ops₀) c a.generic x * hits a.generic x (fun p => decide (p = tp)) reps ≤ sg.countP (Gets c a.generic x) ∧
          sg.countP (Gets c a.generic x) ≤ copies (rregOf ops₀) c a.generic x * hits a.generic x (fun _ => true) reps ∧
          ((∀ t, t <+: x → t ≠ tp → s.w.m.get? t = none) ∨ (∀ n ∈ reps, n.1 ≠ tp → ∀ y ∈ n.2, n.1 ++ y.name ≠ x) →
            sg.countP (Gets c a.generic x) = copies (rregOf ops₀) c a.generic x * hits a.generic x (fun p => decide (p = tp)) reps)) := by
  have hj : J ops₀ [] wops₀ s := (WRun.j J.init h0).rebase hplan
  obtain ⟨hsafe, hlog, hidle⟩ : SafeHist R ops₀ s.sys.tree ∧ s.log = s.sys.tree.world.log ∧ s.caller = .idle := by
    obtain ⟨a, b, h1, h2, h3 | ⟨r, t, h3, _⟩⟩ := hj.tree
    · obtain ⟨rfl, rfl⟩ := List.append_eq_nil_iff.1 h1.symm
      exact ⟨by simpa using h2, h3.2.2.1, h3.2.2.2.1⟩
    · rw [hplan] at h3; cases h3
  have hmir := (Rec.C26_mirror_partial factsR hsafe).1
  obtain ⟨q, E0, gg, h1, h2, h3⟩ := Mac.copies_inv hreg
  obtain ⟨tp, E, f, h4, h5, h6⟩ := Rec.mirror_covered hmir c q E0 gg h1
  have hqx : q <+: x := by
    rcases h3 with rfl | rfl | ⟨_, h⟩
    · exact List.prefix_rfl
    · exact List.dropLast_prefix _
    · exact h.trans (List.dropLast_prefix _)
  have htpx : tp <+: x := h4.trans hqx
  have hview := hj.view
  rw [settle_idle hidle, hlog] at hview
  have h7 : Dcw.asked wops₀ tp = some (E, f) := by rw [hview]; exact h5
  have hFE : a.generic ⊑ E := Event.Sub.trans h2 h6
  have hG : a.generic &&& Dcw.dirName = 0 := by cases a <;> decide
  have hdq : Dcw.Quiet s.w := ⟨hq.1, hq.2.1⟩
  obtain ⟨w, hfd, _⟩ := Dcw.feeds_quiet hj.hist hdq hG h7 hFE
  refine ⟨tp, w, E, f, htpx, hfd.tab, hFE, (Dcw.C60_held_partial hj.hist hdq tp).1 _ _ h7, fun ops wops reps sg s' h hc => ?_⟩
  generalize hdeep : (decide (tp.length + 1 < x.length) && f) = deep
  have hd1 : deep = true → tp.length + 1 < x.length ∧ f = true := by rw [← hdeep]; simp
  have hr : Rests (rregOf ops₀) c q tp deep a.generic := by
    refine ⟨h4, E0, gg, h1, h2, fun hd => ?_⟩
    have hd := (hd1 hd).1
    rcases h3 with rfl | rfl | ⟨h, _⟩
    · left; rintro rfl; omega
    · left; rintro rfl; simp only [List.length_dropLast] at hd; omega
    · exact .inr h
  have hcar : Carries x tp deep a.generic s.sys.tree.world.log := by
    refine ⟨fun t ht hne => ?_, E, f, h5, hFE, fun hd => (hd1 hd).2⟩
    by_contra hn
    have htp : osRec s.sys.tree.world.log tp ≠ none := by rw [h5]; simp
    rcases List.prefix_or_prefix_of_prefix ht htpx with h | h
    · exact hne (hmir.apart _ _ hn htp h)
    · exact hne (hmir.apart _ _ htp hn h).symm
  have hpk : s.pk = [] := by
    have := hj.queue
    rw [hq.1] at this
    simpa using this
  have hcnt : Cnt c x tp deep a.generic w (copies (rregOf ops₀) c a.generic x) [] [] s := by
    refine ⟨hcar, hfd, ?_, 0, ?_, ?_, ?_⟩
    · intro j ei d a hm; rw [hq.2.2.2.2] at hm; cases hm
    · simp [due, hq.2.2.1, hq.2.2.2.1, hq.2.2.2.2]
    · simp [hpk, pend, hits]
    · simp [hpk, pend, hits]
  have hcnt' := WRun.cnt hj h hc htpx hr ha hx0 hlen hcnt
  have hj' := WRun.j hj h
  refine ⟨hcnt'.feeds.tab, hcnt'.feeds.flt, fun hm => (WRun.clear hj h hc htpx hr hcar hm).2.2, fun hq' => ?_⟩
  have hgets : sg.countP (Gets c a.generic x) = sg.countP (isSig c (isEv a.generic x)) := by
    apply List.countP_congr
    intro y _
    simp [Gets, isSig, isEv, Bool.and_assoc]
  have hpk' : s'.pk = [] := by
    have := hj'.queue
    rw [hq'.1] at this
    simpa using this
  obtain ⟨N, n1, n2, n3⟩ := hcnt'.sum
  have hN : sg.countP (Gets c a.generic x) = copies (rregOf ops₀) c a.generic x * N := by
    rw [hgets]
    simpa [due, hq'.2.2.1, hq'.2.2.2.1, hq'.2.2.2.2] using n1
  have hp0 : ∀ sel, pend a.generic x sel s'.w s'.pk = 0 := by intro sel; rw [hpk']; rfl
  rw [hp0] at n2 n3
  simp only [Nat.add_zero] at n2 n3
  refine ⟨?_, by rw [hN]; exact Nat.mul_le_mul_left _ n2, by rw [hN]; exact Nat.mul_le_mul_left _ n3, fun hother => ?_⟩
  · obtain ⟨⟨E', f', k1, k2, k3⟩, _⟩ := hj'.holds hc htpx hr hcnt'.car
    refine ⟨E', f', k2, fun g1 g2 => k3 (by rw [← hdeep, g2]; simpa using g1), (Dcw.C60_held_partial hj'.hist ⟨hq'.1, hq'.2.1⟩ tp).1 _ _ k1⟩
  · have hother : ∀ n ∈ reps, n.1 ≠ tp → ∀ y ∈ n.2, n.1 ++ y.name ≠ x := by
      rcases hother with hm | h'
      · intro n hn hne y _ e
        exact hne ((WRun.clear hj h hc htpx hr hcar hm).2.2 n hn (e ▸ List.prefix_append _ _))
      · exact h'
    have : hits a.generic x (fun _ => true) reps ≤ hits a.generic x (fun p => decide (p = tp)) reps := by
      refine hits_mono fun n hn _ => ?_
      by_cases e : n.1 = tp
      · left; simpa using e
      · right
        rw [List.countP_eq_zero]
        intro y hy hh
        simp only [hit, Bool.and_eq_true, decide_eq_true_eq] at hh
        exact hother n hn e y hy hh.1
    rw [hN]
    congr 1
    omega

/-- **C100, partial.**  As C99, and in the beginning everything that was unwatched is gone from the table of the watcher: then a change is reported by one directory only,
until there is a Watch or Stop with `c` or a Watch of a path above it, and its portable event is signalled to `c` once for each registration that covers it.
Missing: entries that are unwatched and still report (`C100_refuted`). -/
theorem C100_once_partial {cfg : Sched.Cfg} {ops₀ : List ROp} {wops₀ : List Dcw.Op} {reps₀ : List Note} {sg₀ : List (Key × EventInfo)} {s : WSt}
    (h0 : WRun cfg true [] [] WSt.init ops₀ wops₀ reps₀ sg₀ s) (hplan : s.plan = none) (hq : s.Quiet)
    (hgone : ∀ p, s.w.m.get? p ≠ none → Dcw.asked wops₀ p ≠ none) {c : Nat} {a : Dcw.Action} (ha : a.generic ≠ 0)
    {x : Path} (hx0 : [] ∉ x) (hlen : 2 ≤ x.length) (hreg : 1 ≤ copies (rregOf ops₀) c a.generic x) :
    ∃ tp, tp <+: x ∧ Dcw.held s.w tp ≠ [] ∧
      ∀ ops wops reps sg s', WRun cfg true ops₀ wops₀ s ops wops reps sg s' → (∀ op ∈ ops, Spares c tp op) →
        (∀ n ∈ reps, n.1 <+: x → n.1 = tp) ∧
        (s'.Quiet → sg.countP (Gets c a.generic x) = copies (rregOf ops₀) c a.generic x * (reps.map fun n => n.2.countP (hit a.generic x n.1)).sum) := by
  have hj : J ops₀ [] wops₀ s := (WRun.j J.init h0).rebase hplan
  obtain ⟨hsafe, hlog, hidle⟩ : SafeHist R ops₀ s.sys.tree ∧ s.log = s.sys.tree.world.log ∧ s.caller = .idle := by
    obtain ⟨a, b, h1, h2, h3 | ⟨r, t, h3, _⟩⟩ := hj.tree
    · obtain ⟨rfl, rfl⟩ := List.append_eq_nil_iff.1 h1.symm
      exact ⟨by simpa using h2, h3.2.2.1, h3.2.2.2.1⟩
    · rw [hplan] at h3; cases h3
  have hmir := (Rec.C26_mirror_partial factsR hsafe).1
  have hview := hj.view
  rw [settle_idle hidle, hlog] at hview
  obtain ⟨tp, w, E, f, h1, h2, h3, h4, h5⟩ := C99_windows_signalled_partial h0 hplan hq ha hx0 hlen hreg
  have hclear : ∀ t, t <+: x → t ≠ tp → s.w.m.get? t = none := by
    intro t ht hne
    by_contra hn
    have n1 : osRec s.sys.tree.world.log t ≠ none := by rw [← hview]; exact hgone t hn
    have n2 : osRec s.sys.tree.world.log tp ≠ none := by rw [← hview]; exact hgone tp (by rw [h2]; simp)
    rcases List.prefix_or_prefix_of_prefix ht h1 with h | h
    · exact hne (hmir.apart _ _ n1 n2 h)
    · exact hne (hmir.apart _ _ n2 n1 h).symm
  refine ⟨tp, h1, ?_, fun ops wops reps sg s' h hc => ?_⟩
  · intro e
    rw [e] at h4
    have := h4.symm.eq_nil
    unfold Dcw.wanted at this
    have hf : Dcw.hasFile E = true := by
      obtain ⟨j, hj⟩ := Event.ne_zero_iff.1 ha
      refine decide_eq_true (Event.ne_zero_iff.2 ⟨j, ?_⟩)
      have hd : a.generic &&& Dcw.dirName = 0 := by cases a <;> decide
      have h6 := Event.bext.1 hd j
      rw [BitVec.getLsbD_and, hj] at h6
      have h7 : Dcw.dirName.getLsbD j = false := by simpa using h6
      unfold Dcw.fileFilter
      rw [Event.bit_andNot, h3 j hj, h7]; rfl
    rw [hf] at this
    simp at this
  · have hone := (h5 _ _ _ _ _ h hc).2.2.1 hclear
    refine ⟨hone, fun hq' => ?_⟩
    obtain ⟨-, -, -, k⟩ := (h5 _ _ _ _ _ h hc).2.2.2 hq'
    rw [k (.inl hclear)]
    congr 1
    unfold hits
    congr 1
    refine List.map_congr_left fun n hn => ?_
    by_cases e : n.1 = tp
    · rw [if_pos (by simpa using e)]
    · rw [if_neg (by simpa using e)]
      symm
      rw [List.countP_eq_zero]
      intro y hy hh
      simp only [hit, Bool.and_eq_true, decide_eq_true_eq] at hh
      exact e (hone n hn (hh.1 ▸ List.prefix_append _ _))

/-! ### The parts -/

theorem Plans.step {b : Bool} {s t : St} {r : Sched.Req} {ops : List ROp} (h : Plans b s r ops t) : Y.step s r t := by
  obtain ⟨h1, _, op, h2, h3⟩ := h
  have key : ∃ s₁, (s₁ = s ∨ Rec.RStep R false s .shuffle s₁) ∧ Rec.RStep R false s₁ op t := by
    rcases h3 with rfl | rfl
    · obtain ⟨s1, h4, h5⟩ := Mac.rsteps_snoc (ops := []) h1
      exact ⟨s1, .inl (Mac.rsteps_nil h4), Mac.rstep_weaken h5⟩
    · obtain ⟨s1, h4, h5⟩ := Mac.rsteps_snoc (ops := [.shuffle]) h1
      obtain ⟨s2, h6, h7⟩ := Mac.rsteps_snoc (ops := []) h4
      obtain rfl := Mac.rsteps_nil h6
      exact ⟨s1, .inr (Mac.rstep_weaken h7), Mac.rstep_weaken h5⟩
  obtain ⟨s₁, h4, h5⟩ := key
  refine ⟨s₁, h4, ?_⟩
  cases r with
  | watch p isrec c e => obtain ⟨res, rfl⟩ := h2; exact ⟨res, h5⟩
  | stop c => obtain rfl := h2; exact h5
  | internal ei => cases h2

/-- The packet is of records whose paths are well formed. -/
def Sound (w : Dcw.St) (y : Nat × List Chg) : Prop := ∀ z ∈ y.2, z.name ≠ [] ∧ [] ∉ (w.grips y.1).path ++ z.name

theorem Sound.stable {w w' : Dcw.St} {pk : List (Nat × List Chg)} (h : Dcw.Stable w w') (hl : ∀ y ∈ pk, y.1 < w.ng) (hs : ∀ y ∈ pk, Sound w y) :
    ∀ y ∈ pk, Sound w' y := by
  intro y hy z hz
  rw [(h.2 y.1 (hl y hy)).1]
  exact hs y hy z hz

theorem Sound.more {v w w' : Dcw.St} : ∀ y ∈ more w w', Sound v y := by
  intro y hy z hz
  unfold Win.more at hy
  obtain ⟨g, _, rfl⟩ := List.mem_map.1 hy
  cases hz

theorem events_good {g : Dcw.Grip} {l : List Chg} (h : ∀ z ∈ l, z.name ≠ [] ∧ [] ∉ g.path ++ z.name) : ∀ o ∈ events g l, NonRec.GoodPath o.path := by
  intro o ho
  obtain ⟨y, hy, ho⟩ := List.mem_flatMap.1 ho
  have hp : o.path = g.path ++ y.name := by
    unfold Dcw.send at ho
    simp only at ho
    split at ho
    · cases ho
    · split at ho
      · simp only [List.mem_singleton] at ho; rw [ho]
      · split at ho
        · simp only [List.mem_cons, List.not_mem_nil, or_false] at ho
          rcases ho with rfl | rfl <;> rfl
        · simp only [List.mem_singleton] at ho; rw [ho]
  obtain ⟨h1, h2⟩ := h y hy
  rw [hp]
  exact ⟨by intro e; exact h1 (List.append_eq_nil_iff.1 e).2, h2⟩

structure Parts (cfg : Sched.Cfg) (sg : List (Key × EventInfo)) (s : WSt) : Prop where
  exec : ∃ t, Sched.Exec Y cfg t s.sys ∧ Linux.signals t = sg
  os : s.sys.os = []
  plan : ∀ r t, s.plan = some (r, t) → Y.step s.sys.tree r t
  pk : ∀ y ∈ s.pk, Sound s.w y
  out : ∀ o ∈ s.out, NonRec.GoodPath o.path

/-- Every execution as in C99 is, without the watcher, an execution of `Sched` with the same signals, and without the tree one of the watcher.  So all
that is proved of these (C05, C30, C46; C60) holds of the whole program. -/
theorem C99_parts {cfg : Sched.Cfg} {ops : List ROp} {wops : List Dcw.Op} {reps : List Note} {sg : List (Key × EventInfo)} {s : WSt}
    (h : WRun cfg true [] [] WSt.init ops wops reps sg s) :
    (∃ t, Sched.Exec Y cfg t s.sys ∧ Linux.signals t = sg) ∧ Dcw.CHist wops s.w := by
  suffices h' : Parts cfg sg s from ⟨h'.exec, (WRun.j J.init h).hist⟩
  have sig1 : ∀ t l, Linux.signals (t ++ [l]) = Linux.signals t ++ sigs l := by intro t l; simp [Linux.signals]
  induction h with
  | refl => exact ⟨⟨[], .nil, rfl⟩, rfl, (by intro r t h; cases h), (by intro y h; cases h), (by intro y h; cases h)⟩
  | @step ops wops reps sg o wo r g s' s'' h0 hs hsafe ih =>
    obtain ⟨⟨t, h1, h2⟩, h3, h4, h5, h6⟩ := ih
    have hj := WRun.j J.init h0
    rw [List.nil_append] at hj
    have hst : ∀ op, wo = [op] → Dcw.Stable s'.w s''.w := by rintro op rfl; exact ((hsafe rfl).2 op (by simp)).stable
    have grow : ∀ op, wo = [op] → ∀ y ∈ s'.pk ++ more s'.w s''.w, Sound s''.w y := by
      intro op ho y hy
      rcases List.mem_append.1 hy with hy | hy
      · exact Sound.stable (hst op ho) hj.lt h5 y hy
      · exact Sound.more y hy
    cases hs with
    | go l' sys' htr hfree =>
      refine ⟨⟨t ++ [l'], h1.snoc htr, by rw [sig1, h2]⟩, (Mac.free_os htr hfree).trans h3, ?_, h5, h6⟩
      intro r t' hp
      simp only [Mac.free_tree htr hfree]
      exact h4 r t' hp
    | complete rd l hr hl =>
      refine ⟨⟨t, h1, by simpa using h2⟩, h3, h4, ?_, h6⟩
      intro y hy
      rcases List.mem_append.1 hy with hy | hy
      · exact h5 y hy
      · simp only [List.mem_singleton] at hy
        subst hy
        exact fun z hz => ⟨(hl z hz).1, (hl z hz).2.1⟩
    | take g l pk' hl hp ho =>
      refine ⟨⟨t, h1, by simpa using h2⟩, h3, h4, ?_, ?_⟩
      · exact fun y hy => Sound.stable (hst _ rfl) hj.lt h5 y (by rw [hp]; exact List.mem_cons_of_mem _ hy)
      · dsimp only
        split
        · exact events_good (h5 (g, l) (by rw [hp]; simp))
        · intro o ho; cases ho
    | send o l ho hc =>
      have hok := h6 o (by rw [ho]; simp)
      refine ⟨⟨t ++ [.report [o]] ++ [.push o], ?_, ?_⟩, h3, h4, h5, fun y hy => h6 y (by rw [ho]; exact List.mem_cons_of_mem _ hy)⟩
      · have h6 := (h1.snoc (.report [o] (by simpa using hok) h3)).snoc (.push o [] rfl hc)
        simp only [h3] at h6 ⊢
        exact h6
      · rw [sig1, sig1, h2]; simp [sigs]
    | again g ok hl ho => exact ⟨⟨t, h1, by simpa using h2⟩, h3, h4, Sound.stable (hst _ rfl) hj.lt h5, h6⟩
    | plan r _ t' new i hr hp ht hn => exact ⟨⟨t, h1, by simpa using h2⟩, h3, by rintro r t ⟨⟩; exact ht.step, h5, h6⟩
    | refuse => exact ⟨⟨t, h1, by simpa using h2⟩, h3, h4, h5, h6⟩
    | effect i r a b t' hcalls hp ht hc =>
      refine ⟨⟨t ++ [.effect i r], h1.snoc (.effect i r a b t' hcalls (h4 _ _ hp) fun _ => h3), by rw [sig1, h2]; rfl⟩, h3, ?_, h5, h6⟩
      intro r t h; cases h
    | state | watch | unwatch | rewatch | leave | arrive => exact ⟨⟨t, h1, by simpa using h2⟩, h3, h4, grow _ rfl, h6⟩

end Win
end Verif
