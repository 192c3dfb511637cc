/-
Properties of all schedules, for any tree: C05 (Stop silences), C30 (no deadlock), and the instances for the
two trees.
-/
import Verif.SchedInv
import Verif.PropsNonRec
import Verif.PropsRec

namespace Verif
namespace Sched

variable {Y : Sys} {cfg : Cfg}

/-! ### Stop silences -/

theorem Tr.absent (L : Laws Y) {s s' : State Y} {l : Lab Y.Req} {c : Nat} (h : Inv L s) (ha : L.absent c s.tree)
    (ht : Tr Y cfg s l s') (hl : ∀ i r, l = .effect i r → ¬ L.isWatch c r) :
    L.absent c s'.tree ∧ ∀ i ei, l ≠ .send i (.user c) ei := by
  constructor
  · rcases ht.tree h.oks L with h' | ⟨r, hr, hst, ⟨i, hi⟩ | ⟨ei, _, he⟩⟩
    · rw [h']; exact ha
    · exact L.keep h.tree hr (hl i r hi) ha hst
    · exact L.keep h.tree hr (by rw [he]; exact L.intern_watch c ei) ha hst
  · intro i ei hls
    subst hls
    cases ht with
    | send _ _ d _ a b hh =>
      have hm : (i, ei, Disp.reading d (some (.user c))) ∈ s.disp := by rw [hh]; simp
      have h1 := h.about i ei d _ hm
      exact L.silent h.tree ha (h.oks.disp _ hm) (List.count_pos_iff.1 (Nat.lt_of_le_of_lt (Nat.zero_le _) h1))

theorem Run.absent (L : Laws Y) {s s' : State Y} {t : List (Lab Y.Req)} {c : Nat} (h : Inv L s)
    (ha : L.absent c s.tree) (ht : Run Y cfg s t s') (hl : ∀ i r, .effect i r ∈ t → ¬ L.isWatch c r) :
    L.absent c s'.tree ∧ ∀ i ei, .send i (.user c) ei ∉ t := by
  induction ht with
  | nil => exact ⟨ha, by simp⟩
  | @snoc t s₁ l s₂ h1 h2 ih =>
    obtain ⟨h3, h4⟩ := ih (fun i r hm => hl i r (by simp [hm]))
    obtain ⟨h5, h6⟩ := h2.absent L (h.run h1) h3 (fun i r hm => hl i r (by simp [hm]))
    exact ⟨h5, fun i ei hm => by
      rcases List.mem_append.1 hm with hm | hm
      · exact h4 i ei hm
      · exact h6 i ei (by simpa using Eq.symm (by simpa using hm))⟩

/-- A call that is past its effect has had it. -/
theorem Exec.effected {t : List (Lab Y.Req)} {s : State Y} (h : Exec Y cfg t s) :
    ∀ i r, ((i, r, Call.applied) ∈ s.calls ∨ (i, r, Call.unlocked) ∈ s.calls) → .effect i r ∈ t := by
  induction h with
  | nil => simp [State.init]
  | @snoc t s l s' _ h2 ih =>
    intro j q hm
    rw [List.mem_append]
    cases h2 with
    | call r hok hu => exact .inl (ih j q (by simpa using hm))
    | lock i r a b hh hr hw hi =>
      refine .inl (ih j q ?_)
      rw [hh]; simpa using hm
    | effect i r a b t' hh hst hos =>
      by_cases hij : j = i ∧ q = r
      · obtain ⟨rfl, rfl⟩ := hij; exact .inr (by simp)
      · refine .inl (ih j q ?_)
        rw [hh]
        simp only [List.mem_append, List.mem_cons, Prod.mk.injEq, reduceCtorEq, and_false, false_or, and_true,
          hij] at hm ⊢
        exact hm
    | unlock i r a b hh =>
      refine .inl (ih j q ?_)
      rw [hh]
      by_cases hij : j = i ∧ q = r
      · obtain ⟨rfl, rfl⟩ := hij; exact .inl (by simp)
      · simp only [List.mem_append, List.mem_cons, Prod.mk.injEq, reduceCtorEq, and_false, false_or, and_true,
          hij] at hm ⊢
        exact hm
    | ret i r a b hh =>
      refine .inl (ih j q ?_)
      rw [hh]
      simp only [List.mem_append, List.mem_cons] at hm ⊢
      rcases hm with (hm | hm) | hm | hm <;> simp [hm]
    | _ => exact .inl (ih j q hm)

/-- When a call returns, it has taken effect before. -/
theorem Exec.ret_effect {t : List (Lab Y.Req)} {s : State Y} {i : Nat} {r : Y.Req}
    (h : Exec Y cfg (t ++ [.ret i r]) s) : ∃ a b, t = a ++ .effect i r :: b := by
  obtain ⟨s₁, h1, h2⟩ := Run.split h
  have h3 := h2.single
  cases h3 with
  | ret _ _ a b hh => exact List.append_of_mem (Exec.effected h1 i r (.inr (by rw [hh]; simp)))

/-- Between the moment at which Stop(c) takes effect and the next at which a Watch with `c` does, nothing is
sent to `c`. -/
theorem silent_after_effect (L : Laws Y) {t t' : List (Lab Y.Req)} {s : State Y} {i c : Nat} {r : Y.Req}
    (h : Exec Y cfg (t ++ .effect i r :: t') s) (hr : L.isStop c r)
    (hw : ∀ j r', .effect j r' ∈ t' → ¬ L.isWatch c r') : ∀ j ei, .send j (.user c) ei ∉ t' := by
  rw [List.append_cons] at h
  obtain ⟨s₁, h1, h2⟩ := Run.split h
  have hi : Inv L s₁ := Exec.inv L h1
  obtain ⟨s₀, h3, h4⟩ := Run.split h1
  have hi₀ : Inv L s₀ := Exec.inv L h3
  have h5 := h4.single
  refine (h2.absent L hi ?_ hw).2
  cases h5 with
  | effect _ _ a b t₁ hh hst hos =>
    exact L.stop_absent hi₀.tree (hi₀.oks.calls (i, r, .locked) (by rw [hh]; simp)) hr hst

/-- The general form of C05: Stop(c), once it has returned, took effect before, and nothing is sent to `c`
from there on unless a Watch with `c` took effect since. -/
theorem stop_returned (L : Laws Y) {t t' : List (Lab Y.Req)} {s : State Y} {i c : Nat} {r : Y.Req}
    (h : Exec Y cfg (t ++ .ret i r :: t') s) (hr : L.isStop c r) :
    ∃ a b, t = a ++ .effect i r :: b ∧
      ((∀ j r', .effect j r' ∈ b ++ t' → ¬ L.isWatch c r') → ∀ j ei, .send j (.user c) ei ∉ b ++ t') := by
  have h0 := h
  rw [List.append_cons] at h0
  obtain ⟨s₁, h1, _⟩ := Run.split h0
  obtain ⟨a, b, rfl⟩ := Exec.ret_effect h1
  refine ⟨a, b, rfl, fun hw => ?_⟩
  have h2 : Exec Y cfg (a ++ .effect i r :: (b ++ .ret i r :: t')) s := by simpa using h
  have h3 := silent_after_effect L h2 hr (fun j r' hm => hw j r' (by
    simp only [List.mem_append, List.mem_cons, reduceCtorEq, false_or] at hm ⊢; exact hm))
  intro j ei hm
  refine h3 j ei ?_
  simp only [List.mem_append, List.mem_cons] at hm ⊢
  rcases hm with hm | hm <;> simp [hm]

/-! ### No deadlock -/

/-- Nothing is going on. -/
def State.Idle (s : State Y) : Prop := s.os = [] ∧ s.cq = [] ∧ s.rq = [] ∧ s.disp = [] ∧ s.calls = [] ∧ s.int = .idle

/-- In every reachable state that is not idle, somebody can take a step, without help from users or the OS. -/
theorem progress (L : Laws Y) (hC : 0 < cfg.capC) (hR : 0 < cfg.capR) {s : State Y} (h : Inv L s) (hne : ¬ s.Idle) :
    ∃ l s', Tr Y cfg s l s' ∧ ¬ l.env := by
  -- the dispatch loop
  cases hcq : s.cq with
  | cons ei q => exact ⟨_, _, .spawn ei q hcq, id⟩
  | nil =>
  -- the watcher
  cases hos : s.os with
  | cons ei r => exact ⟨_, _, .push ei r hos (by rw [hcq]; exact hC), id⟩
  | nil =>
  -- a reader
  by_cases hrd : s.Reading
  · obtain ⟨i, ei, d, ab, hm⟩ := hrd
    obtain ⟨a, b, hab⟩ := List.append_of_mem hm
    cases ab with
    | some k => exact ⟨_, _, .send i ei d k a b hab, id⟩
    | none =>
      by_cases hk : ∀ k, (Y.sends s.tree ei).count k ≤ d.count k
      · cases hh : Y.hand s.tree ei with
        | true => exact ⟨_, _, .runlock i ei d a b hab hk hh, id⟩
        | false => exact ⟨_, _, .fin i ei d a b hab hk hh, id⟩
      · obtain ⟨k, hk⟩ := not_forall.1 hk
        exact ⟨_, _, .pick i ei d k a b hab (by omega), id⟩
  -- a writer
  by_cases hcl : s.CallHolds
  · obtain ⟨i, r, hm | hm⟩ := hcl
    · obtain ⟨a, b, hab⟩ := List.append_of_mem hm
      obtain ⟨t', ht'⟩ := L.total s.tree r (h.oks.calls _ hm)
      exact ⟨_, _, .effect i r a b t' hab ht' (fun _ => hos), id⟩
    · obtain ⟨a, b, hab⟩ := List.append_of_mem hm
      exact ⟨_, _, .unlock i r a b hab, id⟩
  by_cases hin : s.IntHolds
  · obtain ⟨ei, hm | hm⟩ := hin
    · obtain ⟨t', ht'⟩ := L.total s.tree _ (L.intern_ok (h.oks.int ei (.inr hm)))
      exact ⟨_, _, .intEffect ei t' hm ht' (fun _ => hos), id⟩
    · exact ⟨_, _, .intUnlock ei hm, id⟩
  -- the lock is free
  by_cases hww : s.WriterWaits
  · rcases hww with ⟨i, r, hm⟩ | ⟨ei, hm⟩
    · obtain ⟨a, b, hab⟩ := List.append_of_mem hm
      exact ⟨_, _, .lock i r a b hab hrd hcl hin, id⟩
    · exact ⟨_, _, .intLock ei hm hrd hcl, id⟩
  have hidle : s.int = .idle := by
    cases hi : s.int with
    | idle => rfl
    | waiting ei => exact absurd (.inr ⟨ei, hi⟩) hww
    | locked ei => exact absurd ⟨ei, .inl hi⟩ hin
    | applied ei => exact absurd ⟨ei, .inr hi⟩ hin
  cases hrq : s.rq with
  | cons ei q => exact ⟨_, _, .intRecv ei q hrq hidle, id⟩
  | nil =>
  cases hd : s.disp with
  | cons x xs =>
    obtain ⟨i, ei, d⟩ := x
    cases d with
    | start => exact ⟨_, _, .rlock i ei [] xs hd hcl hin (fun _ => hww), id⟩
    | reading d ab => exact absurd ⟨i, ei, d, ab, by rw [hd]; simp⟩ hrd
    | handing => exact ⟨_, _, .handed i ei [] xs hd (by rw [hrq]; exact hR), id⟩
  | nil =>
  cases hc : s.calls with
  | cons x xs =>
    obtain ⟨i, r, c⟩ := x
    cases c with
    | waiting => exact absurd (.inl ⟨i, r, by rw [hc]; simp⟩) hww
    | locked => exact absurd ⟨i, r, .inl (by rw [hc]; simp)⟩ hcl
    | applied => exact absurd ⟨i, r, .inr (by rw [hc]; simp)⟩ hcl
    | unlocked => exact ⟨_, _, .ret i r [] xs hc, id⟩
  | nil => exact absurd ⟨hos, hcq, hrq, hd, hc, hidle⟩ hne

/-! ### No livelock -/

def Disp.w : Disp → Nat
  | .start => 7
  | .reading _ _ => 6
  | .handing => 5

def Call.w : Call → Nat
  | .waiting => 4
  | .locked => 3
  | .applied => 2
  | .unlocked => 1

def Intern.w : Intern → Nat
  | .idle => 0
  | .waiting _ => 3
  | .locked _ => 2
  | .applied _ => 1

/-- What is left to do, apart from sends. -/
def State.work (s : State Y) : Nat :=
  9 * s.os.length + 8 * s.cq.length + 4 * s.rq.length + (s.disp.map (·.2.2.w)).sum + (s.calls.map (·.2.2.w)).sum + s.int.w

/-- The sends left to one goroutine. -/
def sendsLeft (t : Y.σ) (x : Nat × EventInfo × Disp) : Nat :=
  match x.2.2 with
  | .reading d none => 2 * ((Y.sends t x.2.1).diff d).length
  | .reading d (some _) => 2 * ((Y.sends t x.2.1).diff d).length - 1
  | _ => 0

/-- The sends left. -/
def State.left (s : State Y) : Nat := (s.disp.map (sendsLeft s.tree)).sum

theorem diff_length {l d : List Key} {k : Key} (h : d.count k < l.count k) :
    (l.diff (k :: d)).length + 1 = (l.diff d).length := by
  rw [List.diff_cons_right, List.length_erase_of_mem]
  · have : 0 < (l.diff d).length := List.length_pos_of_mem (a := k) (List.count_pos_iff.1 (by rw [List.count_diff]; omega))
    omega
  · exact List.count_pos_iff.1 (by rw [List.count_diff]; omega)

theorem diff_pos {l d : List Key} {k : Key} (h : d.count k < l.count k) : 0 < (l.diff d).length :=
  List.length_pos_of_mem (a := k) (List.count_pos_iff.1 (by rw [List.count_diff]; omega))

theorem Tr.decreases (L : Laws Y) {s s' : State Y} {l : Lab Y.Req} (h : Inv L s) (ht : Tr Y cfg s l s')
    (hl : ¬ l.env) : s'.work < s.work ∨ (s'.work = s.work ∧ s'.left < s.left) := by
  cases ht with
  | report evs hok hh => exact absurd trivial hl
  | call r hok hu => exact absurd trivial hl
  | push ei r hh hc => left; simp [State.work, hh]; omega
  | spawn ei q hh => left; simp [State.work, hh, Disp.w]; omega
  | rlock i ei a b hh hw hi hp => left; simp [State.work, hh, Disp.w]
  | pick i ei d k a b hh hk =>
    right
    refine ⟨by simp [State.work, hh, Disp.w], ?_⟩
    have := diff_pos hk
    simp [State.left, hh, sendsLeft]; omega
  | send i ei d k a b hh =>
    right
    refine ⟨by simp [State.work, hh, Disp.w], ?_⟩
    have hk := diff_length (h.about i ei d k (by rw [hh]; simp))
    simp only [State.left, hh, sendsLeft, List.map_append, List.map_cons, List.sum_append, List.sum_cons]
    omega
  | runlock i ei d a b hh hk hd => left; simp [State.work, hh, Disp.w]
  | fin i ei d a b hh hk hd => left; simp [State.work, hh, Disp.w]
  | handed i ei a b hh hc => left; simp [State.work, hh, Disp.w]; omega
  | lock i r a b hh hr hw hi => left; simp [State.work, hh, Call.w]
  | effect i r a b t' hh hst hos => left; simp [State.work, hh, Call.w]
  | unlock i r a b hh => left; simp [State.work, hh, Call.w]
  | ret i r a b hh => left; simp [State.work, hh, Call.w]
  | intRecv ei q hh hi => left; simp [State.work, hh, hi, Intern.w]; omega
  | intLock ei hh hr hw => left; simp [State.work, hh, Intern.w]
  | intEffect ei t' hh hst hos => left; simp [State.work, hh, Intern.w]
  | intUnlock ei hh => left; simp [State.work, hh, Intern.w]

/-- The well-founded order of the measure. -/
theorem measure_wf : WellFounded (fun a b : Nat × Nat => a.1 < b.1 ∨ (a.1 = b.1 ∧ a.2 < b.2)) := by
  refine Subrelation.wf (r := Prod.Lex (· < ·) (· < ·)) ?_ (Prod.lex Nat.lt_wfRel Nat.lt_wfRel).wf
  rintro ⟨a, b⟩ ⟨c, d⟩ (h | ⟨h1, h2⟩)
  · exact .left _ _ h
  · simp only at h1 h2; subst h1; exact .right _ h2

/-- Without new calls and reports there is no infinite execution. -/
theorem terminates (L : Laws Y) (f : Nat → State Y) (h0 : Inv L (f 0))
    (hf : ∀ n, ∃ l, Tr Y cfg (f n) l (f (n + 1)) ∧ ¬ l.env) : False := by
  have hi : ∀ n, Inv L (f n) := by
    intro n
    induction n with
    | zero => exact h0
    | succ n ih => obtain ⟨l, hl, _⟩ := hf n; exact ih.tr hl
  have key : ∀ m : Nat × Nat, ∀ n, (f n).work = m.1 → (f n).left = m.2 → False := by
    intro m
    induction m using measure_wf.induction with
    | _ m ih =>
      intro n h1 h2
      obtain ⟨l, hl, he⟩ := hf n
      have := hl.decreases L (hi n) he
      refine ih ((f (n + 1)).work, (f (n + 1)).left) ?_ (n + 1) rfl rfl
      rw [← h1, ← h2]
      rcases this with h | h
      · exact .inl h
      · exact .inr h
  exact key (_, _) 0 rfl rfl

/-- Every execution can be continued, without new calls and reports, until everything is idle. -/
theorem drains (L : Laws Y) (hC : 0 < cfg.capC) (hR : 0 < cfg.capR) {s : State Y} (h : Inv L s) :
    ∃ t s', Run Y cfg s t s' ∧ (∀ l ∈ t, ¬ l.env) ∧ s'.Idle := by
  have key : ∀ m : Nat × Nat, ∀ s : State Y, Inv L s → s.work = m.1 → s.left = m.2 →
      ∃ t s', Run Y cfg s t s' ∧ (∀ l ∈ t, ¬ l.env) ∧ s'.Idle := by
    intro m
    induction m using measure_wf.induction with
    | _ m ih =>
      intro s h h1 h2
      by_cases hd : s.Idle
      · exact ⟨[], s, .nil, by simp, hd⟩
      · obtain ⟨l, s₁, hl, he⟩ := progress L hC hR h hd
        have hdec := hl.decreases L h he
        obtain ⟨t, s', hr, hn, hid⟩ := ih (s₁.work, s₁.left) (by rw [← h1, ← h2]; exact hdec) s₁ (h.tr hl) rfl rfl
        exact ⟨l :: t, s', Run.cons hl hr, by simpa [he] using hn, hid⟩
  exact key (_, _) s h rfl rfl

/-! ### Order -/

theorem ne_repl {i : Nat} {α : Type} {a b : List (Nat × α)} {j : Nat} {x y : α} (h : ∀ z ∈ a ++ (j, x) :: b, z.1 ≠ i) :
    ∀ z ∈ a ++ (j, y) :: b, z.1 ≠ i := by
  intro z hz
  simp only [List.mem_append, List.mem_cons] at hz h
  rcases hz with hz | rfl | hz
  · exact h _ (.inl hz)
  · exact h (j, x) (.inr (.inl rfl))
  · exact h _ (.inr (.inr hz))

/-- After the goroutine of an event has ended, it sends nothing. -/
theorem fin_silent (L : Laws Y) {t t' : List (Lab Y.Req)} {s : State Y} {i : Nat}
    (h : Exec Y cfg (t ++ .fin i :: t') s) : ∀ k ei, .send i k ei ∉ t' := by
  rw [List.append_cons] at h
  obtain ⟨s₁, h1, h2⟩ := Run.split h
  have hi₁ : Inv L s₁ := Exec.inv L h1
  obtain ⟨s₀, h3, h4⟩ := Run.split h1
  have hi₀ : Inv L s₀ := Exec.inv L h3
  have hgone : (∀ x ∈ s₁.disp, x.1 ≠ i) ∧ i < s₁.next := by
    have h5 := h4.single
    cases h5 with
    | fin _ ei d a b hh hk hd =>
      have := hi₀.ids.nodup
      have hlt := hi₀.ids.disp (i, ei, .reading d none) (by rw [hh]; simp)
      rw [hh] at this
      simp only [List.map_append, List.map_cons] at this
      rw [List.perm_middle.nodup_iff, List.nodup_cons] at this
      refine ⟨fun x hx hxi => this.1 ?_, hlt⟩
      rw [← List.map_append]
      exact List.mem_map.2 ⟨x, hx, hxi⟩
    | handed _ ei a b hh hc =>
      have := hi₀.ids.nodup
      have hlt := hi₀.ids.disp (i, ei, .handing) (by rw [hh]; simp)
      rw [hh] at this
      simp only [List.map_append, List.map_cons] at this
      rw [List.perm_middle.nodup_iff, List.nodup_cons] at this
      refine ⟨fun x hx hxi => this.1 ?_, hlt⟩
      rw [← List.map_append]
      exact List.mem_map.2 ⟨x, hx, hxi⟩
  have key : ∀ {t' : List (Lab Y.Req)} {s : State Y}, Run Y cfg s₁ t' s →
      ((∀ x ∈ s.disp, x.1 ≠ i) ∧ i < s.next) ∧ ∀ k ei, .send i k ei ∉ t' := by
    intro t' s h
    induction h with
    | nil => exact ⟨hgone, by simp⟩
    | @snoc t' s l s' _ ht ih =>
      obtain ⟨⟨h5, h6⟩, h7⟩ := ih
      have h8 : ∀ k ei, l ≠ .send i k ei := by
        intro k ei hl
        subst hl
        cases ht with
        | send _ _ d _ a b hh => exact h5 (i, ei, .reading d (some k)) (by rw [hh]; simp) rfl
      refine ⟨?_, fun k ei hm => ?_⟩
      · cases ht with
        | spawn ei q hh =>
          refine ⟨fun x hx => ?_, Nat.lt_succ_of_lt h6⟩
          rcases List.mem_cons.1 hx with rfl | hx
          · simp only; omega
          · exact h5 x hx
        | call r hok hu => exact ⟨h5, Nat.lt_succ_of_lt h6⟩
        | rlock j ei a b hh hw hi hp => rw [hh] at h5; exact ⟨ne_repl h5, h6⟩
        | pick j ei d k a b hh hk => rw [hh] at h5; exact ⟨ne_repl h5, h6⟩
        | send j ei d k a b hh => rw [hh] at h5; exact ⟨ne_repl h5, h6⟩
        | runlock j ei d a b hh hk hd => rw [hh] at h5; exact ⟨ne_repl h5, h6⟩
        | fin j ei d a b hh hk hd =>
          rw [hh] at h5
          refine ⟨fun x hx => h5 x ?_, h6⟩
          rcases List.mem_append.1 hx with hx | hx <;> simp [hx]
        | handed j ei a b hh hc =>
          rw [hh] at h5
          refine ⟨fun x hx => h5 x ?_, h6⟩
          rcases List.mem_append.1 hx with hx | hx <;> simp [hx]
        | _ => exact ⟨h5, h6⟩
      · rcases List.mem_append.1 hm with hm | hm
        · exact h7 k ei hm
        · exact h8 k ei (by simpa using Eq.symm (by simpa using hm))
  exact (key h2).2
/-- If the goroutine `i` of an event has ended before the goroutine `j` of another is started, all sends of
`i` come before all sends of `j`. -/
theorem sequential (L : Laws Y) {t t' : List (Lab Y.Req)} {s : State Y} {i j : Nat}
    {ei : EventInfo} (h : Exec Y cfg (t ++ .spawn j ei :: t') s) (hfin : .fin i ∈ t) :
    (∀ k e, .send j k e ∉ t) ∧ ∀ k e, .send i k e ∉ t' := by
  constructor
  · obtain ⟨s₁, h1, h2⟩ := Run.split h
    have hn : s₁.next = j := by
      have h2' : Run Y cfg s₁ ([.spawn j ei] ++ t') s := h2
      obtain ⟨s₂, h3, h4⟩ := Run.split h2'
      have h5 := h3.single
      generalize hl : Lab.spawn j ei = l at h5
      cases h5 with
      | spawn ei' q hh => simp at hl; exact hl.1.symm
      | _ => simp at hl
    subst hn
    have key : ∀ {t : List (Lab Y.Req)} {s₁ : State Y}, Exec Y cfg t s₁ →
        ∀ i k e, .send i k e ∈ t → i < s₁.next := by
      intro t s₁ h
      induction h with
      | nil => intro i k e hm; simp at hm
      | @snoc t s l s' hx ht ih =>
        intro i k e hm
        have hmono : s.next ≤ s'.next := by cases ht <;> simp
        rcases List.mem_append.1 hm with hm | hm
        · exact Nat.lt_of_lt_of_le (ih i k e hm) hmono
        · simp at hm
          subst hm
          refine Nat.lt_of_lt_of_le ?_ hmono
          cases ht with
          | send _ _ d _ a b hh =>
            exact (Exec.inv L hx).ids.disp (i, e, .reading d (some k)) (by rw [hh]; simp)
    intro k e hm
    exact absurd (key h1 _ k e hm) (Nat.lt_irrefl _)
  · obtain ⟨a, b, rfl⟩ := List.append_of_mem hfin
    intro k e hm
    have h' : Exec Y cfg (a ++ .fin i :: (b ++ .spawn j ei :: t')) s := by simpa using h
    exact fin_silent L h' k e (by simp [hm])

theorem mem_repl {α : Type} {i j : Nat} {r r' : α} {k x y : Call} {a b : List (Nat × α × Call)}
    (h : (i, r, k) ∈ a ++ (j, r', x) :: b) : ∃ k, (i, r, k) ∈ a ++ (j, r', y) :: b := by
  simp only [List.mem_append, List.mem_cons, Prod.mk.injEq] at h
  rcases h with h | ⟨rfl, rfl, _⟩ | h
  · exact ⟨k, by simp [h]⟩
  · exact ⟨y, by simp⟩
  · exact ⟨k, by simp [h]⟩

/-- A call under way returns in some continuation without further calls and events. -/
theorem returns (L : Laws Y) (hC : 0 < cfg.capC) (hR : 0 < cfg.capR) {s : State Y} (h : Inv L s) {i : Nat} {r : Y.Req}
    {k : Call} (hm : (i, r, k) ∈ s.calls) : ∃ t' s', Run Y cfg s t' s' ∧ (∀ l ∈ t', ¬ l.env) ∧ .ret i r ∈ t' := by
  obtain ⟨t', s', hr, hn, hid⟩ := drains L hC hR h
  refine ⟨t', s', hr, hn, ?_⟩
  have key : ∀ {t' : List (Lab Y.Req)} {s' : State Y}, Run Y cfg s t' s' →
      .ret i r ∈ t' ∨ ∃ k, (i, r, k) ∈ s'.calls := by
    intro t' s' hr
    induction hr with
    | nil => exact .inr ⟨k, hm⟩
    | @snoc t' s₁ l s₂ _ ht ih =>
      rcases ih with ih | ⟨k, ih⟩
      · exact .inl (by simp [ih])
      · cases ht with
        | call r' hok hu => exact .inr ⟨k, .tail _ ih⟩
        | lock j r' a b hh hr hw hi => rw [hh] at ih; exact .inr (mem_repl ih)
        | effect j r' a b t' hh hst hos => rw [hh] at ih; exact .inr (mem_repl ih)
        | unlock j r' a b hh => rw [hh] at ih; exact .inr (mem_repl ih)
        | ret j r' a b hh =>
          rw [hh] at ih
          simp only [List.mem_append, List.mem_cons, Prod.mk.injEq] at ih
          rcases ih with ih | ⟨rfl, rfl, _⟩ | ih
          · exact .inr ⟨k, by simp [ih]⟩
          · exact .inl (by simp)
          · exact .inr ⟨k, by simp [ih]⟩
        | _ => exact .inr ⟨k, ih⟩
  rcases key hr with h | ⟨k, h⟩
  · exact h
  · rw [hid.2.2.2.2.1] at h; simp at h

end Sched
end Verif
