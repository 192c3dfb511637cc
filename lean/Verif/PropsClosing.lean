/-
C118: when a channel may be closed.

A send on a closed channel panics, also one with a `default` case, and a panic in a goroutine of the package
ends the program (/repo/watchpoint.go:81-95 sends from the goroutines of /repo/tree_nonrecursive.go:37-77 and
/repo/tree_recursive.go:124-153, which
recover from nothing).  The documentation of Stop (/repo/notify.go:64-72) promises that after Stop has returned "it
is guaranteed that c will receive no more signals".  Here the traces of `Sched` are extended with the moments at
which the program closes channels.
-/
import Verif.PropsSched3
import Verif.PropsNonRec2
import Verif.PropsRecFail

namespace Verif
namespace Sched

variable {Y : Sys} {P : Platform} {cfg : Cfg}

/-- What happens in a program: steps of `Sched`, and channels that are closed. -/
abbrev Happens (R : Type) := Nat ⊕ Lab R

/-- The steps of `Sched` in it. -/
def stepsOf {R : Type} (tr : List (Happens R)) : List (Lab R) := tr.filterMap Sum.getRight?

/-- A send on a closed channel. -/
def SendsOnClosed {R : Type} (tr : List (Happens R)) : Prop :=
  ∃ a b c j ei, tr = a ++ .inl c :: b ∧ .inr (.send j (.user c) ei) ∈ b

/-- `c` is closed, if at all, after a Stop(c) has returned before whose call every Watch with `c` had returned
and since whose call none has been or will be made. -/
def ClosedAfterStop (tr : List (Happens Req)) (c : Nat) : Prop :=
  ∀ a b, tr = a ++ .inl c :: b → ∃ u v w i, stepsOf a = u ++ .call i (.stop c) :: (v ++ .ret i (.stop c) :: w) ∧
    (∀ j p isrec e, .call j (.watch p isrec c e) ∈ u → .ret j (.watch p isrec c e) ∈ u) ∧
    (∀ j p isrec e, .call j (.watch p isrec c e) ∉ v ++ w ++ stepsOf b)

/-- A call that is over. -/
structure Over (s : State Y) (j : Nat) : Prop where
  lt : j < s.next
  gone : ∀ x ∈ s.calls, x.1 ≠ j

theorem Over.tr {s s' : State Y} {l : Lab Y.Req} {j : Nat} (h : Over s j) (ht : Tr Y cfg s l s') :
    Over s' j ∧ ∀ r, l ≠ .effect j r := by
  obtain ⟨h1, h2⟩ := h
  cases ht with
  | call r hok hu =>
    refine ⟨⟨by simp; omega, ?_⟩, nofun⟩
    intro x hx
    rcases List.mem_cons.1 hx with rfl | hx
    · exact fun h => by simp at h; omega
    · exact h2 x hx
  | spawn ei q hh => exact ⟨⟨by simp; omega, h2⟩, nofun⟩
  | lock i r a b hh hr hw hi => exact ⟨⟨h1, ne_repl (by rw [← hh]; exact h2)⟩, nofun⟩
  | effect i r a b t' hh hst hos =>
    refine ⟨⟨h1, ne_repl (by rw [← hh]; exact h2)⟩, ?_⟩
    intro r' he
    injection he with h3 _
    exact h2 (i, r, .locked) (by rw [hh]; simp) h3
  | unlock i r a b hh => exact ⟨⟨h1, ne_repl (by rw [← hh]; exact h2)⟩, nofun⟩
  | ret i r a b hh =>
    refine ⟨⟨h1, ?_⟩, nofun⟩
    intro x hx
    refine h2 x ?_
    rw [hh]
    rcases List.mem_append.1 hx with hx | hx <;> simp [hx]
  | _ => exact ⟨⟨h1, h2⟩, nofun⟩

theorem Over.run {s s' : State Y} {t : List (Lab Y.Req)} {j : Nat} (h : Over s j) (ht : Run Y cfg s t s') :
    Over s' j ∧ ∀ r, .effect j r ∉ t := by
  induction ht with
  | nil => exact ⟨h, by simp⟩
  | snoc _ h2 ih =>
    obtain ⟨h3, h4⟩ := ih
    obtain ⟨h5, h6⟩ := h3.tr h2
    refine ⟨h5, fun r hm => ?_⟩
    rcases List.mem_append.1 hm with hm | hm
    · exact h4 r hm
    · exact h6 r (by simpa using Eq.symm (by simpa using hm))

/-- A call that has returned is over. -/
theorem Exec.over (L : Laws Y) {t : List (Lab Y.Req)} {s : State Y} (h : Exec Y cfg t s) {j : Nat} {r : Y.Req}
    (hm : .ret j r ∈ t) : Over s j := by
  obtain ⟨a, b, rfl⟩ := List.append_of_mem hm
  rw [List.append_cons] at h
  obtain ⟨s₁, h1, h2⟩ := Run.split h
  obtain ⟨s₀, h3, h4⟩ := Run.split h1
  have hi := (Exec.inv L h3).ids
  have h5 := h4.single
  refine (Over.run ?_ h2).1
  cases h5 with
  | ret _ _ a' b' hh =>
    refine ⟨hi.calls (j, r, .unlocked) (by rw [hh]; simp), ?_⟩
    have hn := hi.cnodup
    rw [hh] at hn
    intro x hx hxj
    simp only [List.map_append, List.map_cons, List.nodup_append, List.nodup_cons, List.mem_map, List.mem_cons] at hn
    rcases List.mem_append.1 hx with hx | hx
    · exact hn.2.2 j ⟨x, hx, hxj⟩ j (.inl rfl) rfl
    · exact hn.2.1.1 ⟨x, hx, hxj⟩

/-- The identifiers of calls. -/
theorem Exec.call_lt {t : List (Lab Y.Req)} {s : State Y} (h : Exec Y cfg t s) :
    ∀ i r, .call i r ∈ t → i < s.next := by
  induction h with
  | nil => simp
  | snoc _ h2 ih =>
    intro i r hm
    rcases List.mem_append.1 hm with hm | hm
    · have := ih i r hm
      cases h2 <;> simp <;> omega
    · have he := Eq.symm (by simpa using hm)
      subst he
      cases h2
      simp

theorem stepsOf_append {R : Type} (a b : List (Happens R)) : stepsOf (a ++ b) = stepsOf a ++ stepsOf b := by
  simp [stepsOf]

theorem stepsOf_close {R : Type} (c : Nat) (b : List (Happens R)) : stepsOf (.inl c :: b) = stepsOf b :=
  List.filterMap_cons_none rfl

/-- No effect of a Watch with `c` comes after the effect of the Stop. -/
theorem no_watch_after (L : Laws Y) {u v w : List (Lab Y.Req)} {s : State Y} {i j : Nat} {r r' : Y.Req} {a b : List (Lab Y.Req)}
    (h : Exec Y cfg (u ++ .call i r :: (v ++ .ret i r :: w)) s) (hab : u ++ .call i r :: v = a ++ .effect i r :: b)
    (hne : r' ≠ r) (hu : .call j r' ∈ u → .ret j r' ∈ u) (hv : .call j r' ∉ v ++ w) : .effect j r' ∉ b ++ w := by
  intro hm
  obtain ⟨sᵤ, h1, h2⟩ := Run.split h
  -- the effect of the Stop is after its call
  have hiu : .effect i r ∉ u := by
    intro hi
    obtain ⟨u₁, u₂, rfl⟩ := List.append_of_mem hi
    rw [List.append_cons] at h1
    obtain ⟨s₁, h3, _⟩ := Run.split h1
    have hc := Exec.effect_called h3
    have hlt := Exec.call_lt h1 i r (by simp [hc])
    rw [show Lab.call i r :: (v ++ .ret i r :: w) = [Lab.call i r] ++ (v ++ .ret i r :: w) from rfl] at h2
    obtain ⟨s₂, h4, _⟩ := Run.split h2
    have h5 := h4.single
    cases h5
    exact Nat.lt_irrefl _ hlt
  have hb : ∀ x ∈ b, x ∈ v := by
    have hp : u ++ [Lab.call i r] <+: a := by
      have h6 : (u ++ [Lab.call i r]) <+: (a ++ .effect i r :: b) := ⟨v, by rw [← hab]; simp⟩
      have h7 : a <+: (a ++ .effect i r :: b) := List.prefix_append _ _
      rcases List.prefix_or_prefix_of_prefix h6 h7 with h8 | h8
      · exact h8
      · by_cases hl : (u ++ [Lab.call i r]).length ≤ a.length
        · exact (List.IsPrefix.eq_of_length h8 (Nat.le_antisymm h8.length_le hl)) ▸ List.prefix_rfl
        · exfalso
          have h9 : a ++ [Lab.effect i r] <+: u ++ [Lab.call i r] :=
            List.prefix_of_prefix_length_le (⟨b, by simp⟩ : a ++ [Lab.effect i r] <+: a ++ .effect i r :: b) h6
              (by simp at hl ⊢; omega)
          have h10 : .effect i r ∈ u ++ [Lab.call i r] := h9.subset (by simp)
          simp at h10
          exact hiu h10
    obtain ⟨z, rfl⟩ := hp
    have : v = z ++ .effect i r :: b := by simpa using hab
    intro x hx; rw [this]; simp [hx]
  have hm' : .effect j r' ∈ v ++ .ret i r :: w := by
    rcases List.mem_append.1 hm with hm | hm
    · simp [hb _ hm]
    · simp [hm]
  obtain ⟨x, y, hxy⟩ := List.append_of_mem hm'
  have h' : Exec Y cfg ((u ++ .call i r :: x ++ [.effect j r']) ++ y) s := by
    have : (u ++ .call i r :: x ++ [.effect j r']) ++ y = u ++ .call i r :: (v ++ .ret i r :: w) := by rw [hxy]; simp
    rw [this]; exact h
  obtain ⟨s₁, h3, _⟩ := Run.split h'
  have hc := Exec.effect_called h3
  have hx : .call j r' ∉ x := by
    intro hx
    have : .call j r' ∈ v ++ .ret i r :: w := by rw [hxy]; simp [hx]
    simp only [List.mem_append, List.mem_cons, reduceCtorEq, false_or] at this hv
    exact hv this
  have hcu : .call j r' ∈ u := by
    simp only [List.mem_append, List.mem_cons, Lab.call.injEq, hne, and_false, false_or, hx, or_false] at hc
    exact hc
  have ho := Exec.over L h1 (hu hcu)
  refine (ho.run h2).2 r' ?_
  exact List.mem_cons_of_mem _ hm'

theorem closed_after_stop (L : Laws Y) (hcl : ∀ c r, L.isWatch c r → ¬ L.isStop c r) {u v w : List (Lab Y.Req)}
    {s : State Y} {i c : Nat} {r : Y.Req} (h : Exec Y cfg (u ++ .call i r :: (v ++ .ret i r :: w)) s)
    (hr : L.isStop c r)
    (hu : ∀ j r', L.isWatch c r' → .call j r' ∈ u → .ret j r' ∈ u)
    (hv : ∀ j r', L.isWatch c r' → .call j r' ∉ v ++ w) : ∀ j ei, .send j (.user c) ei ∉ w := by
  have h0 : Exec Y cfg ((u ++ .call i r :: v) ++ .ret i r :: w) s := by simpa using h
  obtain ⟨a, b, hab, hs⟩ := stop_returned L h0 hr
  have := hs (fun j r' hm hw => no_watch_after L h hab (fun he => hcl c r' hw (by rw [he]; exact hr)) (hu j r' hw) (hv j r' hw) hm)
  intro j ei hm
  exact this j ei (by simp [hm])

theorem watch_of {c : Nat} {r : Req} (h : r.watches c) : ∃ p isrec e, r = .watch p isrec c e := by
  cases r with
  | watch p isrec d e => cases (show d = c from h); exact ⟨_, _, _, rfl⟩
  | stop d => exact h.elim
  | internal ei => exact h.elim

/-- **C118** (non-recursive tree).  A program that closes channels only after they were stopped, with every Watch
returned before the Stop was called and none made later, never sends on a closed channel, whatever else happens,
in any order. -/
theorem C118_stopped_nonrec (hP : P.Facts) {tr : List (Happens Req)} {s : State (plainTree P)}
    (h : Exec (plainTree P) cfg (stepsOf tr) s) (hc : ∀ c, ClosedAfterStop tr c) : ¬ SendsOnClosed tr := by
  rintro ⟨a, b, c, j, ei, rfl, hm⟩
  obtain ⟨u, v, w, i, ha, hu, hv⟩ := hc c a b rfl
  have ht : stepsOf (a ++ .inl c :: b) = u ++ .call i (.stop c) :: (v ++ .ret i (.stop c) :: (w ++ stepsOf b)) := by
    rw [stepsOf_append, ha, stepsOf_close]; simp
  rw [ht] at h
  refine closed_after_stop (plainLaws P hP) ?_ h (c := c) rfl ?_ ?_ j ei ?_
  · intro d r hw hs; obtain ⟨p, q, e, rfl⟩ := watch_of hw; exact hs
  · intro j r hw; obtain ⟨p, q, e, rfl⟩ := watch_of hw; exact hu j p q e
  · intro j r hw; obtain ⟨p, q, e, rfl⟩ := watch_of hw; rw [← List.append_assoc]; exact hv j p q e
  · refine List.mem_append_right _ ?_
    simp only [stepsOf, List.mem_filterMap]
    exact ⟨_, hm, rfl⟩

/-- **C118** (recursive tree). -/
theorem C118_stopped_rec (hP : P.Facts) {tr : List (Happens Req)} {s : State (recTree P)}
    (h : Exec (recTree P) cfg (stepsOf tr) s) (hc : ∀ c, ClosedAfterStop tr c) : ¬ SendsOnClosed tr := by
  rintro ⟨a, b, c, j, ei, rfl, hm⟩
  obtain ⟨u, v, w, i, ha, hu, hv⟩ := hc c a b rfl
  have ht : stepsOf (a ++ .inl c :: b) = u ++ .call i (.stop c) :: (v ++ .ret i (.stop c) :: (w ++ stepsOf b)) := by
    rw [stepsOf_append, ha, stepsOf_close]; simp
  rw [ht] at h
  refine closed_after_stop (recLaws P hP) ?_ h (c := c) rfl ?_ ?_ j ei ?_
  · intro d r hw hs; obtain ⟨p, q, e, rfl⟩ := watch_of hw; exact hs
  · intro j r hw; obtain ⟨p, q, e, rfl⟩ := watch_of hw; exact hu j p q e
  · intro j r hw; obtain ⟨p, q, e, rfl⟩ := watch_of hw; rw [← List.append_assoc]; exact hv j p q e
  · refine List.mem_append_right _ ?_
    simp only [stepsOf, List.mem_filterMap]
    exact ⟨_, hm, rfl⟩

/-! ### Channels whose Watch calls returned errors -/

/-- Executions in which what `F` says of them holds of the effects of all Watch calls with `c`. -/
inductive WatchRun (Y : Sys) (cfg : Cfg) (F : Y.σ → Y.Req → Y.σ → Prop) (watches : Y.Req → Prop) :
    List (Lab Y.Req) → State Y → Prop
  | nil : WatchRun Y cfg F watches [] (State.init Y)
  | snoc {t s l s'} : WatchRun Y cfg F watches t s → Tr Y cfg s l s' →
      (∀ i r, l = .effect i r → watches r → F s.tree r s'.tree) → WatchRun Y cfg F watches (t ++ [l]) s'

theorem WatchRun.exec {F : Y.σ → Y.Req → Y.σ → Prop} {watches : Y.Req → Prop} {t : List (Lab Y.Req)} {s : State Y}
    (h : WatchRun Y cfg F watches t s) : Exec Y cfg t s := by
  induction h with
  | nil => exact .nil
  | snoc _ h2 _ ih => exact .snoc ih h2

/-- The Watch call returns an error (non-recursive tree). -/
def FailsPlain (P : Platform) (s : St) (r : Req) (s' : St) : Prop :=
  ∃ s₁ p isrec c e, (s₁ = s ∨ NonRec.Step P false s .shuffle s₁) ∧ r = .watch p isrec c e ∧
    NonRec.Step P false s₁ (.watch p isrec c e false) s'

/-- The Watch call returns an error (recursive tree). -/
def FailsRec (P : Platform) (s : St) (r : Req) (s' : St) : Prop :=
  ∃ s₁ p isrec c e, (s₁ = s ∨ Rec.RStep P false s .shuffle s₁) ∧ r = .watch p isrec c e ∧
    Rec.RStep P false s₁ (.watch p isrec c e false) s'

/-- The full statement: a channel for which every Watch call made so far has returned an error is sent nothing, so
that it may be closed without a Stop. -/
def C118_failed_full (Y : Sys) (fails : Y.σ → Y.Req → Y.σ → Prop) (watches : Nat → Y.Req → Prop) : Prop :=
  ∀ (cfg : Cfg) (c : Nat) (t : List (Lab Y.Req)) (s : State Y), WatchRun Y cfg fails (watches c) t s →
    ∀ j ei, .send j (.user c) ei ∉ t

theorem WatchRun.silent (L : Laws Y) {c : Nat} {F : Y.σ → Y.Req → Y.σ → Prop} (h0 : L.absent c Y.init)
    (hF : ∀ t r t', L.inv t → L.isWatch c r → F t r t' → L.absent c t → L.absent c t') {t : List (Lab Y.Req)}
    {s : State Y} (h : WatchRun Y cfg F (L.isWatch c) t s) :
    L.absent c s.tree ∧ ∀ j ei, .send j (.user c) ei ∉ t := by
  induction h with
  | nil => exact ⟨h0, by simp⟩
  | @snoc t s l s' h1 h2 h3 ih =>
    obtain ⟨ha, hs⟩ := ih
    have hinv := Exec.inv L h1.exec
    by_cases hl : ∃ i r, l = .effect i r ∧ L.isWatch c r
    · obtain ⟨i, r, rfl, hw⟩ := hl
      exact ⟨hF _ _ _ hinv.tree hw (h3 i r rfl hw) ha, fun j ei hm => by
        rcases List.mem_append.1 hm with hm | hm
        · exact hs j ei hm
        · simp at hm⟩
    · obtain ⟨h5, h6⟩ := h2.absent L hinv ha (fun i r he hw => hl ⟨i, r, he, hw⟩)
      exact ⟨h5, fun j ei hm => by
        rcases List.mem_append.1 hm with hm | hm
        · exact hs j ei hm
        · exact h6 j ei (by simpa using Eq.symm (by simpa using hm))⟩

/-- **C118, partial** (non-recursive tree).  A channel for which only recursive Watch calls were made, all of which
returned errors, is sent nothing.  Missing: failed Watch calls that were not recursive, see
`C118_failed_refuted_nonrec`. -/
theorem C118_failed_partial (hP : P.Facts) {c : Nat} {t : List (Lab Req)} {s : State (plainTree P)}
    (h : WatchRun (plainTree P) cfg (fun s r s' => FailsPlain P s r s' ∧ ∃ p e, r = .watch p true c e) (Req.watches c) t s) :
    ∀ j ei, .send j (.user c) ei ∉ t := by
  refine (WatchRun.silent (plainLaws P hP) ?_ ?_ h).2
  · intro q
    have : NonRec.watchAt NonRec.init.root q = [] := by cases q <;> rfl
    show NonRec.entry NonRec.init.root c q = none
    unfold NonRec.entry; rw [this]; rfl
  · rintro s r s' ⟨ops, hh⟩ hw ⟨⟨s₁, p, isrec, d, e, h4, rfl, h5⟩, p', e', he'⟩ ha
    injection he' with _ hrec hdc _
    subst hrec hdc
    have hsh := NonRec.Hist.shape hP hh
    have h6 : NonRec.Shape P s₁.root ∧ ∀ q, NonRec.entry s₁.root d q = none := by
      rcases h4 with rfl | h4
      · exact ⟨hsh, ha⟩
      · exact ⟨h4.shape hP hsh, h4.absent hP hsh (fun hw => hw) ha⟩
    obtain ⟨O, dt, hp, he, hd, _, hb, hst⟩ := h5.watch_inv
    intro q
    rw [hst, (NonRec.watchOp_effect hP O h6.1 hp true d he hd).2 d q, ← hb]
    simp only [Bool.false_eq_true, if_false, if_true, ite_self]
    exact h6.2 q

/-- The trace of the refutations: channel 2 watches a directory, a Watch of channel 1 is made and returns, an event
is reported and sent to channel `k`. -/
def refusedTrace (R1 R2 : Y.Req) (ei : EventInfo) (k : Nat) : List (Lab Y.Req) :=
  [.call 0 R1, .lock 0, .effect 0 R1, .unlock 0, .ret 0 R1, .call 1 R2, .lock 1, .effect 1 R2, .unlock 1, .ret 1 R2,
   .report [ei], .push ei, .spawn 2 ei, .rlock 2, .pick 2 (.user k), .send 2 (.user k) ei]

theorem refused_run {F : Y.σ → Y.Req → Y.σ → Prop} {watches : Y.Req → Prop} (hC : 0 < cfg.capC) {R1 R2 : Y.Req}
    {f1 f2 : Y.σ} {ei : EventInfo} {k : Nat}
    (ok1 : Y.okReq R1) (u1 : Y.user R1) (ok2 : Y.okReq R2) (u2 : Y.user R2) (st1 : Y.step Y.init R1 f1)
    (st2 : Y.step f1 R2 f2) (hw : ¬ watches R1) (hF : F f1 R2 f2) (oke : Y.okEv ei) (hs : Key.user k ∈ Y.sends f2 ei) :
    ∃ s, WatchRun Y cfg F watches (refusedTrace R1 R2 ei k) s := by
  have hR : ∀ s : State Y, s.nR = 0 → ¬ s.Reading := fun s h => by rw [reading_iff]; omega
  have hH : ∀ s : State Y, s.nC = 0 → ¬ s.CallHolds := fun s h => by rw [callHolds_iff]; omega
  have hI : ∀ s : State Y, s.int = .idle → ¬ s.IntHolds := fun s h => by rintro ⟨ei, h' | h'⟩ <;> simp [h] at h'
  have hWt : ∀ s : State Y, s.calls = [] → s.int = .idle → ¬ s.WriterWaits := by
    rintro s h h2 (⟨i, r, h'⟩ | ⟨ei, h'⟩)
    · simp [h] at h'
    · simp [h2] at h'
  have w : WatchRun Y cfg F watches [] (State.init Y) := .nil
  replace w := w.snoc (Tr.call (s := State.init Y) R1 ok1 u1) nofun
  replace w := w.snoc (Tr.lock 0 R1 [] [] rfl (hR _ rfl) (hH _ rfl) (hI _ rfl)) nofun
  replace w := w.snoc (Tr.effect 0 R1 [] [] f1 rfl st1 (fun _ => rfl)) (by
    intro i r he hr; injection he with _ he; subst he; exact absurd hr hw)
  replace w := w.snoc (Tr.unlock 0 R1 [] [] rfl) nofun
  replace w := w.snoc (Tr.ret 0 R1 [] [] rfl) nofun
  replace w := w.snoc (Tr.call R2 ok2 u2) nofun
  replace w := w.snoc (Tr.lock 1 R2 [] [] rfl (hR _ rfl) (hH _ rfl) (hI _ rfl)) nofun
  replace w := w.snoc (Tr.effect 1 R2 [] [] f2 rfl st2 (fun _ => rfl)) (by
    intro i r he hr; injection he with _ he; subst he; exact hF)
  replace w := w.snoc (Tr.unlock 1 R2 [] [] rfl) nofun
  replace w := w.snoc (Tr.ret 1 R2 [] [] rfl) nofun
  replace w := w.snoc (Tr.report [ei] (by simpa using oke) rfl) nofun
  replace w := w.snoc (Tr.push ei [] rfl hC) nofun
  replace w := w.snoc (Tr.spawn ei [] rfl) nofun
  replace w := w.snoc (Tr.rlock 2 ei [] [] rfl (hH _ rfl) (hI _ rfl) (fun _ => hWt _ rfl rfl)) nofun
  replace w := w.snoc (Tr.pick 2 ei [] (.user k) [] [] rfl (by simpa using List.count_pos_iff.2 hs)) nofun
  replace w := w.snoc (Tr.send 2 ei [] (.user k) [] [] rfl) nofun
  exact ⟨_, w⟩

/-- **C118 is false of the code** for failed Watch calls (non-recursive tree): channel 1 was passed to one Watch
only, which returned an error because the OS refused it, and is sent an event of channel 2's watch later. -/
theorem C118_failed_refuted_nonrec : ¬ C118_failed_full (plainTree Platform.inotify) (FailsPlain Platform.inotify) Req.watches := by
  intro hf
  have st2 : NonRec.Step Platform.inotify false NonRec.Ex.f1 (.watch [NonRec.Ex.a] false 1 NonRec.Ex.CW false) NonRec.Ex.f2 :=
    NonRec.Step.watch (O := fun _ _ => false) NonRec.Ex.good_a NonRec.Ex.uCW NonRec.Ex.list_named (fun h => nomatch h)
  obtain ⟨s, hs⟩ := refused_run (Y := plainTree Platform.inotify) (F := FailsPlain Platform.inotify)
    (watches := Req.watches 1) (cfg := Ex.conf) (by decide) (k := 1)
    (R1 := .watch [NonRec.Ex.a] false 2 NonRec.Ex.W) (R2 := .watch [NonRec.Ex.a] false 1 NonRec.Ex.CW)
    (f1 := NonRec.Ex.f1) (f2 := NonRec.Ex.f2) (ei := { event := NonRec.Ex.W, path := [NonRec.Ex.a, NonRec.Ex.f] })
    ⟨NonRec.Ex.good_a, NonRec.Ex.uW⟩ trivial ⟨NonRec.Ex.good_a, NonRec.Ex.uCW⟩ trivial
    ⟨_, .inl rfl, true, NonRec.Step.watch (O := .ok) NonRec.Ex.good_a NonRec.Ex.uW NonRec.Ex.list_named (fun h => nomatch h)⟩
    ⟨_, .inl rfl, false, st2⟩ (show ¬ (2 : Nat) = 1 by decide) ⟨_, _, _, _, _, .inl rfl, rfl, st2⟩
    (by show NonRec.GoodPath _; simp [NonRec.GoodPath]) (by show _ ∈ NonRec.sends _ _ _; decide)
  exact hf Ex.conf 1 _ s hs 2 _ (by simp [refusedTrace]; rfl)

namespace ClosingEx
open Rec.Ex
/-- Channel 2 watches `/a` for Write, then channel 1 asks for Create and Write and the OS refuses. -/
def f1 : St := (Rec.watchOp F .ok Rec.init [a] false 2 W).1
def f2 : St := (Rec.watchOp F refuse f1 [a] false 1 CW).1
end ClosingEx

/-- **C118 is false of the code** for failed Watch calls (recursive tree). -/
theorem C118_failed_refuted_rec : ¬ C118_failed_full (recTree Platform.fsevents) (FailsRec Platform.fsevents) Req.watches := by
  intro hf
  have st2 : Rec.RStep Platform.fsevents false ClosingEx.f1 (.watch [Rec.Ex.a] false 1 Rec.Ex.CW false) ClosingEx.f2 :=
    Rec.RStep.watch (O := Rec.Ex.refuse) Rec.Ex.good_a Rec.Ex.uCW
  obtain ⟨s, hs⟩ := refused_run (Y := recTree Platform.fsevents) (F := FailsRec Platform.fsevents)
    (watches := Req.watches 1) (cfg := Ex.conf) (by decide) (k := 1)
    (R1 := .watch [Rec.Ex.a] false 2 Rec.Ex.W) (R2 := .watch [Rec.Ex.a] false 1 Rec.Ex.CW)
    (f1 := ClosingEx.f1) (f2 := ClosingEx.f2) (ei := { event := Rec.Ex.W, path := [Rec.Ex.a, Rec.Ex.f] })
    ⟨Rec.Ex.good_a, Rec.Ex.uW⟩ trivial ⟨Rec.Ex.good_a, Rec.Ex.uCW⟩ trivial
    ⟨_, .inl rfl, true, Rec.RStep.watch (O := .ok) Rec.Ex.good_a Rec.Ex.uW⟩
    ⟨_, .inl rfl, false, st2⟩ (show ¬ (2 : Nat) = 1 by decide) ⟨_, _, _, _, _, .inl rfl, rfl, st2⟩
    (by show NonRec.GoodPath _; simp [NonRec.GoodPath]) (by show _ ∈ Rec.sends _ _ _; decide)
  exact hf Ex.conf 1 _ s hs 2 _ (by simp [refusedTrace]; rfl)

/-! ### Non-trivial cases -/

/-- Channel 1 watches `/a/...`, event A is in flight when Stop(1) is called; after Stop(1) has returned the channel is
closed, and only then the goroutine of the event, which would have sent it to channel 1, runs. -/
def ClosingEx.program : List (Happens Req) :=
  (Ex.watchTrace ++ Ex.stopTrace ++ [Lab.ret 2 (Req.stop 1)]).map .inr ++ [.inl 1, .inr (.rlock 1)]

theorem ClosingEx.program_stops : ∀ c, ClosedAfterStop ClosingEx.program c := by
  intro c a b hab
  have hlen : a = (Ex.watchTrace ++ Ex.stopTrace ++ [Lab.ret 2 (Req.stop 1)]).map .inr ∧ c = 1 ∧ b = [.inr (.rlock 1)] := by
    have h1 : ∀ (x : List (Lab Req)) (a b : List (Happens Req)), x.map .inr ++ [.inl 1, .inr (.rlock 1)] = a ++ .inl c :: b →
        a = x.map .inr ∧ c = 1 ∧ b = [.inr (.rlock 1)] := by
      intro x
      induction x with
      | nil =>
        intro a b h
        rcases a with _ | ⟨y, a⟩
        · simp at h; exact ⟨rfl, h.1.symm, h.2.symm⟩
        · simp at h
          rcases a with _ | ⟨z, a⟩ <;> simp at h
      | cons y x ih =>
        intro a b h
        rcases a with _ | ⟨z, a⟩
        · simp at h
        · simp at h
          obtain ⟨rfl, h⟩ := h
          obtain ⟨rfl, h2⟩ := ih a b h
          exact ⟨rfl, h2⟩
    exact h1 _ a b hab
  obtain ⟨rfl, rfl, rfl⟩ := hlen
  refine ⟨Ex.watchTrace ++ [.report [Ex.evA], .push Ex.evA, .spawn 1 Ex.evA], [.lock 2, .effect 2 (.stop 1), .unlock 2], [], 2,
    ?_, ?_, ?_⟩
  · rfl
  · intro j p isrec e hm
    simp [Ex.watchTrace] at hm ⊢
    exact hm
  · intro j p isrec e hm
    simp [stepsOf] at hm

example : ∃ s, Exec Ex.T Ex.conf (stepsOf ClosingEx.program) s ∧ (∀ c, ClosedAfterStop ClosingEx.program c) ∧
    Key.user 1 ∈ Ex.T.sends NonRec.Ex.s1 Ex.evA := by
  refine ⟨⟨NonRec.stop NonRec.Ex.I .ok NonRec.Ex.s1 1, [], [], [], [(1, Ex.evA, .reading [] none)], [], .idle, 3⟩,
    ?_, ClosingEx.program_stops, by rw [Ex.sendsA]; simp⟩
  show Exec Ex.T Ex.conf (Ex.watchTrace ++ (Ex.stopTrace ++ [.ret 2 (.stop 1), .rlock 1])) _
  refine Ex.run1.trans ?_
  refine Run.cons (Tr.report (Y := Ex.T) [Ex.evA] (by simpa using Ex.okA) rfl) ?_
  refine Run.cons (Tr.push (Y := Ex.T) Ex.evA [] rfl (show (0 : Nat) < 128 by decide)) ?_
  refine Run.cons (Tr.spawn (Y := Ex.T) Ex.evA [] rfl) ?_
  refine Run.cons (Tr.call (Y := Ex.T) (s := { Ex.w1 with disp := [(1, Ex.evA, .start)], next := 2 }) (Req.stop 1) trivial trivial) ?_
  refine Run.cons (Tr.lock (Y := Ex.T) 2 (.stop 1) [] [] rfl (Ex.noRead _ rfl) (Ex.noHold _ rfl) (Ex.noInt _ rfl)) ?_
  refine Run.cons (Tr.effect (Y := Ex.T) 2 (.stop 1) [] [] (NonRec.stop NonRec.Ex.I .ok NonRec.Ex.s1 1) rfl
      ⟨_, .inl rfl, NonRec.Step.stop (fun h => nomatch h)⟩ (fun _ => rfl)) ?_
  refine Run.cons (Tr.unlock (Y := Ex.T) 2 (.stop 1) [] [] rfl) ?_
  refine Run.cons (Tr.ret (Y := Ex.T) 2 (.stop 1) [] [] rfl) ?_
  exact Run.cons (Tr.rlock (Y := Ex.T) 1 Ex.evA [] [] rfl (Ex.noCalls _ rfl) (Ex.noInt _ rfl) (fun _ => Ex.noWait _ rfl rfl)) .nil

/-- The condition matters: closing the channel without a Stop makes the package send on a closed channel. -/
example : ∃ tr s, Exec Ex.T Ex.conf (stepsOf tr) s ∧ SendsOnClosed tr := by
  refine ⟨Ex.watchTrace.map .inr ++ .inl 1 :: Ex.badTrace.map .inr, Ex.w2, ?_, _, _, 1, 2, Ex.evB, rfl, by simp [Ex.badTrace]⟩
  have : stepsOf (Ex.watchTrace.map .inr ++ .inl 1 :: Ex.badTrace.map .inr) = Ex.watchTrace ++ Ex.badTrace := rfl
  rw [this]
  exact Ex.run1.trans Ex.run2

/-- Channel 2 watches `/a`, the recursive Watch of channel 1 there fails because the directory cannot be read, and an
event is sent to channel 2. -/
example : ∃ ei t s, WatchRun (plainTree Platform.inotify) Ex.conf
    (fun s r s' => FailsPlain Platform.inotify s r s' ∧ ∃ p e, r = .watch p true 1 e) (Req.watches 1) t s ∧
    .ret 1 (.watch [NonRec.Ex.a] true 1 NonRec.Ex.W) ∈ t ∧ .send 2 (.user 2) ei ∈ t := by
  have st2 : NonRec.Step Platform.inotify false NonRec.Ex.f1 (.watch [NonRec.Ex.a] true 1 NonRec.Ex.W false)
      (NonRec.watchOp Platform.inotify .ok .err NonRec.Ex.f1 [NonRec.Ex.a] true 1 NonRec.Ex.W).1 :=
    NonRec.Step.watch (O := .ok) (dt := .err) NonRec.Ex.good_a NonRec.Ex.uW trivial (fun h => nomatch h)
  obtain ⟨s, hs⟩ := refused_run (Y := plainTree Platform.inotify)
    (F := fun s r s' => FailsPlain Platform.inotify s r s' ∧ ∃ p e, r = .watch p true 1 e)
    (watches := Req.watches 1) (cfg := Ex.conf) (by decide) (k := 2)
    (R1 := .watch [NonRec.Ex.a] false 2 NonRec.Ex.W) (R2 := .watch [NonRec.Ex.a] true 1 NonRec.Ex.W)
    (f1 := NonRec.Ex.f1) (ei := { event := NonRec.Ex.W, path := [NonRec.Ex.a, NonRec.Ex.f] })
    ⟨NonRec.Ex.good_a, NonRec.Ex.uW⟩ trivial ⟨NonRec.Ex.good_a, NonRec.Ex.uW⟩ trivial
    ⟨_, .inl rfl, true, NonRec.Step.watch (O := .ok) NonRec.Ex.good_a NonRec.Ex.uW NonRec.Ex.list_named (fun h => nomatch h)⟩
    ⟨_, .inl rfl, false, st2⟩ (show ¬ (2 : Nat) = 1 by decide) ⟨⟨_, _, _, _, _, .inl rfl, rfl, st2⟩, _, _, rfl⟩
    (by show NonRec.GoodPath _; simp [NonRec.GoodPath]) (by show _ ∈ NonRec.sends _ _ _; decide)
  exact ⟨_, _, s, hs, by simp [refusedTrace], by simp [refusedTrace]; rfl⟩

end Sched
end Verif
