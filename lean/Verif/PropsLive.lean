/-
The whole program does not hang (C110): macOS.
-/
import Verif.PropsMac
import Verif.PropsPanic
import Mathlib.Logic.Relation

namespace Verif

/-! ### Steps of goroutines of the tree -/

namespace Sched
variable {Y : Sys} {cfg : Cfg}

/-- Steps inside of the program that do not touch the watcher. -/
def Lab.inner {R : Type} : Lab R → Prop
  | .report _ | .call _ _ | .push _ | .effect _ _ | .intEffect _ => False
  | _ => True

/-- In every state that is not idle a goroutine can take a step that does not touch the watcher, or one is about to change the tree. -/
theorem progress_inner (hC : 0 < cfg.capC) (hR : 0 < cfg.capR) {s : State Y} (hos : s.os = []) (hne : ¬ s.Idle) :
    (∃ l s', Tr Y cfg s l s' ∧ l.inner) ∨ (∃ i r, (i, r, Call.locked) ∈ s.calls) ∨ ∃ ei, s.int = .locked ei := by
  cases hcq : s.cq with
  | cons ei q => exact .inl ⟨_, _, .spawn ei q hcq, trivial⟩
  | nil =>
  by_cases hrd : s.Reading
  · obtain ⟨i, ei, d, ab, hm⟩ := hrd
    obtain ⟨a, b, hab⟩ := List.append_of_mem hm
    cases ab with
    | some k => exact .inl ⟨_, _, .send i ei d k a b hab, trivial⟩
    | none =>
      by_cases hk : ∀ k, (Y.sends s.tree ei).count k ≤ d.count k
      · cases hh : Y.hand s.tree ei with
        | true => exact .inl ⟨_, _, .runlock i ei d a b hab hk hh, trivial⟩
        | false => exact .inl ⟨_, _, .fin i ei d a b hab hk hh, trivial⟩
      · obtain ⟨k, hk⟩ := not_forall.1 hk
        exact .inl ⟨_, _, .pick i ei d k a b hab (by omega), trivial⟩
  by_cases hcl : s.CallHolds
  · obtain ⟨i, r, hm | hm⟩ := hcl
    · exact .inr (.inl ⟨i, r, hm⟩)
    · obtain ⟨a, b, hab⟩ := List.append_of_mem hm
      exact .inl ⟨_, _, .unlock i r a b hab, trivial⟩
  by_cases hin : s.IntHolds
  · obtain ⟨ei, hm | hm⟩ := hin
    · exact .inr (.inr ⟨ei, hm⟩)
    · exact .inl ⟨_, _, .intUnlock ei hm, trivial⟩
  by_cases hww : s.WriterWaits
  · rcases hww with ⟨i, r, hm⟩ | ⟨ei, hm⟩
    · obtain ⟨a, b, hab⟩ := List.append_of_mem hm
      exact .inl ⟨_, _, .lock i r a b hab hrd hcl hin, trivial⟩
    · exact .inl ⟨_, _, .intLock ei hm hrd hcl, trivial⟩
  have hidle : s.int = .idle := by
    cases hi : s.int with
    | idle => rfl
    | waiting ei => exact absurd (.inr ⟨ei, hi⟩) hww
    | locked ei => exact absurd ⟨ei, .inl hi⟩ hin
    | applied ei => exact absurd ⟨ei, .inr hi⟩ hin
  cases hrq : s.rq with
  | cons ei q => exact .inl ⟨_, _, .intRecv ei q hrq hidle, trivial⟩
  | nil =>
  cases hd : s.disp with
  | cons x xs =>
    obtain ⟨i, ei, d⟩ := x
    cases d with
    | start => exact .inl ⟨_, _, .rlock i ei [] xs hd hcl hin (fun _ => hww), trivial⟩
    | reading d ab => exact absurd ⟨i, ei, d, ab, by rw [hd]; simp⟩ hrd
    | handing => exact .inl ⟨_, _, .handed i ei [] xs hd (by rw [hrq]; exact hR), trivial⟩
  | nil =>
  cases hc : s.calls with
  | cons x xs =>
    obtain ⟨i, r, c⟩ := x
    cases c with
    | waiting => exact absurd (.inl ⟨i, r, by rw [hc]; simp⟩) hww
    | locked => exact absurd ⟨i, r, .inl (by rw [hc]; simp)⟩ hcl
    | applied => exact absurd ⟨i, r, .inr (by rw [hc]; simp)⟩ hcl
    | unlocked => exact .inl ⟨_, _, .ret i r [] xs hc, trivial⟩
  | nil => exact absurd ⟨hos, hcq, hrq, hd, hc, hidle⟩ hne

theorem Lab.inner.env {R : Type} {l : Lab R} (h : l.inner) : ¬ l.env := by cases l <;> first | exact id | exact h.elim

/-- Such a step does not make a call. -/
theorem Tr.calls_le {s s' : State Y} {l : Lab Y.Req} (h : Tr Y cfg s l s') (hl : ¬ l.env) : s'.calls.length ≤ s.calls.length := by
  cases h with
  | report | call => exact absurd trivial hl
  | lock i r a b h | effect i r a b t h | unlock i r a b h => simp [h]
  | ret i r a b h => simp [h]
  | _ => exact Nat.le_refl _

theorem Tr.calls_env {s s' : State Y} {l : Lab Y.Req} (h : Tr Y cfg s l s') (hle : s'.calls.length ≤ s.calls.length) (hr : ∀ evs, l ≠ .report evs) :
    ¬ l.env := by
  cases h with
  | report evs => exact absurd rfl (hr evs)
  | call r => simp at hle; omega
  | _ => exact id

/-- Who has the lock keeps it. -/
theorem Tr.keeps_locked {s s' : State Y} {l : Lab Y.Req} (h : Tr Y cfg s l s') (hl : ∀ i r, l ≠ .effect i r) {i : Nat} {r : Y.Req}
    (hm : (i, r, Call.locked) ∈ s.calls) : (i, r, Call.locked) ∈ s'.calls := by
  cases h with
  | call r hok hu => exact List.mem_cons_of_mem _ hm
  | effect i r => exact absurd rfl (hl i r)
  | lock j q a b h | unlock j q a b h | ret j q a b h =>
    simp only [h, List.mem_append, List.mem_cons] at hm ⊢
    rcases hm with hm | hm | hm
    · exact .inl hm
    · cases hm
    · simp [hm]
  | _ => exact hm

/-- Requests of calls stay as they are. -/
theorem Tr.calls_sub {s s' : State Y} {l : Lab Y.Req} (h : Tr Y cfg s l s') (hl : ∀ i r, l ≠ .call i r) :
    ∀ x ∈ s'.calls, ∃ y ∈ s.calls, y.1 = x.1 ∧ y.2.1 = x.2.1 := by
  have rep : ∀ {i r} {u v : Call} {a b : List (Nat × Y.Req × Call)}, s.calls = a ++ (i, r, u) :: b →
      ∀ x ∈ a ++ (i, r, v) :: b, ∃ y ∈ s.calls, y.1 = x.1 ∧ y.2.1 = x.2.1 := by
    intro i r u v a b he x hx
    simp only [List.mem_append, List.mem_cons] at hx
    rcases hx with hx | rfl | hx
    · exact ⟨x, by rw [he]; simp [hx], rfl, rfl⟩
    · exact ⟨(i, r, u), by rw [he]; simp, rfl, rfl⟩
    · exact ⟨x, by rw [he]; simp [hx], rfl, rfl⟩
  cases h with
  | call r => exact absurd rfl (hl _ _)
  | lock i r a b h | effect i r a b t h | unlock i r a b h => exact rep h
  | ret i r a b h =>
    intro x hx
    exact ⟨x, by rw [h]; simp only [List.mem_append, List.mem_cons] at hx ⊢; tauto, rfl, rfl⟩
  | _ => exact fun x hx => ⟨x, hx, rfl, rfl⟩

theorem Tr.user {s s' : State Y} {l : Lab Y.Req} (h : Tr Y cfg s l s') (hu : ∀ x ∈ s.calls, Y.user x.2.1) : ∀ x ∈ s'.calls, Y.user x.2.1 := by
  by_cases hl : ∃ i r, l = .call i r
  · obtain ⟨i, r, rfl⟩ := hl
    cases h with
    | call r hok hr =>
      intro x hx
      rcases List.mem_cons.1 hx with rfl | hx
      · exact hr
      · exact hu x hx
  · intro x hx
    obtain ⟨y, hy, _, h2⟩ := h.calls_sub (fun i r he => hl ⟨i, r, he⟩) x hx
    exact h2 ▸ hu y hy

theorem Tr.keeps_int {s s' : State Y} {l : Lab Y.Req} (h : Tr Y cfg s l s') (hl : ∀ r, l ≠ .intEffect r) {ei : EventInfo}
    (hm : s.int = .locked ei) : s'.int = .locked ei := by
  cases h with
  | intEffect ei => exact absurd rfl (hl _)
  | intRecv ei q h hi => rw [hm] at hi; cases hi
  | intLock ei hi => rw [hm] at hi; cases hi
  | intUnlock ei hi => rw [hm] at hi; cases hi
  | _ => exact hm

end Sched

/-- The lexicographic order. -/
def Lex4 (a b : Nat × Nat × Nat × Nat) : Prop :=
  a.1 < b.1 ∨ (a.1 = b.1 ∧ (a.2.1 < b.2.1 ∨ (a.2.1 = b.2.1 ∧ (a.2.2.1 < b.2.2.1 ∨ (a.2.2.1 = b.2.2.1 ∧ a.2.2.2 < b.2.2.2)))))

theorem lex4_wf : WellFounded Lex4 := by
  refine Subrelation.wf (r := Prod.Lex (· < ·) (Prod.Lex (· < ·) (Prod.Lex (· < ·) (· < ·)))) ?_
    (Prod.lex Nat.lt_wfRel (Prod.lex Nat.lt_wfRel (Prod.lex Nat.lt_wfRel Nat.lt_wfRel))).wf
  rintro ⟨a, b, c, d⟩ ⟨a', b', c', d'⟩ h
  simp only [Lex4] at h
  rcases h with h | ⟨rfl, h | ⟨rfl, h | ⟨rfl, h⟩⟩⟩
  · exact .left _ _ h
  · exact .right _ (.left _ _ h)
  · exact .right _ (.right _ (.left _ _ h))
  · exact .right _ (.right _ (.right _ h))

/-- A function to a well-founded order cannot fall for ever. -/
theorem no_descent {α : Type} {r : α → α → Prop} (hr : WellFounded r) (f : Nat → α) (h : ∀ n, r (f (n + 1)) (f n)) : False := by
  have key : ∀ x, ∀ n, f n = x → False := by
    intro x
    induction x using hr.induction with
    | _ x ih => intro n hn; exact ih (f (n + 1)) (hn ▸ h n) (n + 1) rfl
  exact key _ 0 rfl

/-! ### The outcomes that an oracle gives -/

/-- The log grew by calls that the oracle answered. -/
inductive Told (O : Oracle) (a : Log) : Log → Prop
  | refl : Told O a a
  | cons {b c} : Told O a b → Told O a ((c, O b c) :: b)

theorem Told.trans {O : Oracle} {a b c : Log} (h : Told O a b) (h' : Told O b c) : Told O a c := by
  induction h' with
  | refl => exact h
  | cons _ ih => exact ih.cons

theorem Told.suffix {O : Oracle} {a b : Log} (h : Told O a b) : ∃ new, b = new ++ a := by
  induction h with
  | refl => exact ⟨[], rfl⟩
  | cons _ ih => obtain ⟨n, rfl⟩ := ih; exact ⟨_ :: n, rfl⟩

theorem Told.exec (O : Oracle) (s : World) (c : Call) : Told O s.log (s.exec O c).1.log := Told.refl.cons

namespace Rec

theorem watchUnder_told (P : Platform) (O : Oracle) (s : St) (q p : Path) (isrec : Bool) (c : Nat) (e : Event) :
    Told O s.world.log (watchUnder P O s q p isrec c e).1.world.log := by
  unfold watchUnder
  dsimp only
  repeat' split
  all_goals first | exact .refl | exact Told.exec _ _ _

theorem unwatchAll_told (P : Platform) (O : Oracle) (root : Node) (p : Path) : (rs : List Path) → (w : World) →
    Told O w.log (unwatchAll P O root p rs w).1.log
  | [], w => .refl
  | r :: rs, w => by
    unfold unwatchAll
    exact (Told.exec O w _).trans (unwatchAll_told P O root p rs _)

theorem copyAll_told (P : Platform) (O : Oracle) (p : Path) : (rs : List Path) → (s : St) → Told O s.world.log (copyAll P p rs s).world.log
  | [], s => .refl
  | r :: rs, s => by
    unfold copyAll
    refine Told.trans ?_ (copyAll_told P O p rs _)
    dsimp only
    split <;> exact .refl

theorem watchTop_told (P : Platform) (O : Oracle) (s : St) (p : Path) (isrec : Bool) (c : Nat) (e : Event) :
    Told O s.world.log (watchTop P O s p isrec c e).1.world.log := by
  unfold watchTop
  split
  · dsimp only
    repeat' split
    all_goals first | exact .refl | exact Told.exec _ _ _
  · dsimp only
    split <;> exact (copyAll_told P O p _ { s with root := addAt P s.root p c e }).trans (Told.exec _ _ _)
  · dsimp only
    split
    · exact ((copyAll_told P O p _ { s with root := addAt P s.root p c e }).trans (Told.exec _ _ _)).trans (unwatchAll_told ..)
    · exact (copyAll_told P O p _ { s with root := addAt P s.root p c e }).trans (Told.exec _ _ _)

theorem watchOp_told (P : Platform) (O : Oracle) (s : St) (p : Path) (isrec : Bool) (c : Nat) (e : Event) :
    Told O s.world.log (watchOp P O s p isrec c e).1.world.log := by
  unfold watchOp
  dsimp only
  split
  · exact watchUnder_told P O { s with root := s.root.add p } ..
  · exact watchTop_told P O { s with root := s.root.add p } ..

mutual
theorem stopWalk_told (P : Platform) (O : Oracle) (c : Nat) : (nd : Node) → (s : World) → Told O s.log (nd.stopWalk P O c s).1.log
  | .mk n w ch, s => by
    simp only [Node.stopWalk]
    split
    · exact stopForest_told P O c ch s
    · dsimp only
      split
      · exact .refl
      · exact Told.exec _ _ _
theorem stopForest_told (P : Platform) (O : Oracle) (c : Nat) : (f : Forest) → (s : World) → Told O s.log (f.stopWalk P O c s).1.log
  | .nil, s => .refl
  | .cons b nd rest, s => by
    simp only [Forest.stopWalk]
    split
    · exact stopForest_told P O c rest s
    · exact (stopWalk_told P O c nd s).trans (stopForest_told P O c rest _)
end

theorem stop_told (P : Platform) (O : Oracle) (s : St) (c : Nat) : Told O s.world.log (stop P O s c).world.log := stopWalk_told P O c s.root s.world

end Rec

/-! ### The recursive tree has no internal goroutine -/

/-- Nothing is passed to an internal goroutine. -/
def NoHand {P : Platform} (s : Sched.State (Sched.recTree P)) : Prop := s.rq = [] ∧ s.int = .idle ∧ ∀ x ∈ s.disp, ∀ i ei, x ≠ (i, ei, .handing)

theorem NoHand.tr {P : Platform} {cfg : Sched.Cfg} {s s' : Sched.State (Sched.recTree P)} {l : Sched.Lab (Sched.recTree P).Req} (h : NoHand s)
    (ht : Sched.Tr (Sched.recTree P) cfg s l s') : NoHand s' := by
  obtain ⟨h1, h2, h3⟩ := h
  have sub : ∀ {a b : List (Nat × EventInfo × Sched.Disp)} {x y}, s.disp = a ++ x :: b → (∀ i ei, y ≠ (i, ei, Sched.Disp.handing)) →
      ∀ z ∈ a ++ y :: b, ∀ i ei, z ≠ (i, ei, .handing) := by
    intro a b x y he hy z hz
    simp only [List.mem_append, List.mem_cons] at hz
    rcases hz with hz | rfl | hz
    · exact h3 z (by rw [he]; simp [hz])
    · exact hy
    · exact h3 z (by rw [he]; simp [hz])
  cases ht with
  | spawn ei q h =>
    refine ⟨h1, h2, fun x hx => ?_⟩
    rcases List.mem_cons.1 hx with rfl | hx
    · intro i ei h; cases h
    · exact h3 x hx
  | rlock i ei a b h | pick i ei d k a b h | send i ei d k a b h => exact ⟨h1, h2, sub h (by intro i ei h; cases h)⟩
  | runlock i ei d a b h hk hh => cases hh
  | fin i ei d a b h => exact ⟨h1, h2, fun z hz => h3 z (by rw [h]; simp only [List.mem_append, List.mem_cons] at hz ⊢; tauto)⟩
  | handed i ei a b h => exact absurd rfl (h3 (i, ei, .handing) (by rw [h]; simp) i ei)
  | intRecv ei q h => rw [h1] at h; cases h
  | intLock ei h | intEffect ei t h | intUnlock ei h => rw [h2] at h; cases h
  | _ => exact ⟨h1, h2, h3⟩

/-! ### macOS -/

namespace Mac
open Linux (Free sigs)
open Rec (ROp)

abbrev L : Sched.Laws Y := Sched.recLaws I factsI

/-- Nothing is going on in the program. -/
def MSt.Rest (s : MSt) : Prop := s.sys.Idle ∧ s.cb = none ∧ s.plan = none ∧ s.todo = [] ∧ s.caller = .idle

/-- A step inside of the program: FSEvents reports nothing and no user calls.  Calls of the watcher may fail. -/
def Inner (cfg : Sched.Cfg) (s s' : MSt) : Prop := ∃ o g, MStep cfg false s o [] g s' ∧ s'.sys.calls.length ≤ s.sys.calls.length

/-- The invariant. -/
structure Live (s : MSt) : Prop where
  inv : Sched.Inv L s.sys
  os : s.sys.os = []
  hand : NoHand s.sys
  user : ∀ x ∈ s.sys.calls, Y.user x.2.1
  pan : s.sys.tree.world.panicked = false
  plan : ∀ r t, s.plan = some (r, t) → Y.step s.sys.tree r t ∧ t.world.panicked = false ∧ ∃ i, (i, r, .locked) ∈ s.sys.calls
  rest : s.plan = none → s.todo = [] ∧ s.caller = .idle
  moving : ∀ p e ok, s.caller = .moving p e ok → s.str.table.get? p = none
  cb : ∀ b, s.cb = some b → (∀ r ∈ b.evs, r.Ok) ∧ ∀ o ∈ b.out, NonRec.GoodPath o.path

theorem Live.init : Live MSt.init where
  inv := .init L
  os := rfl
  hand := ⟨rfl, rfl, by intro x hx; cases hx⟩
  user := by intro x h; cases h
  pan := rfl
  plan := by intro r t h; cases h
  rest := fun _ => ⟨rfl, rfl⟩
  moving := by intro p e ok h; cases h
  cb := by intro b h; cases h

theorem free_effect {R : Sched.Req} {i : Nat} {l : Sched.Lab Sched.Req} (h : Free l) : l ≠ .effect i R := by rintro rfl; exact h

theorem take_table (s : Streams.S) (k : Nat) : (Streams.take s k).table = s.table := by unfold Streams.take; split <;> rfl

theorem Live.step {cfg : Sched.Cfg} {rel : Bool} {s s' : MSt} {o : List ROp} {reps : List (Nat × List Rep)} {g : List (Key × EventInfo)} (h : Live s)
    (hs : MStep cfg rel s o reps g s') : Live s' := by
  obtain ⟨h1, h2, h3, hu, hpan, h4, h5, h6, h7⟩ := h
  -- steps of calls of the watcher
  have busy : ∀ {x}, s.todo = x → x ≠ [] → s.plan ≠ none := fun hx hne hp => hne (hx ▸ (h5 hp).1)
  have mid : ∀ {c}, s.caller = c → c ≠ .idle → s.plan ≠ none := fun hc hne hp => hne (hc ▸ (h5 hp).2)
  cases hs with
  | go l sys' htr hfree =>
    refine ⟨h1.tr htr, (free_os htr hfree).trans h2, h3.tr htr, htr.user hu, (free_tree htr hfree) ▸ hpan, ?_, h5, h6, h7⟩
    intro r t hp
    obtain ⟨g1, g3, i, g2⟩ := h4 r t hp
    refine ⟨?_, g3, i, htr.keeps_locked (fun i r => free_effect hfree) g2⟩
    simp only [free_tree htr hfree]; exact g1
  | report k w p batch hk hb hcb =>
    refine ⟨h1, h2, h3, hu, hpan, h4, h5, ?_, ?_⟩
    · simp only [take_table]; exact h6
    · intro b hb'
      have hb' : enter _ k batch = some b := hb'
      unfold enter at hb'
      rcases hm : Streams.S.m _ |>.get? k with _ | w'
      · rw [hm] at hb'; cases hb'
      · rw [hm] at hb'
        cases hb'
        refine ⟨?_, by intro o ho; cases ho⟩
        intro r hr
        simp only [List.mem_filter] at hr
        exact hb r hr.1
  | loadEvents b hcb hb => exact ⟨h1, h2, h3, hu, hpan, h4, h5, h6, by rintro _ ⟨⟩; exact h7 b hcb⟩
  | loadRec b e hcb he hb => exact ⟨h1, h2, h3, hu, hpan, h4, h5, h6, by rintro _ ⟨⟩; exact h7 b hcb⟩
  | next b e f r l' hcb he hf hl ho =>
    refine ⟨h1, h2, h3, hu, hpan, h4, h5, h6, ?_⟩
    rintro _ ⟨⟩
    obtain ⟨g2, g3⟩ := h7 b hcb
    refine ⟨fun y hy => g2 y (by rw [hl]; simp [hy]), ?_⟩
    intro o ho'
    by_cases hd : r.flags &&& Fsevents.historyDone ≠ 0
    · rw [(handle_done hd).1] at ho'; cases ho'
    · rw [handle_path _ _ _ _ _ ho']
      exact ((g2 r (by rw [hl]; simp)).resolve_left hd).1
  | send b o l' hcb ho hc =>
    obtain ⟨g2, g3⟩ := h7 b hcb
    have hok := g3 o (by rw [ho]; simp)
    have htr : Sched.Tr Y cfg { s.sys with os := [o] } (.push o) { s.sys with os := [], cq := s.sys.cq ++ [o] } := .push o [] rfl hc
    have hr : Sched.Tr Y cfg s.sys (.report [o]) { s.sys with os := [o] } := .report [o] (by simpa using hok) h2
    have he : ({ s.sys with os := [], cq := s.sys.cq ++ [o] } : Sched.State Y) = { s.sys with cq := s.sys.cq ++ [o] } := by rw [← h2]
    refine ⟨he ▸ (h1.tr hr).tr htr, h2, h3, hu, hpan, h4, h5, h6, ?_⟩
    rintro _ ⟨⟩
    exact ⟨g2, fun y hy => g3 y (by rw [ho]; simp [hy])⟩
  | done b e f hcb he hf hl ho => exact ⟨h1, h2, h3, hu, hpan, h4, h5, h6, by intro b' hb'; cases hb'⟩
  | plan r ops' t' new i hr hp ht hn =>
    refine ⟨h1, h2, h3, hu, hpan, ?_, (fun h => nomatch h), h6, h7⟩
    rintro r t ⟨⟩; exact ⟨ht.step, ht.2.1, i, hr⟩
  | watch c p e f x rest ho hc ht =>
    refine ⟨h1, h2, h3, hu, hpan, h4, fun hp => absurd hp (busy ht (by simp)), ?_, h7⟩
    intro p e ok h; rw [hc] at h; cases h
  | arrive p e x hc =>
    refine ⟨h1, h2, h3, hu, hpan, h4, fun hp => absurd hp (mid hc (by simp)), ?_, h7⟩
    intro p e ok h; cases h
  | unwatch c p rest ho hc ht =>
    refine ⟨h1, h2, h3, hu, hpan, h4, fun hp => absurd hp (busy ht (by simp)), ?_, h7⟩
    intro p e ok h; rw [hc] at h; cases h
  | leave p p' old new ok rest hp hc ht hn hu' =>
    refine ⟨h1, h2, h3, hu, hpan, h4, fun hp => absurd hp (busy ht (by simp)), ?_, h7⟩
    rintro q e ok ⟨⟩
    change (Streams.unwatch s.str p).1.table.get? p' = none
    unfold Streams.unwatch
    split
    · exact hn
    · simp only [GoMap.get?_del]; split
      · rfl
      · exact hn
  | swap c p old new f w k rest ho hc ht hw he =>
    exact ⟨h1, h2, h3, hu, hpan, h4, fun hp => absurd hp (busy ht (by simp)), (fun p e ok h => nomatch h), h7⟩
  | store w f hc => exact ⟨h1, h2, h3, hu, hpan, h4, fun hp => absurd hp (mid hc (by simp)), (fun p e ok h => nomatch h), h7⟩
  | mark p e w k rest hc ht hw =>
    refine ⟨h1, h2, h3, hu, hpan, h4, fun hp => absurd hp (busy ht (by simp)), ?_, h7⟩
    intro p e ok h; rw [hc] at h; cases h
  | refuse c rest ht hc hf =>
    refine ⟨h1, h2, h3, hu, hpan, h4, fun hp => absurd hp (busy ht (by simp)), ?_, h7⟩
    intro p e ok h; rw [hc] at h; cases h
  | effect i r a b t' hcalls hp ht hc =>
    have htr : Sched.Tr Y cfg s.sys (.effect i r) _ := .effect i r a b t' hcalls (h4 _ _ hp).1 fun _ => h2
    refine ⟨h1.tr htr, h2, h3.tr htr, htr.user hu, (h4 _ _ hp).2.1, (fun r t h => nomatch h), fun _ => ⟨ht, hc⟩, h6, h7⟩

theorem MRun.live {cfg : Sched.Cfg} {safe : Bool} {pre ops : List ROp} {reps : List (Nat × List Rep)} {sg : List (Key × EventInfo)} {s s' : MSt}
    (h0 : Live s) (h : MRun cfg safe pre s ops reps sg s') : Live s' := by
  induction h with
  | refl => exact h0
  | step _ hs _ ih => exact ih.step hs

/-! #### The answers of the watcher -/

/-- The watcher and its watches. -/
abbrev Sim := Streams.S × (Nat → Fsevents.Watch)

def swapped (x : Sim) (w : Nat) (e : Event) (f : Bool) : Sim :=
  let h := put x.2 w { x.2 w with events := e }
  (x.1, put h w { h w with isrec := f })

def opened (x : Sim) (p : Path) (e : Event) (f : Bool) : Bool × Sim :=
  ((Streams.watch x.1 p .ok).2, (Streams.watch x.1 p .ok).1, put x.2 x.1.n { path := PathStr.str p, events := e, isrec := f })

/-- What the watcher answers if nothing fails in the OS, and the watcher afterwards. -/
def ans (x : Sim) : Call → Bool × Sim
  | .watch p e => opened x p e false
  | .recWatch p e => opened x p e true
  | .unwatch p | .recUnwatch p => ((Streams.unwatch x.1 p).2, (Streams.unwatch x.1 p).1, x.2)
  | .rewatch p old new =>
    match x.1.table.get? p with
    | none => (false, x)
    | some (w, _) => if (x.2 w).events = old then (true, swapped x w new false) else (false, x)
  | .recRewatch p p' old new =>
    if p = p' then
      match x.1.table.get? p with
      | none => (false, x)
      | some (w, _) =>
        if old = new then (true, x.1, put x.2 w { x.2 w with isrec := true })
        else if (x.2 w).events = old then (true, swapped x w new true) else (false, x)
    else if x.1.table.get? p' = none ∧ (Streams.unwatch x.1 p).2 = true then
      (true, (opened ((Streams.unwatch x.1 p).1, x.2) p' new true).2)
    else (false, x)

theorem Inner.of {cfg : Sched.Cfg} {s s' : MSt} {o : List ROp} {g : List (Key × EventInfo)} (h : MStep cfg false s o [] g s') (hs : s'.sys = s.sys) : Inner cfg s s' :=
  ⟨o, g, h, by rw [hs]; exact Nat.le_refl _⟩

/-- The rest of the state. -/
def Same (s s' : MSt) : Prop := s'.sys = s.sys ∧ s'.plan = s.plan ∧ s'.cb = s.cb

/-- The watcher can give this answer. -/
theorem serve {cfg : Sched.Cfg} {s : MSt} {c : Call} {rest : List (Call × Bool)} (hi : s.caller = .idle)
    (ht : s.todo = (c, (ans (s.str, s.heap) c).1) :: rest) :
    ∃ s₁ s', Inner cfg s s₁ ∧ Relation.ReflTransGen (Inner cfg) s₁ s' ∧ Same s s' ∧ s'.caller = .idle ∧ s'.todo = rest ∧
      (s'.str, s'.heap) = (ans (s.str, s.heap) c).2 := by
  have one : ∀ {s' : MSt}, MStep cfg false s [] [] [] s' → Same s s' → s'.caller = .idle → s'.todo = rest → (s'.str, s'.heap) = (ans (s.str, s.heap) c).2 →
      ∃ s₁ s', Inner cfg s s₁ ∧ Relation.ReflTransGen (Inner cfg) s₁ s' ∧ Same s s' ∧ s'.caller = .idle ∧ s'.todo = rest ∧
        (s'.str, s'.heap) = (ans (s.str, s.heap) c).2 :=
    fun {s'} h1 h2 h3 h4 h5 => ⟨s', s', .of h1 h2.1, .refl, h2, h3, h4, h5⟩
  have no : (ans (s.str, s.heap) c) = (false, s.str, s.heap) → _ → _ := fun h hf =>
    one (.refuse c rest (by rw [ht, h]) hi hf) ⟨rfl, rfl, rfl⟩ hi rfl (by rw [h])
  have swap : ∀ {p old new f w k}, Swaps c p old new f → s.str.table.get? p = some (w, k) → (s.heap w).events = old →
      ans (s.str, s.heap) c = (true, swapped (s.str, s.heap) w new f) →
      ∃ s₁ s', Inner cfg s s₁ ∧ Relation.ReflTransGen (Inner cfg) s₁ s' ∧ Same s s' ∧ s'.caller = .idle ∧ s'.todo = rest ∧
        (s'.str, s'.heap) = (ans (s.str, s.heap) c).2 := by
    intro p old new f w k hsw hw he ha
    have h1 : MStep cfg false s [] [] [] _ := .swap c p old new f w k rest hsw hi (by rw [ht, ha]) hw he
    refine ⟨_, _, .of h1 rfl, .single (.of (.store w f rfl) rfl), ⟨rfl, rfl, rfl⟩, rfl, rfl, ?_⟩
    rw [ha]; rfl
  cases c with
  | watch p e => exact one (.watch _ p e false .ok rest (.inl ⟨rfl, rfl⟩) hi ht) ⟨rfl, rfl, rfl⟩ hi rfl rfl
  | recWatch p e => exact one (.watch _ p e true .ok rest (.inr ⟨rfl, rfl⟩) hi ht) ⟨rfl, rfl, rfl⟩ hi rfl rfl
  | unwatch p => exact one (.unwatch _ p rest (.inl rfl) hi ht) ⟨rfl, rfl, rfl⟩ hi rfl rfl
  | recUnwatch p => exact one (.unwatch _ p rest (.inr rfl) hi ht) ⟨rfl, rfl, rfl⟩ hi rfl rfl
  | rewatch p old new =>
    rcases hg : s.str.table.get? p with _ | ⟨w, k⟩
    · refine no (by simp [ans, hg]) (.inl ⟨p, old, new, false, .inl ⟨rfl, rfl⟩, ?_⟩)
      intro w k h; rw [hg] at h; cases h
    · by_cases he : (s.heap w).events = old
      · exact swap (.inl ⟨rfl, rfl⟩) hg he (by simp [ans, hg, he])
      · refine no (by simp [ans, hg, he]) (.inl ⟨p, old, new, false, .inl ⟨rfl, rfl⟩, ?_⟩)
        intro w' k' h; rw [hg] at h; cases h; exact he
  | recRewatch p p' old new =>
    by_cases hp : p = p'
    · subst hp
      rcases hg : s.str.table.get? p with _ | ⟨w, k⟩
      · by_cases hon : old = new
        · subst hon
          exact no (by simp [ans, hg]) (.inr (.inl ⟨p, old, rfl, hg⟩))
        · refine no (by simp [ans, hg]) (.inl ⟨p, old, new, true, .inr ⟨rfl, hon, rfl⟩, ?_⟩)
          intro w k h; rw [hg] at h; cases h
      · by_cases hon : old = new
        · subst hon
          have ha : ans (s.str, s.heap) (.recRewatch p p old old) = (true, s.str, put s.heap w { s.heap w with isrec := true }) := by
            simp [ans, hg]
          exact one (.mark p old w k rest hi (by rw [ht, ha]) hg) ⟨rfl, rfl, rfl⟩ hi rfl (by rw [ha])
        · by_cases he : (s.heap w).events = old
          · exact swap (.inr ⟨rfl, hon, rfl⟩) hg he (by simp [ans, hg, he, hon])
          · refine no (by simp [ans, hg, he, hon]) (.inl ⟨p, old, new, true, .inr ⟨rfl, hon, rfl⟩, ?_⟩)
            intro w' k' h; rw [hg] at h; cases h; exact he
    · by_cases hc : s.str.table.get? p' = none ∧ (Streams.unwatch s.str p).2 = true
      · have ha : ans (s.str, s.heap) (.recRewatch p p' old new) = (true, (opened ((Streams.unwatch s.str p).1, s.heap) p' new true).2) := by
          simp only [ans]; rw [if_neg hp, if_pos hc]
        have h1 : MStep cfg false s [] [] [] _ := .leave p p' old new true rest hp hi (by rw [ht, ha]) hc.1 hc.2
        have hfree : (Streams.unwatch s.str p).1.table.get? p' = none := by
          unfold Streams.unwatch
          split
          · exact hc.1
          · simp only [GoMap.get?_del]; split
            · rfl
            · exact hc.1
        have hw : (Streams.watch (Streams.unwatch s.str p).1 p' .ok).2 = true := by unfold Streams.watch; rw [hfree]
        refine ⟨_, _, .of h1 rfl, .single (.of (.arrive p' new .ok ?_) rfl), ⟨rfl, rfl, rfl⟩, rfl, rfl, ?_⟩
        · dsimp only; rw [hw]
        · rw [ha]; rfl
      · refine no (by simp only [ans]; rw [if_neg hp, if_neg hc]) (.inr (.inr ⟨p, p', old, new, rfl, hp, ?_⟩))
        rcases Classical.not_and_iff_not_or_not.1 hc with hc | hc
        · exact .inl hc
        · right
          unfold Streams.unwatch at hc
          split at hc
          · assumption
          · exact absurd rfl hc

/-- The watcher after the calls of a log. -/
def replay (x : Sim) : Log → Sim
  | [] => x
  | (c, _) :: l => (ans (replay x l) c).2

/-- The oracle that answers as the watcher does. -/
def right (x : Sim) (base : Log) : Oracle := fun l c => (ans (replay x (l.take (l.length - base.length))) c).1

/-- A Watch is about to panic, if nothing fails in the OS. -/
def MSt.Panics (s : MSt) : Prop :=
  s.plan = none ∧ ∃ i p isrec c e, (i, Sched.Req.watch p isrec c e, Sched.Call.locked) ∈ s.sys.calls ∧
    (Rec.watchOp I (right (s.str, s.heap) s.sys.tree.world.log) s.sys.tree p isrec c e).1.world.panicked = true

theorem told_right {x : Sim} {base b : Log} (h : Told (right x base) base b) :
    ∃ new, b = new ++ base ∧ ∀ (s : MSt) (cfg : Sched.Cfg), (s.str, s.heap) = x → s.caller = .idle → ∀ rest, s.todo = new.reverse ++ rest →
      ∃ s', Relation.ReflTransGen (Inner cfg) s s' ∧ Same s s' ∧ s'.caller = .idle ∧ s'.todo = rest ∧ (s'.str, s'.heap) = replay x new := by
  induction h with
  | refl => exact ⟨[], rfl, fun s cfg hx hi rest ht => ⟨s, .refl, ⟨rfl, rfl, rfl⟩, hi, ht, hx⟩⟩
  | @cons b c _ ih =>
    obtain ⟨new, rfl, ih⟩ := ih
    refine ⟨(c, Mac.right x base (new ++ base) c) :: new, rfl, fun s cfg hx hi rest ht => ?_⟩
    obtain ⟨s', h1, h2, h3, h4, h5⟩ := ih s cfg hx hi ((c, Mac.right x base (new ++ base) c) :: rest) (by rw [ht]; simp)
    have hr : Mac.right x base (new ++ base) c = (ans (s'.str, s'.heap) c).1 := by
      rw [h5]; unfold Mac.right; simp
    obtain ⟨s₁, s₂, g1, g2, g3, g4, g5, g6⟩ := serve (cfg := cfg) h3 (by rw [h4, hr])
    refine ⟨s₂, (h1.tail g1).trans g2, ⟨g3.1.trans h2.1, g3.2.1.trans h2.2.1, g3.2.2.trans h2.2.2⟩, g4, g5, ?_⟩
    rw [g6, h5]; rfl

/-! #### Progress -/

/-- The paths of the calls have components without slashes. -/
def MSt.Named (s : MSt) : Prop := ∀ x ∈ s.sys.calls, ∀ p isrec c e, x.2.1 = .watch p isrec c e → PathStr.Comps p

/-- An operation that holds the lock begins, with the answers that the watcher gives, or panics. -/
theorem begins {cfg : Sched.Cfg} {s : MSt} (h : Live s) (hn : s.Named) (hp : s.plan = none) {i : Nat} {r : Sched.Req}
    (hm : (i, r, Sched.Call.locked) ∈ s.sys.calls) :
    s.Panics ∨ ∃ ops t new, Told (right (s.str, s.heap) s.sys.tree.world.log) s.sys.tree.world.log t.world.log ∧ t.world.log = new ++ s.sys.tree.world.log ∧
      MStep cfg false s ops [] [] { s with plan := some (r, t), todo := new.reverse } := by
  have hok := h.inv.oks.calls _ hm
  generalize hO : right (s.str, s.heap) s.sys.tree.world.log = O
  cases r with
  | watch p isrec c e =>
    cases ht : (Rec.watchOp I O s.sys.tree p isrec c e).1.world.panicked with
    | true => exact .inl ⟨hp, i, p, isrec, c, e, hm, by rw [hO]; exact ht⟩
    | false =>
      obtain ⟨new, hnew⟩ := (Rec.watchOp_told I O s.sys.tree p isrec c e).suffix
      exact .inr ⟨_, _, new, Rec.watchOp_told I O s.sys.tree p isrec c e, hnew, .plan _ _ _ new i hm hp
        ⟨Rec.RSteps.nil.snoc (.watch (O := O) hok.1 hok.2), ht, _, ⟨hn _ hm p isrec c e rfl, _, rfl⟩, .inl rfl⟩ hnew⟩
  | stop c =>
    obtain ⟨new, hnew⟩ := (Rec.stop_told I O s.sys.tree c).suffix
    exact .inr ⟨_, _, new, Rec.stop_told I O s.sys.tree c, hnew, .plan _ _ _ new i hm hp
      ⟨Rec.RSteps.nil.snoc (.stop (O := O) (fun h => nomatch h)), (Rec.stopWalk_panicked O c _ _).trans h.pan, _, rfl, .inl rfl⟩ hnew⟩
  | internal ei => exact (h.user _ hm).elim

theorem inner_free {l : Sched.Lab Sched.Req} (h : l.inner) : Free l := by cases l <;> first | trivial | exact h

theorem Inner.go {cfg : Sched.Cfg} {s : MSt} {l : Sched.Lab Sched.Req} {sys' : Sched.State Y} (h : Sched.Tr Y cfg s.sys l sys') (hl : l.inner) :
    Inner cfg s { s with sys := sys' } := ⟨_, _, .go l sys' h (inner_free hl), h.calls_le hl.env⟩

/-- What is in hand of the callback and of the watcher goes on. -/
theorem cb_step {cfg : Sched.Cfg} (hC : 0 < cfg.capC) {s : MSt} {b : Cb} (hb : s.cb = some b) :
    ∃ s', Inner cfg s s' ∧ s'.plan = s.plan := by
  cases he : b.events with
  | none => exact ⟨_, .of (.loadEvents b hb he) rfl, rfl⟩
  | some e =>
    cases hf : b.isrec with
    | none => exact ⟨_, .of (.loadRec b e hb he hf) rfl, rfl⟩
    | some f =>
      cases ho : b.out with
      | cons o l =>
        by_cases hq : s.sys.cq.length < cfg.capC
        · exact ⟨_, ⟨_, _, .send b o l hb ho hq, Nat.le_refl _⟩, rfl⟩
        · cases hcq : s.sys.cq with
          | nil => rw [hcq] at hq; exact absurd hC hq
          | cons ei q => exact ⟨_, .go (.spawn ei q hcq) trivial, rfl⟩
      | nil =>
        cases hl : b.evs with
        | nil => exact ⟨_, .of (.done b e f hb he hf hl ho) rfl, rfl⟩
        | cons r l => exact ⟨_, .of (.next b e f r l hb he hf hl ho) rfl, rfl⟩

/-- The operation is done with the tree. -/
theorem ends {cfg : Sched.Cfg} {s : MSt} (h : Live s) {r : Sched.Req} {t : St} (hp : s.plan = some (r, t)) (ht : s.todo = []) (hc : s.caller = .idle) :
    ∃ s', Inner cfg s s' ∧ s'.plan = none := by
  obtain ⟨_, _, i, hm⟩ := h.plan r t hp
  obtain ⟨a, b, hab⟩ := List.append_of_mem hm
  exact ⟨_, ⟨_, _, .effect i r a b t hab hp ht hc, by simp [hab]⟩, rfl⟩

theorem progress {cfg : Sched.Cfg} (hC : 0 < cfg.capC) (hR : 0 < cfg.capR) {s : MSt} (h : Live s) (hn : s.Named) (hne : ¬ s.Rest) :
    (∃ s', Inner cfg s s') ∨
    (∃ c ok rest s', s.todo = (c, ok) :: rest ∧ Inner cfg { s with todo := (c, !ok) :: rest } s') ∨ s.Panics := by
  by_cases hw : ∃ c ok rest s', s.todo = (c, ok) :: rest ∧ Inner cfg { s with todo := (c, !ok) :: rest } s'
  · exact .inr (.inl hw)
  cases hcb : s.cb with
  | some b => obtain ⟨s', h1, _⟩ := cb_step (cfg := cfg) hC hcb; exact .inl ⟨s', h1⟩
  | none =>
  cases hca : s.caller with
  | storing w f => exact .inl ⟨_, .of (.store w f hca) rfl⟩
  | moving p e ok =>
    have hg := h.moving p e ok hca
    cases ok with
    | true => exact .inl ⟨_, .of (.arrive p e .ok (by rw [hca]; unfold Streams.watch; rw [hg])) rfl⟩
    | false => exact .inl ⟨_, .of (.arrive p e .noStart (by rw [hca]; unfold Streams.watch; rw [hg])) rfl⟩
  | idle =>
  cases ht : s.todo with
  | cons x rest =>
    obtain ⟨c, ok⟩ := x
    by_cases hok : ok = (ans (s.str, s.heap) c).1
    · subst hok
      obtain ⟨s₁, _, h1, _⟩ := serve (cfg := cfg) hca ht
      exact .inl ⟨s₁, h1⟩
    · have hok : (!ok) = (ans (s.str, s.heap) c).1 := by
        revert hok; generalize (ans (s.str, s.heap) c).1 = x; cases ok <;> cases x <;> simp
      obtain ⟨s₁, _, h1, _⟩ := serve (cfg := cfg) (s := { s with todo := (c, !ok) :: rest }) (c := c) (rest := rest) hca (by rw [hok])
      exact absurd ⟨c, ok, rest, s₁, ht, h1⟩ hw
  | nil =>
  cases hp : s.plan with
  | some x => obtain ⟨s', h1, _⟩ := ends (cfg := cfg) h hp ht hca; exact .inl ⟨s', h1⟩
  | none =>
  rcases Sched.progress_inner hC hR h.os (fun hi => hne ⟨hi, hcb, hp, ht, hca⟩) with ⟨l, s', h1, h2⟩ | ⟨i, r, hm⟩ | ⟨ei, hm⟩
  · exact .inl ⟨_, .go h1 h2⟩
  · rcases begins (cfg := cfg) h hn hp hm with hp | ⟨ops, t, new, _, _, hs⟩
    · exact .inr (.inr hp)
    · exact .inl ⟨_, .of hs rfl⟩
  · rw [h.hand.2.1] at hm; cases hm

/-! #### Termination -/

/-- What is left of the callback, apart from the events to be sent. -/
def cbw : Option Cb → Nat
  | none => 0
  | some b => 1 + b.evs.length + (if b.events = none then 1 else 0) + (if b.isrec = none then 1 else 0)

def outw : Option Cb → Nat
  | none => 0
  | some b => b.out.length

def callerw : Caller → Nat
  | .idle => 0
  | _ => 1

/-- What is left to do. -/
def MSt.measure (s : MSt) : Nat × Nat × Nat × Nat :=
  (cbw s.cb, 2 * (9 * outw s.cb + s.sys.work) + (if s.plan = none then 1 else 0), 2 * s.todo.length + callerw s.caller, s.sys.left)

theorem MStep.decreases {cfg : Sched.Cfg} {rel : Bool} {s s' : MSt} {o : List ROp} {g : List (Key × EventInfo)} (h : Live s)
    (hs : MStep cfg rel s o [] g s') (hc : s'.sys.calls.length ≤ s.sys.calls.length) : Lex4 s'.measure s.measure := by
  generalize hreps : ([] : List (Nat × List Rep)) = reps at hs
  cases hs with
  | go l sys' htr hfree =>
    have henv := htr.calls_env hc (by rintro evs rfl; exact hfree)
    rcases htr.decreases L h.inv henv with hd | ⟨hd1, hd2⟩
    · exact .inr ⟨rfl, .inl (by simp only [MSt.measure]; omega)⟩
    · exact .inr ⟨rfl, .inr ⟨by simp only [MSt.measure]; omega, .inr ⟨rfl, hd2⟩⟩⟩
  | report => cases hreps
  | loadEvents b hcb hb => left; simp [MSt.measure, cbw, hcb, hb]
  | loadRec b e hcb he hb => left; simp [MSt.measure, cbw, hcb, hb]
  | next b e f r l' hcb he hf hl ho => left; simp [MSt.measure, cbw, hcb, hl]
  | send b o l' hcb ho hq =>
    right
    refine ⟨by simp [MSt.measure, cbw, hcb], .inl ?_⟩
    simp only [MSt.measure, outw, hcb, ho, Sched.State.work, List.length_append, List.length_cons, List.length_nil]
    omega
  | done b e f hcb he hf hl ho => left; simp only [MSt.measure, cbw, hcb]; omega
  | plan r ops' t' new i hr hp ht hn => right; exact ⟨rfl, .inl (by simp [MSt.measure, hp])⟩
  | watch c p e f x rest ho hca ht | unwatch c p rest ho hca ht | mark p e w k rest hca ht hw | refuse c rest ht hca hf =>
    right; exact ⟨rfl, .inr ⟨rfl, .inl (by simp [MSt.measure, ht])⟩⟩
  | swap c p old new f w k rest ho hca ht hw he =>
    right; exact ⟨rfl, .inr ⟨rfl, .inl (by simp [MSt.measure, ht, hca, callerw]; omega)⟩⟩
  | leave p p' old new ok rest hp hca ht hn hu =>
    right; exact ⟨rfl, .inr ⟨rfl, .inl (by simp [MSt.measure, ht, hca, callerw]; omega)⟩⟩
  | store w f hca | arrive p e x hca => right; exact ⟨rfl, .inr ⟨rfl, .inl (by simp [MSt.measure, hca, callerw])⟩⟩
  | effect i r a b t' hcalls hp ht hca =>
    right
    refine ⟨rfl, .inl ?_⟩
    simp [MSt.measure, hp, Sched.State.work, hcalls, Sched.Call.w]
    omega

theorem Inner.decreases {cfg : Sched.Cfg} {s s' : MSt} (h : Live s) (hs : Inner cfg s s') : Lex4 s'.measure s.measure := by
  obtain ⟨o, g, h1, h2⟩ := hs
  exact h1.decreases h h2

theorem Inner.live {cfg : Sched.Cfg} {s s' : MSt} (h : Live s) (hs : Inner cfg s s') : Live s' := by
  obtain ⟨o, g, h1, h2⟩ := hs
  exact h.step h1

theorem Inner.named {cfg : Sched.Cfg} {s s' : MSt} (hn : s.Named) (hs : Inner cfg s s') : s'.Named := by
  obtain ⟨o, g, h1, h2⟩ := hs
  cases h1 with
  | go l sys' htr hfree =>
    intro x hx p isrec c e he
    have henv := htr.calls_env h2 (by rintro evs rfl; exact hfree)
    obtain ⟨y, hy, _, h3⟩ := htr.calls_sub (by rintro i r rfl; exact henv trivial) x hx
    exact hn y hy p isrec c e (h3.trans he)
  | effect i r a b t' hcalls hp ht hca =>
    intro x hx p isrec c e he
    simp only [List.mem_append, List.mem_cons] at hx
    rcases hx with hx | rfl | hx
    · exact hn x (by rw [hcalls]; simp [hx]) p isrec c e he
    · exact hn (i, r, .locked) (by rw [hcalls]; simp) p isrec c e he
    · exact hn x (by rw [hcalls]; simp [hx]) p isrec c e he
  | _ => exact hn

/-! #### Everything is done in the end -/

theorem many {cfg : Sched.Cfg} {s s' : MSt} (h : Live s) (hn : s.Named) (hs : Relation.ReflTransGen (Inner cfg) s s') :
    Live s' ∧ s'.Named ∧ (s' = s ∨ Relation.TransGen Lex4 s'.measure s.measure) := by
  induction hs with
  | refl => exact ⟨h, hn, .inl rfl⟩
  | tail _ h2 ih =>
    obtain ⟨g1, g2, g3⟩ := ih
    refine ⟨h2.live g1, h2.named g2, .inr ?_⟩
    rcases g3 with rfl | g3
    · exact .single (h2.decreases g1)
    · exact .head (h2.decreases g1) g3

/-- As long as no operation is at the watcher, there is a way on after which this is so again. -/
theorem onward {cfg : Sched.Cfg} (hC : 0 < cfg.capC) (hR : 0 < cfg.capR) {s : MSt} (h : Live s) (hn : s.Named) (hp : s.plan = none) (hne : ¬ s.Rest) :
    s.Panics ∨ ∃ s₁ s', Inner cfg s s₁ ∧ Relation.ReflTransGen (Inner cfg) s₁ s' ∧ s'.plan = none := by
  cases hcb : s.cb with
  | some b => obtain ⟨s', h1, h2⟩ := cb_step (cfg := cfg) hC hcb; exact .inr ⟨s', s', h1, .refl, h2.trans hp⟩
  | none =>
  obtain ⟨ht, hca⟩ := h.rest hp
  rcases Sched.progress_inner hC hR h.os (fun hi => hne ⟨hi, hcb, hp, ht, hca⟩) with ⟨l, s', h1, h2⟩ | ⟨i, r, hm⟩ | ⟨ei, hm⟩
  · exact .inr ⟨_, _, .go h1 h2, .refl, hp⟩
  · rcases begins (cfg := cfg) h hn hp hm with hp | ⟨ops, t, new, htold, hnew, hs⟩
    · exact .inl hp
    · right
      obtain ⟨new', h1, h2⟩ := told_right htold
      obtain rfl : new' = new := List.append_cancel_right (h1.symm.trans hnew)
      obtain ⟨s', g1, g2, g3, g4, g5⟩ := h2 { s with plan := some (r, t), todo := new'.reverse } cfg rfl hca [] (by simp)
      have hl : Live s' := (many (h.step hs) hn g1).1
      obtain ⟨s'', k1, k2⟩ := ends (cfg := cfg) hl (r := r) (t := t) g2.2.1 g4 g3
      exact ⟨_, s'', .of hs rfl, g1.tail k1, k2⟩
  · rw [h.hand.2.1] at hm; cases hm

theorem drains {cfg : Sched.Cfg} (hC : 0 < cfg.capC) (hR : 0 < cfg.capR) {s : MSt} (h : Live s) (hn : s.Named) (hp : s.plan = none) :
    ∃ s', Relation.ReflTransGen (Inner cfg) s s' ∧ (s'.Rest ∨ s'.Panics) := by
  have key : ∀ m, ∀ s : MSt, s.measure = m → Live s → s.Named → s.plan = none →
      ∃ s', Relation.ReflTransGen (Inner cfg) s s' ∧ (s'.Rest ∨ s'.Panics) := by
    intro m
    induction m using lex4_wf.transGen.induction with
    | _ m ih =>
      intro s hm h hn hp
      by_cases hr : s.Rest
      · exact ⟨s, .refl, .inl hr⟩
      rcases onward (cfg := cfg) hC hR h hn hp hr with hpan | ⟨s₁, s', h1, h2, h3⟩
      · exact ⟨s, .refl, .inr hpan⟩
      have h4 := Relation.ReflTransGen.head h1 h2
      obtain ⟨g1, g2, _⟩ := many h hn h4
      have hlt : Relation.TransGen Lex4 s'.measure m := by
        obtain ⟨_, _, g3⟩ := many (h1.live h) (h1.named hn) h2
        rw [← hm]
        rcases g3 with rfl | g3
        · exact .single (h1.decreases h)
        · exact g3.tail (h1.decreases h)
      obtain ⟨s'', k1, k2⟩ := ih _ hlt s' rfl g1 g2 h3
      exact ⟨s'', h4.trans k1, k2⟩
  exact key _ s rfl h hn hp

theorem Inner.many_calls {cfg : Sched.Cfg} {s s' : MSt} (Q : Sched.Req → Prop) (hq : ∀ x ∈ s.sys.calls, Q x.2.1)
    (hs : Relation.ReflTransGen (Inner cfg) s s') : ∀ x ∈ s'.sys.calls, Q x.2.1 := by
  induction hs with
  | refl => exact hq
  | tail _ h ih =>
    obtain ⟨o, g, h1, h2⟩ := h
    cases h1 with
    | go l sys' htr hfree =>
      intro x hx
      have henv := htr.calls_env h2 (by rintro evs rfl; exact hfree)
      obtain ⟨y, hy, _, h3⟩ := htr.calls_sub (by rintro i r rfl; exact henv trivial) x hx
      exact h3 ▸ ih y hy
    | effect i r a b t' hcalls hp ht hca =>
      intro x hx
      simp only [List.mem_append, List.mem_cons] at hx
      rcases hx with hx | rfl | hx
      · exact ih x (by rw [hcalls]; simp [hx])
      · exact ih (i, r, .locked) (by rw [hcalls]; simp)
      · exact ih x (by rw [hcalls]; simp [hx])
    | _ => exact ih

/-- C110, macOS.  In every state of the program in which something is under way, something can happen without help from users or FSEvents: a goroutine or the
callback takes a step, or the call of the watcher that is due returns with the other outcome than was guessed, or a Watch panics.  This does not
go on for ever.  From every state in which no operation is at the watcher everything can be brought to its end, that is, each Watch and Stop
returns and each report is handled, unless a Watch panics; only Stops never do. -/
theorem C110_mac {cfg : Sched.Cfg} (hC : 0 < cfg.capC) (hR : 0 < cfg.capR) {safe : Bool} {ops : List ROp} {reps : List (Nat × List Rep)}
    {sg : List (Key × EventInfo)} {s : MSt} (h : MRun cfg safe [] MSt.init ops reps sg s) :
    (s.Named → ¬ s.Rest → (∃ s', Inner cfg s s') ∨
      (∃ c ok rest s', s.todo = (c, ok) :: rest ∧ Inner cfg { s with todo := (c, !ok) :: rest } s') ∨ s.Panics) ∧
    (∀ f : Nat → MSt, f 0 = s → (∀ n, Inner cfg (f n) (f (n + 1))) → False) ∧
    (s.Named → s.plan = none → ∃ s', Relation.ReflTransGen (Inner cfg) s s' ∧ (s'.Rest ∨ s'.Panics)) ∧
    ((∀ x ∈ s.sys.calls, ∃ c, x.2.1 = .stop c) → s.plan = none → ∃ s', Relation.ReflTransGen (Inner cfg) s s' ∧ s'.Rest) := by
  have hl : Live s := h.live .init
  refine ⟨fun hn => progress hC hR hl hn, fun f h0 hf => ?_, fun hn => drains hC hR hl hn, fun hstop hp => ?_⟩
  · have hlive : ∀ n, Live (f n) := by
      intro n
      induction n with
      | zero => rw [h0]; exact hl
      | succ n ih => exact (hf n).live ih
    exact no_descent lex4_wf (fun n => (f n).measure) fun n => (hf n).decreases (hlive n)
  · have hn : s.Named := by
      intro x hx p isrec c e he
      obtain ⟨c', hc'⟩ := hstop x hx
      rw [he] at hc'; cases hc'
    obtain ⟨s', h1, h2 | ⟨_, i, p, isrec, c, e, hm, _⟩⟩ := drains hC hR hl hn hp
    · exact ⟨s', h1, h2⟩
    · obtain ⟨c', hc'⟩ := Inner.many_calls (fun r => ∃ c, r = .stop c) hstop h1 _ hm
      cases hc'

namespace LiveEx
open Ex

/-- A callback is running, a Stop has the lock. -/
theorem run : ∃ ops reps sg s, MRun cfg true [] MSt.init ops reps sg s ∧ s.cb ≠ none ∧ (1, .stop 1, .locked) ∈ s.sys.calls ∧ s.plan = none ∧
    ∀ x ∈ s.sys.calls, ∃ c, x.2.1 = .stop c := by
  have h := run1
  have h := h.step (.report 1 0 d [r1, r2] (.head _) (by
    intro r hr; simp only [List.mem_cons, List.not_mem_nil, or_false] at hr; rcases hr with rfl | rfl <;> exact rOk rfl) rfl) (by simp)
  have h := h.step (.go _ _ (.call (Y := Y) (Sched.Req.stop 1) trivial trivial) trivial) (by simp)
  have h := h.step (.go _ _ (.lock 1 (Sched.Req.stop 1) [] [] rfl (by rintro ⟨_, _, _, _, h⟩; cases h)
    (by rintro ⟨_, _, h | h⟩ <;> cases h <;> contradiction) (by rintro ⟨_, h | h⟩ <;> cases h)) trivial) (by simp)
  refine ⟨_, _, _, _, h, ?_, .head _, rfl, ?_⟩
  · simp [enter, s1, str1, Streams.watch, GoMap.get?, GoMap.set]
  · intro x hx
    have hx : x ∈ [(1, Sched.Req.stop 1, Sched.Call.locked)] := hx
    simp only [List.mem_singleton] at hx
    subst hx
    exact ⟨1, rfl⟩

example : ∃ s s' : MSt, (1, Sched.Req.stop 1, Sched.Call.locked) ∈ s.sys.calls ∧ s.cb ≠ none ∧ Relation.ReflTransGen (Inner cfg) s s' ∧ s'.Rest := by
  obtain ⟨ops, reps, sg, s, h, h1, h2, h3, h4⟩ := run
  obtain ⟨s', g1, g2⟩ := (C110_mac (by decide) (by decide) h).2.2.2 h4 h3
  exact ⟨s, s', h2, h1, g1, g2⟩

end LiveEx
end Mac
end Verif
