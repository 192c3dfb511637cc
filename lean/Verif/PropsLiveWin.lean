/-
The whole program does not hang (C110): Windows.
-/
import Verif.PropsLive
import Verif.PropsWin
import Verif.ReaddcwSane

namespace Verif

/-- The lexicographic order. -/
def Lex6 (a b : Nat × Nat × Nat × Nat × Nat × Nat) : Prop :=
  a.1 < b.1 ∨ (a.1 = b.1 ∧ (a.2.1 < b.2.1 ∨ (a.2.1 = b.2.1 ∧ Lex4 a.2.2 b.2.2)))

theorem lex6_wf : WellFounded Lex6 := by
  refine Subrelation.wf (r := Prod.Lex (· < ·) (Prod.Lex (· < ·) Lex4)) ?_
    (Prod.lex Nat.lt_wfRel (Prod.lex Nat.lt_wfRel ⟨Lex4, lex4_wf⟩)).wf
  rintro ⟨a, b, c⟩ ⟨a', b', c'⟩ h
  simp only [Lex6] at h
  rcases h with h | ⟨rfl, h | ⟨rfl, h⟩⟩
  · exact .left _ _ h
  · exact .right _ (.left _ _ h)
  · exact .right _ (.right _ h)

namespace Win
open Linux (Free sigs)
open Mac (free_tree free_os free_effect inner_free)
open Rec (ROp)

abbrev L : Sched.Laws Y := Sched.recLaws R factsR

/-- Nothing is going on in the program. -/
def WSt.Rest (s : WSt) : Prop :=
  s.sys.Idle ∧ s.pk = [] ∧ s.w.loop = .idle ∧ s.out = [] ∧ s.plan = none ∧ s.todo = [] ∧ s.caller = .idle

/-- A step inside of the program: the kernel reports nothing and no user calls.  Calls of the watcher may fail. -/
def Inner (cfg : Sched.Cfg) (s s' : WSt) : Prop := ∃ o wo g, WStep cfg false s o wo [] g s' ∧ s'.sys.calls.length ≤ s.sys.calls.length

/-- The invariant. -/
structure Live (s : WSt) : Prop where
  inv : Sched.Inv L s.sys
  os : s.sys.os = []
  hand : NoHand s.sys
  user : ∀ x ∈ s.sys.calls, Y.user x.2.1
  pan : s.sys.tree.world.panicked = false
  plan : ∀ r t, s.plan = some (r, t) → Y.step s.sys.tree r t ∧ t.world.panicked = false ∧ ∃ i, (i, r, .locked) ∈ s.sys.calls
  rest : s.plan = none → s.todo = [] ∧ s.caller = .idle
  sane : Dcw.Sane none s.w
  pk : ∀ x ∈ s.pk, ∀ y ∈ x.2, x.1 < s.w.ng ∧ [] ∉ (s.w.grips x.1).path ++ y.name ∧ y.name ≠ []
  out : ∀ o ∈ s.out, NonRec.GoodPath o.path

theorem Live.init : Live WSt.init where
  inv := .init L
  os := rfl
  hand := ⟨rfl, rfl, by intro x hx; cases hx⟩
  user := by intro x h; cases h
  pan := rfl
  plan := by intro r t h; cases h
  rest := fun _ => ⟨rfl, rfl⟩
  sane := .init
  pk := by intro x h; cases h
  out := by intro x h; cases h

theorem send_path {f : Event} {a : Dcw.Action} {p : Path} {o : EventInfo} (h : o ∈ Dcw.send f a p) : o.path = p := by
  unfold Dcw.send at h
  dsimp only at h
  split at h
  · cases h
  · split at h
    · rw [List.mem_singleton.1 h]
    · split at h
      · rcases List.mem_cons.1 h with h | h
        · rw [h]
        · rw [List.mem_singleton.1 h]
      · rw [List.mem_singleton.1 h]

theorem send_length (f : Event) (a : Dcw.Action) (p : Path) : (Dcw.send f a p).length ≤ 2 := by
  unfold Dcw.send
  dsimp only
  split
  · simp
  · split
    · simp
    · split <;> simp

theorem events_length (g : Dcw.Grip) (l : List Chg) : (events g l).length ≤ 2 * l.length := by
  unfold events
  induction l with
  | nil => simp
  | cons y l ih =>
    rw [List.flatMap_cons, List.length_append, List.length_cons]
    have := send_length g.filter y.act (g.path ++ y.name)
    omega

theorem mem_more {w w' : Dcw.St} {x : Nat × List Chg} (h : x ∈ more w w') : x.2 = [] := by
  unfold more at h
  obtain ⟨g, _, rfl⟩ := List.mem_map.1 h
  rfl

theorem Live.step {cfg : Sched.Cfg} {rel : Bool} {s s' : WSt} {o : List ROp} {wo : List Dcw.Op} {reps : List Note} {g : List (Key × EventInfo)} (h : Live s)
    (hs : WStep cfg rel s o wo reps g s') : Live s' := by
  obtain ⟨h1, h2, h3, hu, hpan, h4, h5, h6, h7, h8⟩ := h
  -- steps of calls of the watcher
  have busy : ∀ {x}, s.todo = x → x ≠ [] → s.plan ≠ none := fun hx hne hp => hne (hx ▸ (h5 hp).1)
  have pks : ∀ {w' : Dcw.St}, Dcw.Stable s.w w' → ∀ x ∈ s.pk ++ more s.w w', ∀ y ∈ x.2, x.1 < w'.ng ∧ [] ∉ (w'.grips x.1).path ++ y.name ∧ y.name ≠ [] := by
    intro w' hst x hx y hy
    rcases List.mem_append.1 hx with hx | hx
    · obtain ⟨a, b, c⟩ := h7 x hx y hy
      exact ⟨Nat.lt_of_lt_of_le a hst.1, by rw [(hst.2 _ a).1]; exact b, c⟩
    · rw [mem_more hx] at hy; cases hy
  cases hs with
  | go l sys' htr hfree =>
    refine ⟨h1.tr htr, (free_os htr hfree).trans h2, h3.tr htr, htr.user hu, (free_tree htr hfree) ▸ hpan, ?_, h5, h6, h7, h8⟩
    intro r t hp
    obtain ⟨g1, g3, i, g2⟩ := h4 r t hp
    refine ⟨?_, g3, i, htr.keeps_locked (fun i r => free_effect hfree) g2⟩
    simp only [free_tree htr hfree]; exact g1
  | complete r l hr hl =>
    refine ⟨h1, h2, h3, hu, hpan, h4, h5, Dcw.complete_sane h6 r, ?_, h8⟩
    intro x hx y hy
    rcases List.mem_append.1 hx with hx | hx
    · exact h7 x hx y hy
    · obtain rfl := List.mem_singleton.1 hx
      exact ⟨(h6.rd r hr).2, (hl y hy).2.1, (hl y hy).1⟩
  | take g l pk' hw hp ho =>
    obtain ⟨e1, e2, e3, e4⟩ := Dcw.take_same s.w
    refine ⟨h1, h2, h3, hu, hpan, h4, h5, Dcw.take_sane h6, ?_, ?_⟩
    · intro x hx y hy
      show x.1 < (Dcw.take s.w).ng ∧ [] ∉ ((Dcw.take s.w).grips x.1).path ++ y.name ∧ y.name ≠ []
      rw [e1, e2]
      exact h7 x (by rw [hp]; exact List.mem_cons_of_mem _ hx) y hy
    · intro o ho'
      have ho' : o ∈ (if (s.w.grips g).linked then events (s.w.grips g) l else []) := ho'
      split at ho'
      · obtain ⟨y, hy, hoy⟩ := List.mem_flatMap.1 ho'
        obtain ⟨_, b, c⟩ := h7 (g, l) (by rw [hp]; exact List.mem_cons_self ..) y hy
        rw [send_path hoy]
        exact ⟨by intro e; exact c (List.append_eq_nil_iff.1 e).2, b⟩
      · cases ho'
  | send o l ho hq =>
    have hok := h8 o (by rw [ho]; simp)
    have htr : Sched.Tr Y cfg { s.sys with os := [o] } (.push o) { s.sys with os := [], cq := s.sys.cq ++ [o] } := .push o [] rfl hq
    have hr : Sched.Tr Y cfg s.sys (.report [o]) { s.sys with os := [o] } := .report [o] (by simpa using hok) h2
    have he : ({ s.sys with os := [], cq := s.sys.cq ++ [o] } : Sched.State Y) = { s.sys with cq := s.sys.cq ++ [o] } := by rw [← h2]
    exact ⟨he ▸ (h1.tr hr).tr htr, h2, h3, hu, hpan, h4, h5, h6, h7, fun y hy => h8 y (by rw [ho]; simp [hy])⟩
  | again g ok hw ho =>
    refine ⟨h1, h2, h3, hu, hpan, h4, h5, Dcw.again_sane h6 ok, ?_, h8⟩
    intro x hx y hy
    obtain ⟨a, b, c⟩ := h7 x hx y hy
    have hst := (Dcw.again_ext s.w ok).1
    exact ⟨Nat.lt_of_lt_of_le a hst.1, by show [] ∉ ((Dcw.again s.w ok).grips x.1).path ++ y.name; rw [(hst.2 _ a).1]; exact b, c⟩
  | state g a0 a1 w' hw hl =>
    exact ⟨h1, h2, h3, hu, hpan, h4, h5, Dcw.loopstate_sane h6 hl, pks (Dcw.loopstate_ext hl).1, h8⟩
  | plan r ops' t' new i hr hp ht hn =>
    refine ⟨h1, h2, h3, hu, hpan, ?_, (fun h => nomatch h), h6, h7, h8⟩
    rintro r t ⟨⟩; exact ⟨ht.step, ht.2.1, i, hr⟩
  | watch c p e f a0 a1 rest ho hc ht =>
    exact ⟨h1, h2, h3, hu, hpan, h4, fun hp => absurd hp (busy ht (by simp)), Dcw.watch_sane h6 .., pks (Dcw.watch_ext ..).1, h8⟩
  | unwatch c p gone rest ho hc ht =>
    exact ⟨h1, h2, h3, hu, hpan, h4, fun hp => absurd hp (busy ht (by simp)), Dcw.unwatch_sane h6 .., pks (Dcw.unwatch_ext ..).1, h8⟩
  | rewatch c p old new f w' ok rest ho hc he ht =>
    exact ⟨h1, h2, h3, hu, hpan, h4, fun hp => absurd hp (busy ht (by simp)), Dcw.rewatch_sane h6 he, pks (Dcw.rewatch_ext he).1, h8⟩
  | leave p p' old new gone ok rest hp hc ht hu' =>
    exact ⟨h1, h2, h3, hu, hpan, h4, fun hp => absurd hp (busy ht (by simp)), Dcw.unwatch_sane h6 .., pks (Dcw.unwatch_ext ..).1, h8⟩
  | arrive p e a0 a1 hc =>
    refine ⟨h1, h2, h3, hu, hpan, h4, fun hp => ?_, Dcw.watch_sane h6 .., pks (Dcw.watch_ext ..).1, h8⟩
    have := (h5 hp).2
    rw [hc] at this; cases this
  | refuse p p' old new rest hp hc ht hu' =>
    exact ⟨h1, h2, h3, hu, hpan, h4, fun hp => absurd hp (busy ht (by simp)), h6, h7, h8⟩
  | effect i r a b t' hcalls hp ht hc =>
    have htr : Sched.Tr Y cfg s.sys (.effect i r) _ := .effect i r a b t' hcalls (h4 _ _ hp).1 fun _ => h2
    exact ⟨h1.tr htr, h2, h3.tr htr, htr.user hu, (h4 _ _ hp).2.1, (fun r t h => nomatch h), fun _ => ⟨ht, hc⟩, h6, h7, h8⟩

theorem WRun.live {cfg : Sched.Cfg} {safe : Bool} {pre ops : List ROp} {wpre wops : List Dcw.Op} {reps : List Note} {sg : List (Key × EventInfo)} {s s' : WSt}
    (h0 : Live s) (h : WRun cfg safe pre wpre s ops wops reps sg s') : Live s' := by
  induction h with
  | refl => exact h0
  | step _ hs _ ih => exact ih.step hs

/-! #### The answers of the watcher -/

/-- What the watcher answers if nothing fails in the OS, and the watcher afterwards; none is a panic. -/
def ans (w : Dcw.St) : Call → Option (Bool × Dcw.St)
  | .watch p e => some ((Dcw.watch w p e false {} {}).2, (Dcw.watch w p e false {} {}).1)
  | .recWatch p e => some ((Dcw.watch w p e true {} {}).2, (Dcw.watch w p e true {} {}).1)
  | .unwatch p | .recUnwatch p => some ((Dcw.unwatch w p false).2, (Dcw.unwatch w p false).1)
  | .rewatch p old new => (Dcw.rewatch w p old new false).map fun x => (x.2, x.1)
  | .recRewatch p p' old new =>
    if p = p' then (Dcw.rewatch w p old new true).map fun x => (x.2, x.1)
    else if (Dcw.unwatch w p false).2 = true then
      some ((Dcw.watch (Dcw.unwatch w p false).1 p' new true {} {}).2, (Dcw.watch (Dcw.unwatch w p false).1 p' new true {} {}).1)
    else some (false, w)

theorem Inner.of {cfg : Sched.Cfg} {s s' : WSt} {o : List ROp} {wo : List Dcw.Op} {g : List (Key × EventInfo)} (h : WStep cfg false s o wo [] g s')
    (hs : s'.sys = s.sys) : Inner cfg s s' := ⟨o, wo, g, h, by rw [hs]; exact Nat.le_refl _⟩

/-- Such a step, in which the loop does not spin. -/
def Calm (cfg : Sched.Cfg) (s s' : WSt) : Prop := Inner cfg s s' ∧ ¬ Dcw.Spins s.w s'.w

theorem spins_loop {w w' : Dcw.St} (h : w'.loop = w.loop) : ¬ Dcw.Spins w w' := by
  rintro ⟨g, h1, h2, _⟩
  rw [h, h1] at h2; cases h2

theorem Calm.of {cfg : Sched.Cfg} {s s' : WSt} {o : List ROp} {wo : List Dcw.Op} {g : List (Key × EventInfo)} (h : WStep cfg false s o wo [] g s')
    (hs : s'.sys = s.sys) (hl : s'.w.loop = s.w.loop) : Calm cfg s s' := ⟨.of h hs, spins_loop hl⟩

theorem recreate_loop (s : Dcw.St) (w : Nat) (a0 a1 : Dcw.Ans) : (Dcw.recreate s w a0 a1).1.loop = s.loop := by
  unfold Dcw.recreate
  dsimp only
  split
  · split
    · exact (Dcw.updateGrip_wds ..).2.1.trans (Dcw.updateGrip_wds ..).2.1
    · exact (Dcw.updateGrip_wds ..).2.1.trans (Dcw.updateGrip_wds ..).2.1
  · exact (Dcw.updateGrip_wds ..).2.1

theorem watch_loop (s : Dcw.St) (p : Path) (e : Event) (f : Bool) (a0 a1 : Dcw.Ans) : (Dcw.watch s p e f a0 a1).1.loop = s.loop := by
  unfold Dcw.watch
  split
  · split
    · rfl
    · dsimp only
      split
      · exact recreate_loop ..
      · exact recreate_loop ..
  · rfl

theorem unwatch_loop (s : Dcw.St) (p : Path) (gone : Bool) : (Dcw.unwatch s p gone).1.loop = s.loop := by
  unfold Dcw.unwatch
  split
  · rfl
  · dsimp only; split <;> rfl

theorem rewatch_loop {s s' : Dcw.St} {p : Path} {old new : Event} {f ok : Bool} (h : Dcw.rewatch s p old new f = some (s', ok)) : s'.loop = s.loop := by
  unfold Dcw.rewatch at h
  split at h
  · split at h
    · cases h; rfl
    · split at h
      · dsimp only at h
        split at h <;> cases h <;> exact (Dcw.closeHandle_rest _ _).2.2.2.2.2
      · cases h
  · cases h; rfl

/-- What a call of the watcher does not touch. -/
def Same (s s' : WSt) : Prop := s'.sys = s.sys ∧ s'.plan = s.plan

/-- A call of the watcher is about to panic (watcher_readdcw.go:483-485). -/
def WSt.Fault (s : WSt) : Prop :=
  s.caller = .idle ∧ ∃ c p old new f ok rest, Swaps c p old new f ∧ s.todo = (c, ok) :: rest ∧ Dcw.rewatch s.w p old new f = none

theorem ans_none {w : Dcw.St} {c : Call} (h : ans w c = none) : ∃ p old new f, Swaps c p old new f ∧ Dcw.rewatch w p old new f = none := by
  cases c with
  | watch | recWatch | unwatch | recUnwatch => cases h
  | rewatch p old new => exact ⟨p, old, new, false, .inl ⟨rfl, rfl⟩, Option.map_eq_none_iff.1 h⟩
  | recRewatch p p' old new =>
    simp only [ans] at h
    split at h
    · next e => subst e; exact ⟨p, old, new, true, .inr ⟨rfl, rfl⟩, Option.map_eq_none_iff.1 h⟩
    · split at h <;> cases h

/-- The watcher can give this answer. -/
theorem serve {cfg : Sched.Cfg} {s : WSt} {c : Call} {b : Bool} {w' : Dcw.St} {rest : List (Call × Bool)} (hi : s.caller = .idle)
    (ht : s.todo = (c, b) :: rest) (ha : ans s.w c = some (b, w')) :
    ∃ s₁ s', Calm cfg s s₁ ∧ Relation.ReflTransGen (Calm cfg) s₁ s' ∧ Same s s' ∧ s'.caller = .idle ∧ s'.todo = rest ∧ s'.w = w' := by
  have one : ∀ {s' : WSt} {wo}, WStep cfg false s [] wo [] [] s' → Same s s' → s'.caller = .idle → s'.todo = rest → s'.w = w' → s'.w.loop = s.w.loop →
      ∃ s₁ s', Calm cfg s s₁ ∧ Relation.ReflTransGen (Calm cfg) s₁ s' ∧ Same s s' ∧ s'.caller = .idle ∧ s'.todo = rest ∧ s'.w = w' :=
    fun {s'} _ h1 h2 h3 h4 h5 h6 => ⟨s', s', .of h1 h2.1 h6, .refl, h2, h3, h4, h5⟩
  have swap : ∀ {p old new f}, Swaps c p old new f → (Dcw.rewatch s.w p old new f).map (fun x => (x.2, x.1)) = some (b, w') →
      ∃ s₁ s', Calm cfg s s₁ ∧ Relation.ReflTransGen (Calm cfg) s₁ s' ∧ Same s s' ∧ s'.caller = .idle ∧ s'.todo = rest ∧ s'.w = w' := by
    intro p old new f hsw hr
    obtain ⟨⟨w'', ok⟩, h1, h2⟩ := Option.map_eq_some_iff.1 hr
    cases h2
    exact one (.rewatch c p old new f _ _ rest hsw hi h1 ht) ⟨rfl, rfl⟩ hi rfl rfl (rewatch_loop h1)
  cases c with
  | watch p e =>
    cases ha
    exact one (.watch _ p e false {} {} rest (.inl ⟨rfl, rfl⟩) hi ht) ⟨rfl, rfl⟩ hi rfl rfl (watch_loop ..)
  | recWatch p e =>
    cases ha
    exact one (.watch _ p e true {} {} rest (.inr ⟨rfl, rfl⟩) hi ht) ⟨rfl, rfl⟩ hi rfl rfl (watch_loop ..)
  | unwatch p =>
    cases ha
    exact one (.unwatch _ p false rest (.inl rfl) hi ht) ⟨rfl, rfl⟩ hi rfl rfl (unwatch_loop ..)
  | recUnwatch p =>
    cases ha
    exact one (.unwatch _ p false rest (.inr rfl) hi ht) ⟨rfl, rfl⟩ hi rfl rfl (unwatch_loop ..)
  | rewatch p old new => exact swap (.inl ⟨rfl, rfl⟩) ha
  | recRewatch p p' old new =>
    by_cases hp : p = p'
    · subst hp
      simp only [ans, if_true] at ha
      exact swap (.inr ⟨rfl, rfl⟩) ha
    · simp only [ans, if_neg hp] at ha
      split at ha
      · next hu =>
        cases ha
        exact ⟨_, _, .of (.leave p p' old new false _ rest hp hi ht hu) rfl (unwatch_loop ..), .single (.of (.arrive p' new {} {} rfl) rfl (watch_loop ..)), ⟨rfl, rfl⟩, rfl, rfl, rfl⟩
      · next hu =>
        cases ha
        exact one (.refuse p p' old new rest hp hi ht (by simpa using hu)) ⟨rfl, rfl⟩ hi rfl rfl rfl

/-- The watcher after the calls of a log. -/
def replay (w : Dcw.St) : Log → Option Dcw.St
  | [] => some w
  | (c, _) :: l => (replay w l).bind fun w => (ans w c).map (·.2)

/-- The oracle that answers as the watcher does. -/
def right (w : Dcw.St) (base : Log) : Oracle := fun l c =>
  (((replay w (l.take (l.length - base.length))).bind fun w => ans w c).map (·.1)).getD true

/-- A Watch or a call of the watcher is about to panic, if nothing fails in the OS. -/
def WSt.Panics (s : WSt) : Prop :=
  s.Fault ∨ (s.plan = none ∧ ∃ i p isrec c e, (i, Sched.Req.watch p isrec c e, Sched.Call.locked) ∈ s.sys.calls ∧
    (Rec.watchOp R (right s.w s.sys.tree.world.log) s.sys.tree p isrec c e).1.world.panicked = true)

theorem told_right {w : Dcw.St} {base b : Log} (h : Told (right w base) base b) :
    ∃ new, b = new ++ base ∧ ∀ (s : WSt) (cfg : Sched.Cfg), s.w = w → s.caller = .idle → ∀ rest, s.todo = new.reverse ++ rest →
      ∃ s', Relation.ReflTransGen (Calm cfg) s s' ∧ Same s s' ∧ (s'.Fault ∨ (s'.caller = .idle ∧ s'.todo = rest ∧ replay w new = some s'.w)) := by
  induction h with
  | refl => exact ⟨[], rfl, fun s cfg hx hi rest ht => ⟨s, .refl, ⟨rfl, rfl⟩, .inr ⟨hi, ht, by rw [hx]; rfl⟩⟩⟩
  | @cons b c _ ih =>
    obtain ⟨new, rfl, ih⟩ := ih
    refine ⟨(c, Win.right w base (new ++ base) c) :: new, rfl, fun s cfg hx hi rest ht => ?_⟩
    obtain ⟨s', h1, h2, h3 | ⟨h3, h4, h5⟩⟩ := ih s cfg hx hi ((c, Win.right w base (new ++ base) c) :: rest) (by rw [ht]; simp)
    · exact ⟨s', h1, h2, .inl h3⟩
    · rcases ha : ans s'.w c with _ | ⟨b, w'⟩
      · obtain ⟨p, old, nw, f, k1, k2⟩ := ans_none ha
        exact ⟨s', h1, h2, .inl ⟨h3, c, p, old, nw, f, _, rest, k1, h4, k2⟩⟩
      · have hr : Win.right w base (new ++ base) c = b := by
          unfold Win.right
          simp [h5, ha]
        obtain ⟨s₁, s₂, g1, g2, g3, g4, g5, g6⟩ := serve (cfg := cfg) h3 (by rw [h4, hr]) ha
        refine ⟨s₂, (h1.tail g1).trans g2, ⟨g3.1.trans h2.1, g3.2.trans h2.2⟩, .inr ⟨g4, g5, ?_⟩⟩
        simp only [replay]
        rw [h5]
        simp [ha, g6]

/-! #### Progress -/

/-- An operation that holds the lock begins, with the answers that the watcher gives, or panics. -/
theorem begins {cfg : Sched.Cfg} {s : WSt} (h : Live s) (hp : s.plan = none) {i : Nat} {r : Sched.Req}
    (hm : (i, r, Sched.Call.locked) ∈ s.sys.calls) :
    s.Panics ∨ ∃ ops t new, Told (right s.w s.sys.tree.world.log) s.sys.tree.world.log t.world.log ∧ t.world.log = new ++ s.sys.tree.world.log ∧
      WStep cfg false s ops [] [] [] { s with plan := some (r, t), todo := new.reverse } := by
  have hok := h.inv.oks.calls _ hm
  generalize hO : right s.w s.sys.tree.world.log = O
  cases r with
  | watch p isrec c e =>
    cases ht : (Rec.watchOp R O s.sys.tree p isrec c e).1.world.panicked with
    | true => exact .inl (.inr ⟨hp, i, p, isrec, c, e, hm, by rw [hO]; exact ht⟩)
    | false =>
      obtain ⟨new, hnew⟩ := (Rec.watchOp_told R O s.sys.tree p isrec c e).suffix
      exact .inr ⟨_, _, new, Rec.watchOp_told R O s.sys.tree p isrec c e, hnew, .plan _ _ _ new i hm hp
        ⟨Rec.RSteps.nil.snoc (.watch (O := O) hok.1 hok.2), ht, _, ⟨_, rfl⟩, .inl rfl⟩ hnew⟩
  | stop c =>
    obtain ⟨new, hnew⟩ := (Rec.stop_told R O s.sys.tree c).suffix
    exact .inr ⟨_, _, new, Rec.stop_told R O s.sys.tree c, hnew, .plan _ _ _ new i hm hp
      ⟨Rec.RSteps.nil.snoc (.stop (O := O) (fun h => nomatch h)), (Rec.stopWalk_panicked O c _ _).trans h.pan, _, rfl, .inl rfl⟩ hnew⟩
  | internal ei => exact (h.user _ hm).elim

theorem Inner.go {cfg : Sched.Cfg} {s : WSt} {l : Sched.Lab Sched.Req} {sys' : Sched.State Y} (h : Sched.Tr Y cfg s.sys l sys') (hl : l.inner) :
    Inner cfg s { s with sys := sys' } := ⟨_, _, _, .go l sys' h (inner_free hl), h.calls_le hl.env⟩

/-- The loop goes on, as long as it has something to do; if nothing fails it does not spin. -/
theorem loop_step {cfg : Sched.Cfg} (hC : 0 < cfg.capC) {s : WSt} (h : Live s) (hne : ¬ (s.pk = [] ∧ s.w.loop = .idle ∧ s.out = [])) :
    ∃ s', Calm cfg s s' ∧ s'.plan = s.plan := by
  have quiet : ∀ {w w' : Dcw.St}, (∀ g, w.loop ≠ .st g) → ¬ Dcw.Spins w w' := by
    rintro w w' hw ⟨g, hg, _⟩; exact hw g hg
  cases ho : s.out with
  | cons o l =>
    by_cases hq : s.sys.cq.length < cfg.capC
    · exact ⟨_, ⟨⟨_, _, _, .send o l ho hq, Nat.le_refl _⟩, spins_loop rfl⟩, rfl⟩
    · cases hcq : s.sys.cq with
      | nil => rw [hcq] at hq; exact absurd hC hq
      | cons ei q =>
        exact ⟨_, ⟨.go (.spawn ei q hcq) trivial, spins_loop rfl⟩, rfl⟩
  | nil =>
    cases hl : s.w.loop with
    | idle =>
      cases hp : s.pk with
      | nil => exact absurd ⟨hp, hl, ho⟩ hne
      | cons x pk' =>
        obtain ⟨g, l⟩ := x
        exact ⟨_, ⟨.of (.take g l pk' hl hp ho) rfl, quiet (by intro g hg; rw [hl] at hg; cases hg)⟩, rfl⟩
    | got g => exact ⟨_, ⟨.of (.again g true hl ho) rfl, quiet (by intro g hg; rw [hl] at hg; cases hg)⟩, rfl⟩
    | st g =>
      obtain ⟨w', hw'⟩ := Dcw.loopstate_isSome h.sane {} {}
      exact ⟨_, ⟨.of (.state g {} {} w' hl hw') rfl, Dcw.loopstate_good h.sane hl hw'⟩, rfl⟩

/-- The operation is done with the tree. -/
theorem ends {cfg : Sched.Cfg} {s : WSt} (h : Live s) {r : Sched.Req} {t : St} (hp : s.plan = some (r, t)) (ht : s.todo = []) (hc : s.caller = .idle) :
    ∃ s', Calm cfg s s' ∧ s'.plan = none := by
  obtain ⟨_, _, i, hm⟩ := h.plan r t hp
  obtain ⟨a, b, hab⟩ := List.append_of_mem hm
  exact ⟨_, ⟨⟨_, _, _, .effect i r a b t hab hp ht hc, by simp [hab]⟩, spins_loop rfl⟩, rfl⟩

/-- The state with the other guess of the outcome of the call that is due or under way. -/
def WSt.otherwise (s : WSt) : WSt :=
  match s.caller, s.todo with
  | .moving p e ok, _ => { s with caller := .moving p e (!ok) }
  | .idle, (c, ok) :: rest => { s with todo := (c, !ok) :: rest }
  | .idle, [] => s

theorem progress {cfg : Sched.Cfg} (hC : 0 < cfg.capC) (hR : 0 < cfg.capR) {s : WSt} (h : Live s) (hne : ¬ s.Rest) :
    (∃ s', Inner cfg s s') ∨ (∃ s', Inner cfg s.otherwise s') ∨ s.Panics := by
  by_cases hlp : s.pk = [] ∧ s.w.loop = .idle ∧ s.out = []
  swap
  · obtain ⟨s', h1, _⟩ := loop_step (cfg := cfg) hC h hlp; exact .inl ⟨s', h1.1⟩
  cases hca : s.caller with
  | moving p e ok =>
    by_cases hok : ok = (Dcw.watch s.w p e true {} {}).2
    · exact .inl ⟨_, .of (.arrive p e {} {} (by rw [hca, ← hok])) rfl⟩
    · have hok : (!ok) = (Dcw.watch s.w p e true {} {}).2 := by
        revert hok; generalize (Dcw.watch s.w p e true {} {}).2 = x; cases ok <;> cases x <;> simp
      have he : s.otherwise = { s with caller := .moving p e (!ok) } := by unfold WSt.otherwise; rw [hca]
      rw [he]
      exact .inr (.inl ⟨_, .of (.arrive p e {} {} (by show Caller.moving p e (!ok) = _; rw [hok])) rfl⟩)
  | idle =>
  cases ht : s.todo with
  | cons x rest =>
    obtain ⟨c, ok⟩ := x
    rcases ha : ans s.w c with _ | ⟨b, w'⟩
    · obtain ⟨p, old, nw, f, k1, k2⟩ := ans_none ha
      exact .inr (.inr (.inl ⟨hca, c, p, old, nw, f, ok, rest, k1, ht, k2⟩))
    by_cases hok : ok = b
    · subst hok
      obtain ⟨s₁, _, h1, _⟩ := serve (cfg := cfg) hca ht ha
      exact .inl ⟨s₁, h1.1⟩
    · have hok : (!ok) = b := by revert hok; cases ok <;> cases b <;> simp
      have he : s.otherwise = { s with todo := (c, !ok) :: rest } := by unfold WSt.otherwise; rw [hca, ht]
      obtain ⟨s₁, _, h1, _⟩ := serve (cfg := cfg) (s := { s with todo := (c, !ok) :: rest }) (c := c) (rest := rest) (b := b) (w' := w') hca (by rw [hok]) ha
      rw [he]
      exact .inr (.inl ⟨s₁, h1.1⟩)
  | nil =>
  cases hp : s.plan with
  | some x => obtain ⟨s', h1, _⟩ := ends (cfg := cfg) h hp ht hca; exact .inl ⟨s', h1.1⟩
  | none =>
  rcases Sched.progress_inner hC hR h.os (fun hi => hne ⟨hi, hlp.1, hlp.2.1, hlp.2.2, hp, ht, hca⟩) with ⟨l, s', h1, h2⟩ | ⟨i, r, hm⟩ | ⟨ei, hm⟩
  · exact .inl ⟨_, .go h1 h2⟩
  · rcases begins (cfg := cfg) h hp hm with hp | ⟨ops, t, new, _, _, hs⟩
    · exact .inr (.inr hp)
    · exact .inl ⟨_, .of hs rfl⟩
  · rw [h.hand.2.1] at hm; cases hm

/-! #### Termination -/

def callerw : Caller → Nat
  | .idle => 0
  | _ => 1

def loopw : Dcw.Loop → Nat
  | .idle => 0
  | .got _ => 2
  | .st _ => 1

/-- The records that wait. -/
def recs (pk : List (Nat × List Chg)) : Nat := (pk.map fun x => x.2.length).sum

theorem recs_append (a b : List (Nat × List Chg)) : recs (a ++ b) = recs a + recs b := by simp [recs]

theorem recs_more (w w' : Dcw.St) : recs (more w w') = 0 := by
  unfold recs more
  rw [List.map_map]
  induction w'.queue.drop w.queue.length with
  | nil => rfl
  | cons g l ih => simpa using ih

/-- What is left to do. -/
def WSt.measure (s : WSt) : Nat × Nat × Nat × Nat × Nat × Nat :=
  (2 * (18 * recs s.pk + 9 * s.out.length + s.sys.work) + (if s.plan = none then 1 else 0), 2 * s.todo.length + callerw s.caller,
    Dcw.waits s.w, Dcw.opens s.w, 3 * s.pk.length + loopw s.w.loop, s.sys.left)

theorem WStep.decreases {cfg : Sched.Cfg} {rel : Bool} {s s' : WSt} {o : List ROp} {wo : List Dcw.Op} {g : List (Key × EventInfo)} (h : Live s)
    (hs : WStep cfg rel s o wo [] g s') (hc : s'.sys.calls.length ≤ s.sys.calls.length) (hsp : ¬ Dcw.Spins s.w s'.w) : Lex6 s'.measure s.measure := by
  generalize hreps : ([] : List Note) = reps at hs
  have call : ∀ {w' : Dcw.St} {todo : List (Call × Bool)} {ca : Caller} {log : Log}, 2 * todo.length + callerw ca < 2 * s.todo.length + callerw s.caller →
      Lex6 (WSt.measure { s with w := w', pk := s.pk ++ more s.w w', todo := todo, caller := ca, log := log }) s.measure := by
    intro w' todo ca log hlt
    refine .inr ⟨?_, .inl hlt⟩
    simp only [WSt.measure, recs_append, recs_more]
    omega
  cases hs with
  | go l sys' htr hfree =>
    have henv := htr.calls_env hc (by rintro evs rfl; exact hfree)
    rcases htr.decreases L h.inv henv with hd | ⟨hd1, hd2⟩
    · exact .inl (by simp only [WSt.measure]; omega)
    · exact .inr ⟨by simp only [WSt.measure]; omega, .inr ⟨rfl, .inr ⟨rfl, .inr ⟨rfl, .inr ⟨rfl, hd2⟩⟩⟩⟩⟩
  | complete => cases hreps
  | take g l pk' hw hp ho =>
    obtain ⟨e1, e2, e3, e4⟩ := Dcw.take_same s.w
    have enw : (Dcw.take s.w).nw = s.w.nw := by
      unfold Dcw.take; split
      · split <;> rfl
      · rfl
    have hl : loopw (Dcw.take s.w).loop ≤ 2 := by generalize (Dcw.take s.w).loop = x; cases x <;> simp [loopw]
    have hev : (if (s.w.grips g).linked = true then events (s.w.grips g) l else []).length ≤ 2 * l.length := by
      split
      · exact events_length _ l
      · simp
    have hA : 18 * recs pk' + 9 * (if (s.w.grips g).linked = true then events (s.w.grips g) l else []).length ≤ 18 * recs s.pk + 9 * s.out.length := by
      rw [hp, ho]; simp only [recs, List.map_cons, List.sum_cons, List.length_nil]; omega
    have h5 : 3 * pk'.length + loopw (Dcw.take s.w).loop < 3 * s.pk.length + loopw s.w.loop := by
      rw [hp, hw, List.length_cons, show loopw .idle = 0 from rfl]; omega
    rcases Nat.lt_or_eq_of_le hA with hA | hA
    · exact .inl (by simp only [WSt.measure]; omega)
    · refine .inr ⟨by simp only [WSt.measure]; omega, .inr ⟨rfl, .inr ⟨Dcw.waits_same enw (by intro v; rw [e3]), .inr ⟨?_, .inl h5⟩⟩⟩⟩
      exact Dcw.opens_eq e2 (by intro g; rw [e1])
  | send o l ho hq =>
    left
    simp only [WSt.measure, ho, Sched.State.work, List.length_append, List.length_cons, List.length_nil]
    omega
  | again g ok hw ho =>
    obtain ⟨r1, r2, r3, r4, r5, r6, r7, _, _⟩ := Dcw.readDirChanges_rest s.w g ok
    have he : Dcw.again s.w ok = { (Dcw.readDirChanges s.w g ok).1 with loop := .st g } := by unfold Dcw.again; rw [hw]
    refine .inr ⟨rfl, .inr ⟨rfl, .inr ⟨?_, .inr ⟨?_, .inl ?_⟩⟩⟩⟩
    · show Dcw.waits (Dcw.again s.w ok) = _
      rw [he]; exact Dcw.waits_same r3 (by intro v; show ((Dcw.readDirChanges s.w g ok).1.wds v).state = _; rw [r4])
    · show Dcw.opens (Dcw.again s.w ok) = _
      rw [he]; exact Dcw.opens_eq r2 (by intro v; simp only [r1])
    · show 3 * s.pk.length + loopw (Dcw.again s.w ok).loop < 3 * s.pk.length + loopw s.w.loop
      rw [he, hw]; simp [loopw]
  | state g a0 a1 w' hw hl =>
    obtain ⟨hi, hf⟩ := Dcw.loopstate_falls h.sane hw hl
    refine .inr ⟨?_, .inr ⟨rfl, ?_⟩⟩
    · simp only [WSt.measure, recs_append, recs_more]; omega
    · rcases hf with hf | ⟨hf1, hf | ⟨hf2, hf3⟩⟩ | hf
      · exact .inl hf
      · exact .inr ⟨hf1, .inl hf⟩
      · refine .inr ⟨hf1, .inr ⟨hf2, .inl ?_⟩⟩
        show 3 * (s.pk ++ more s.w w').length + loopw w'.loop < 3 * s.pk.length + loopw s.w.loop
        have : more s.w w' = [] := by unfold more; rw [hf3]; simp
        rw [this, hi, hw]; simp [loopw]
      · exact absurd hf hsp
  | plan r ops' t' new i hr hp ht hn => exact .inl (by simp [WSt.measure, hp])
  | watch c p e f a0 a1 rest ho hca ht | unwatch c p gone rest ho hca ht | rewatch c p old new f w' ok rest ho hca he ht =>
    exact call (by rw [ht]; simp)
  | leave p p' old new gone ok rest hp hca ht hu => exact call (by rw [ht, hca]; simp [callerw]; omega)
  | arrive p e a0 a1 hca => exact call (by rw [hca]; simp [callerw])
  | refuse p p' old new rest hp hca ht hu => exact .inr ⟨rfl, .inl (by simp [WSt.measure, ht])⟩
  | effect i r a b t' hcalls hp ht hca =>
    left
    simp [WSt.measure, hp, Sched.State.work, hcalls, Sched.Call.w]
    omega

theorem Inner.decreases {cfg : Sched.Cfg} {s s' : WSt} (h : Live s) (hs : Inner cfg s s') (hsp : ¬ Dcw.Spins s.w s'.w) : Lex6 s'.measure s.measure := by
  obtain ⟨o, wo, g, h1, h2⟩ := hs
  exact h1.decreases h h2 hsp

theorem Inner.live {cfg : Sched.Cfg} {s s' : WSt} (h : Live s) (hs : Inner cfg s s') : Live s' := by
  obtain ⟨o, wo, g, h1, h2⟩ := hs
  exact h.step h1

/-! #### Everything is done in the end -/

theorem many {cfg : Sched.Cfg} {s s' : WSt} (h : Live s) (hs : Relation.ReflTransGen (Calm cfg) s s') :
    Live s' ∧ (s' = s ∨ Relation.TransGen Lex6 s'.measure s.measure) := by
  induction hs with
  | refl => exact ⟨h, .inl rfl⟩
  | tail _ h2 ih =>
    obtain ⟨g1, g3⟩ := ih
    refine ⟨h2.1.live g1, .inr ?_⟩
    rcases g3 with rfl | g3
    · exact .single (h2.1.decreases g1 h2.2)
    · exact .head (h2.1.decreases g1 h2.2) g3

/-- As long as no operation is at the watcher, there is a way on after which this is so again. -/
theorem onward {cfg : Sched.Cfg} (hC : 0 < cfg.capC) (hR : 0 < cfg.capR) {s : WSt} (h : Live s) (hp : s.plan = none) (hne : ¬ s.Rest) :
    (∃ s', Relation.ReflTransGen (Calm cfg) s s' ∧ s'.Panics) ∨ ∃ s₁ s', Calm cfg s s₁ ∧ Relation.ReflTransGen (Calm cfg) s₁ s' ∧ s'.plan = none := by
  by_cases hlp : s.pk = [] ∧ s.w.loop = .idle ∧ s.out = []
  swap
  · obtain ⟨s', h1, h2⟩ := loop_step (cfg := cfg) hC h hlp; exact .inr ⟨s', s', h1, .refl, h2.trans hp⟩
  obtain ⟨ht, hca⟩ := h.rest hp
  rcases Sched.progress_inner hC hR h.os (fun hi => hne ⟨hi, hlp.1, hlp.2.1, hlp.2.2, hp, ht, hca⟩) with ⟨l, s', h1, h2⟩ | ⟨i, r, hm⟩ | ⟨ei, hm⟩
  · exact .inr ⟨_, _, ⟨.go h1 h2, spins_loop rfl⟩, .refl, hp⟩
  · rcases begins (cfg := cfg) h hp hm with hp | ⟨ops, t, new, htold, hnew, hs⟩
    · exact .inl ⟨s, .refl, hp⟩
    · obtain ⟨new', h1, h2⟩ := told_right htold
      obtain rfl : new' = new := List.append_cancel_right (h1.symm.trans hnew)
      have hb : Calm cfg s _ := .of hs rfl rfl
      obtain ⟨s', g1, g2, g3 | ⟨g3, g4, g5⟩⟩ := h2 { s with plan := some (r, t), todo := new'.reverse } cfg rfl hca [] (by simp)
      · exact .inl ⟨s', .head hb g1, .inl g3⟩
      · have hl : Live s' := (many (h.step hs) g1).1
        obtain ⟨s'', k1, k2⟩ := ends (cfg := cfg) hl (r := r) (t := t) g2.2 g4 g3
        exact .inr ⟨_, s'', hb, g1.tail k1, k2⟩
  · rw [h.hand.2.1] at hm; cases hm

theorem drains {cfg : Sched.Cfg} (hC : 0 < cfg.capC) (hR : 0 < cfg.capR) {s : WSt} (h : Live s) (hp : s.plan = none) :
    ∃ s', Relation.ReflTransGen (Calm cfg) s s' ∧ (s'.Rest ∨ s'.Panics) := by
  have key : ∀ m, ∀ s : WSt, s.measure = m → Live s → s.plan = none →
      ∃ s', Relation.ReflTransGen (Calm cfg) s s' ∧ (s'.Rest ∨ s'.Panics) := by
    intro m
    induction m using lex6_wf.transGen.induction with
    | _ m ih =>
      intro s hm h hp
      by_cases hr : s.Rest
      · exact ⟨s, .refl, .inl hr⟩
      rcases onward (cfg := cfg) hC hR h hp hr with ⟨s', hs, hpan⟩ | ⟨s₁, s', h1, h2, h3⟩
      · exact ⟨s', hs, .inr hpan⟩
      have h4 := Relation.ReflTransGen.head h1 h2
      obtain ⟨g1, _⟩ := many h h4
      have hlt : Relation.TransGen Lex6 s'.measure m := by
        obtain ⟨_, g3⟩ := many (h1.1.live h) h2
        rw [← hm]
        rcases g3 with rfl | g3
        · exact .single (h1.1.decreases h h1.2)
        · exact g3.tail (h1.1.decreases h h1.2)
      obtain ⟨s'', k1, k2⟩ := ih _ hlt s' rfl g1 h3
      exact ⟨s'', h4.trans k1, k2⟩
  exact key _ s rfl h hp

/-- C110, Windows.  In every state of the program in which something is under way, something can happen without help from users or the kernel's
reports: a goroutine takes a step, or the call of the watcher that is due or under way ends with the other outcome than was guessed, or a Watch or a call of the
watcher panics.  If this goes on for ever, then the loop spins again and again: each time it opens the first of the two handles of a directory whose set was
changed, fails to open the second and closes the first, by which it wakes up itself.  From every state in which no operation is at the watcher everything
can be brought to its end without such a failure, unless there is a panic.  What is missing of the full statement: that the loop does not spin; see `C110_windows_refuted`. -/
theorem C110_windows_partial {cfg : Sched.Cfg} (hC : 0 < cfg.capC) (hR : 0 < cfg.capR) {safe : Bool} {ops : List ROp} {wops : List Dcw.Op} {reps : List Note}
    {sg : List (Key × EventInfo)} {s : WSt} (h : WRun cfg safe [] [] WSt.init ops wops reps sg s) :
    (¬ s.Rest → (∃ s', Inner cfg s s') ∨ (∃ s', Inner cfg s.otherwise s') ∨ s.Panics) ∧
    (∀ f : Nat → WSt, f 0 = s → (∀ n, Inner cfg (f n) (f (n + 1))) → ∀ N, ∃ n ≥ N, Dcw.Spins (f n).w (f (n + 1)).w) ∧
    (s.plan = none → ∃ s', Relation.ReflTransGen (Calm cfg) s s' ∧ (s'.Rest ∨ s'.Panics)) := by
  have hl : Live s := h.live .init
  refine ⟨progress hC hR hl, fun f h0 hf N => ?_, drains hC hR hl⟩
  have hlive : ∀ n, Live (f n) := by
    intro n
    induction n with
    | zero => rw [h0]; exact hl
    | succ n ih => exact (hf n).live ih
  apply Classical.byContradiction
  intro hno
  refine no_descent lex6_wf (fun n => (f (N + n)).measure) fun n => ?_
  refine (hf (N + n)).decreases (hlive _) fun hsp => hno ⟨N + n, Nat.le_add_right _ _, hsp⟩

/-- `loopstate` does not panic, in any execution (watcher_readdcw.go:394-396). -/
theorem C110_loopstate {cfg : Sched.Cfg} {safe : Bool} {ops : List ROp} {wops : List Dcw.Op} {reps : List Note} {sg : List (Key × EventInfo)} {s : WSt}
    (h : WRun cfg safe [] [] WSt.init ops wops reps sg s) (a0 a1 : Dcw.Ans) : Dcw.loopstate s.w a0 a1 ≠ none := by
  obtain ⟨w', hw'⟩ := Dcw.loopstate_isSome (h.live .init).sane a0 a1
  rw [hw']; simp

end Win
end Verif
