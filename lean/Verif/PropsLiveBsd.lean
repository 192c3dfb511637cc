/-
The whole program does not hang (C110): the BSDs.
-/
import Verif.PropsLivePlain
import Verif.PropsBsd
import Mathlib.Data.Set.Card

namespace Verif
open NonRec (GoodPath)

/-! ### The tables of the watcher -/

namespace Trg

/-- Only paths without empty components exist, and names are not empty.  (The root directory is left out: no call is about it, as the requests are not.) -/
structure Env.Named (E : Env) : Prop where
  stat : ∀ p, E.stat p ≠ none → GoodPath p
  list : ∀ p l, E.list p = .ok l → ∀ x ∈ l, x.1 ≠ []

/-- Entries are good; and, where `Del` ends the native watch, native watches belong to entries. -/
structure Tidy (b : Bool) (s : St) : Prop where
  nat : b = true → ∀ q, s.nat.get? q ≠ none → s.lkp.get? q ≠ none
  good : ∀ q, s.lkp.get? q ≠ none → GoodPath q

theorem join_good {p : Path} {c : Comp} (hp : GoodPath p) (hc : c ≠ []) : GoodPath (join p c) := by
  unfold join
  obtain ⟨h1, h2⟩ := hp
  split
  · next h => subst h; simp at h2
  · exact ⟨by simp, by simp [h2, hc]⟩

variable {N : Native} {E : Env} {b : Bool}

theorem Tidy.init : Tidy b {} := ⟨fun _ _ h => absurd rfl h, fun _ h => absurd rfl h⟩

theorem Tidy.del (hN : b = true → N.delEnds = true) {s : St} (h : Tidy b s) (p : Path) (w : W) : Tidy b (del N s p w) := by
  constructor
  · intro hb q
    simp only [Trg.del, hN hb, if_true, GoMap.get?_del]
    split
    · exact fun h => absurd rfl h
    · exact h.nat hb q
  · intro q
    simp only [Trg.del, GoMap.get?_del]
    split
    · exact fun h => absurd rfl h
    · exact h.good q

theorem Tidy.set {s s' : St} (h : Tidy b s) {p : Path} (hp : GoodPath p) (w : W) (hn : s'.nat = s.nat ∨ s'.nat = s.nat.del p ∨ ∃ e, s'.nat = s.nat.set p e)
    (hl : s'.lkp = s.lkp.set p w) : Tidy b s' := by
  constructor
  · intro hb q hq
    rw [hl, GoMap.get?_set]
    split
    · simp
    · next hne =>
      rcases hn with hn | hn | ⟨e, hn⟩ <;> rw [hn] at hq
      · exact h.nat hb q hq
      · rw [GoMap.get?_del, if_neg hne] at hq; exact h.nat hb q hq
      · rw [GoMap.get?_set, if_neg hne] at hq; exact h.nat hb q hq
  · intro q hq
    rw [hl, GoMap.get?_set] at hq
    split at hq
    · next he => exact he ▸ hp
    · exact h.good q hq

theorem Tidy.singlewatch {s : St} (h : Tidy b s) {p : Path} (hp : GoodPath p) (e : Event) (m : Mode) (d : Bool) : Tidy b (singlewatch N E s p e m d).1 := by
  unfold Trg.singlewatch
  split
  · split
    · exact h
    · exact h
    · dsimp only
      split
      · exact h.set hp _ (.inr (.inr ⟨_, rfl⟩)) rfl
      · exact ⟨h.nat, h.good⟩
  · dsimp only
    split
    · exact h.set hp _ (.inr (.inr ⟨_, rfl⟩)) rfl
    · exact h.set hp _ (.inl rfl) rfl

theorem Tidy.singleunwatch (hN : b = true → N.delEnds = true) {s : St} (h : Tidy b s) (p : Path) (m : Mode) : Tidy b (singleunwatch N E s p m).1 := by
  unfold Trg.singleunwatch
  split
  · exact h
  · next w hw =>
    have hp := h.good p (by rw [hw]; simp)
    dsimp only
    split
    · have h1 : Tidy b { s with lkp := s.lkp.set p (w.sub m), nat := s.nat.del p } := h.set hp _ (.inr (.inl rfl)) rfl
      split
      · have h2 := h1.singlewatch (N := N) (E := E) hp ((w.sub m).eNonDir ||| (w.sub m).eDir)
          (if (w.sub m).eNonDir ≠ 0 then Mode.ndir else Mode.dir) (w.sub m).isDir
        revert h2
        generalize Trg.singlewatch N E _ p _ _ _ = r
        obtain ⟨s', r⟩ := r
        intro h2
        cases r <;> exact h2
      · exact h1.del hN _ _
    · exact h.set hp _ (.inl rfl) rfl

theorem walkLoop_keeps {σ : Type} (Q : σ → Prop) {f : σ → Comp × Bool → σ × Res} : ∀ (l : List (Comp × Bool)) (s : σ),
    (∀ s, ∀ x ∈ l, Q s → Q (f s x).1) → Q s → Q (walkLoop f s l).1
  | [], s, _, h => h
  | x :: l, s, hf, h => by
    have h1 := hf s x (by simp) h
    unfold walkLoop
    split
    · next s' he => exact walkLoop_keeps Q l s' (fun s y hy => hf s y (by simp [hy])) (by rw [he] at h1; exact h1)
    · next s' r _ he => rw [he] at h1; exact h1

theorem walk_keeps {σ : Type} (Q : σ → Prop) {p : Path} {f : σ → Comp × Bool → σ × Res} {s : σ} (hE : E.Named)
    (hf : ∀ s, ∀ x : Comp × Bool, x.1 ≠ [] → Q s → Q (f s x).1) (h : Q s) : Q (walk E p f s).1 := by
  unfold walk
  split
  · exact h
  · next l hl => exact walkLoop_keeps Q l s (fun s x hx => hf s x (hE.list p l hl x hx)) h

theorem Tidy.watch (hE : E.Named) {s : St} (h : Tidy b s) {p : Path} (hp : GoodPath p) (e : Event) (d : Bool) : Tidy b (watch N E s p e d).1 := by
  have h1 := h.singlewatch (N := N) (E := E) hp e .dir d
  unfold Trg.watch
  split
  · next he => rw [he] at h1; exact h1
  · next he => rw [he] at h1; exact h1
  · next s' r _ _ he =>
    rw [he] at h1
    split
    · refine walk_keeps (Tidy b) hE (fun s x hx h => ?_) h1
      have h2 := h.singlewatch (N := N) (E := E) (join_good hp hx) e .ndir x.2
      unfold watchKid
      split
      · next he => rw [he] at h2; exact h2
      · exact h2
    · exact h1

theorem Tidy.unwatch (hN : b = true → N.delEnds = true) (hE : E.Named) {s : St} (h : Tidy b s) (p : Path) (d : Bool) : Tidy b (unwatch N E s p d).1 := by
  unfold Trg.unwatch
  split
  · have h1 : Tidy b (walk E p (unwatchKid N E p) s).1 := by
      refine walk_keeps (Tidy b) hE (fun s x hx h => ?_) h
      have h2 := h.singleunwatch (N := N) (E := E) hN (join p x.1) .ndir
      unfold unwatchKid
      split
      · next he => rw [he] at h2; exact h2
      · exact h2
    split
    · next he => rw [he] at h1; exact h1.singleunwatch hN _ _
    · exact h1
  · exact h.singleunwatch hN _ _

theorem Tidy.Watch (hE : E.Named) {s : St} (h : Tidy b s) (p : Path) (e : Event) : Tidy b (Watch N E s p e).1 := by
  unfold Trg.Watch
  split
  · exact h
  · next hd => exact h.watch hE (hE.stat p (by rw [hd]; simp)) _ _

theorem Tidy.Unwatch (hN : b = true → N.delEnds = true) (hE : E.Named) {s : St} (h : Tidy b s) (p : Path) : Tidy b (Unwatch N E s p).1 := by
  unfold Trg.Unwatch
  split
  · exact h
  · exact h.unwatch hN hE _ _

theorem Tidy.Rewatch (hN : b = true → N.delEnds = true) (hE : E.Named) {s : St} (h : Tidy b s) (p : Path) (e : Event) : Tidy b (Rewatch N E s p e).1 := by
  unfold Trg.Rewatch
  split
  · exact h
  · next d hd =>
    have h1 := h.unwatch (N := N) hN hE p d
    split
    · next he => rw [he] at h1; exact h1.watch hE (hE.stat p (by rw [hd]; simp)) _ _
    · next he => rw [he] at h1; exact h1

theorem Tidy.serves (hN : b = true → N.delEnds = true) (hE : E.Named) {s s' : St} (h : Tidy b s) {c : Call} {ok : Bool} (hs : Serves N E s c ok s') : Tidy b s' := by
  cases hs with
  | watch => exact h.Watch hE _ _
  | unwatch => exact h.Unwatch hN hE _
  | rewatch => exact h.Rewatch hN hE _ _

/-- State and events. -/
def Neat (b : Bool) (r : St × List Ev) : Prop := Tidy b r.1 ∧ ∀ ev ∈ r.2, GoodPath ev.path

theorem moved_neat (hN : b = true → N.delEnds = true) {p : Path} {w : W} {e : Event} : ∀ (l : List Path) {s : St}, (∀ q ∈ l, GoodPath q) → Tidy b s → Neat b (moved N E p w e s l)
  | [], s, _, h => ⟨h, by intro ev hev; cases hev⟩
  | q :: l, s, hl, h => by
    unfold moved
    split
    · have h1 := moved_neat hN (p := p) (w := w) (e := e) l (fun q hq => hl q (by simp [hq])) (h.singleunwatch (N := N) (E := E) hN q .both)
      refine ⟨h1.1, fun ev hev => ?_⟩
      rcases List.mem_append.1 hev with hev | hev
      · split at hev
        · simp only [List.mem_singleton] at hev; subst hev; exact hl q (by simp)
        · cases hev
      · exact h1.2 ev hev
    · exact moved_neat hN l (fun q hq => hl q (by simp [hq])) h

theorem scanKid_neat {p : Path} (hp : GoodPath p) {w : W} {n : St × List Ev} (h : Neat b n) {x : Comp × Bool} (hx : x.1 ≠ []) : Neat b (scanKid N E p w n x).1 := by
  have hq := join_good hp hx
  have h1 := h.1.singlewatch (N := N) (E := E) hq w.eDir .ndir x.2
  have one : ∀ {b : Prop} [Decidable b] {r : Event}, ∀ ev ∈ n.2 ++ (if b then [(⟨join p x.1, r, x.2⟩ : Ev)] else []), GoodPath ev.path := by
    intro b _ r ev hev
    rcases List.mem_append.1 hev with hev | hev
    · exact h.2 ev hev
    · split at hev
      · simp only [List.mem_singleton] at hev; subst hev; exact hq
      · cases hev
  unfold scanKid
  dsimp only
  split <;> (next he => rw [he] at h1; first | exact ⟨h1, one⟩ | exact ⟨h1, h.2⟩)

theorem renew_tidy (hN : b = true → N.delEnds = true) {s : St} (h : Tidy b s) {p : Path} {w : W} (hw : s.lkp.get? p = some w) (ge : Event) : Tidy b (renew N E s p w ge) := by
  unfold Trg.renew
  split
  · split
    · exact h
    · split
      · refine ⟨fun hb q hq => ?_, h.good⟩
        simp only [GoMap.get?_set] at hq
        split at hq
        · next he => subst he; rw [hw]; simp
        · exact h.nat hb q hq
      · exact h.del hN _ _
  · exact h

theorem Tidy.process (hN : b = true → N.delEnds = true) (hE : E.Named) {s : St} (h : Tidy b s) (p : Path) (ge : Event) : Neat b (process N E s p ge) := by
  unfold Trg.process
  split
  · exact ⟨h, by intro ev hev; cases hev⟩
  · next w hw =>
    have hp := h.good p (by rw [hw]; simp)
    have h1 := renew_tidy (N := N) (E := E) hN h hw ge
    dsimp only
    split
    · exact ⟨h1, by intro ev hev; cases hev⟩
    · have h2 : Neat b (if w.isDir = true then dir N E (renew N E s p w ge) p w (decode N.nat2not ge w.all) ge
          else (renew N E s p w ge, [⟨p, decode N.nat2not ge w.all, w.isDir⟩])) := by
        split
        · unfold dir
          split
          · have h3 : Neat b (if ge &&& N.nRename ≠ 0 then
                moved N E p w (decode N.nat2not ge w.all) (renew N E s p w ge) (renew N E s p w ge).lkp.keys else (renew N E s p w ge, [])) := by
              split
              · refine moved_neat hN _ (fun q hq => ?_) h1
                obtain ⟨v, hv⟩ := (GoMap.mem_keys_iff _ _).1 hq
                exact h1.good q (by rw [hv]; simp)
              · exact ⟨h1, by intro ev hev; cases hev⟩
            refine ⟨h3.1.del hN _ _, fun ev hev => ?_⟩
            rcases List.mem_cons.1 hev with rfl | hev
            · exact hp
            · exact h3.2 ev hev
          · split
            · refine walk_keeps (Neat b) hE (fun n x hx hn => scanKid_neat hp hn hx) ?_
              exact ⟨h1, by intro ev hev; cases hev⟩
            · exact ⟨h1, by intro ev hev; cases hev⟩
        · exact ⟨h1, by simpa using hp⟩
      split
      · exact ⟨h2.1.del hN _ _, h2.2⟩
      · exact h2

end Trg

namespace Bsd
open Trg (kqueue Env Tidy Neat)
open Linux (Free sigs)
open NonRec (Op)

abbrev L : Sched.Laws Y := Sched.plainLaws P factsP

/-- Nothing is going on in the program. -/
def KSt.Rest (s : KSt) : Prop := s.sys.Idle ∧ (∀ q, s.pend q = 0) ∧ s.hand = none ∧ s.out = [] ∧ s.plan = none ∧ s.todo = []

/-- A step inside of the program: nothing happens to files and no user calls.  Calls of the watcher may fail. -/
def Inner (cfg : Sched.Cfg) (X : Outside) (s s' : KSt) : Prop := ∃ o k g, KStep cfg X s o k [] g s' ∧ s'.sys.calls.length ≤ s.sys.calls.length

/-- All answers are about paths and names as the OS has them. -/
def Outside.Named (X : Outside) : Prop := ∀ E, X.env E → E.Named

/-- The invariant. -/
structure Live (s : KSt) : Prop where
  inv : Sched.Inv L s.sys
  os : s.sys.os = []
  pan : s.sys.tree.world.panicked = false
  plan : ∀ r t, s.plan = some (r, t) → Y.step s.sys.tree r t ∧ t.world.panicked = false ∧ s.Holds r
  rest : s.plan = none → s.todo = []
  plain : ∀ x ∈ s.todo, IsPlain x.1
  tidy : Tidy true s.w
  pend : ∀ q, s.pend q ≠ 0 → s.w.nat.get? q ≠ none
  out : ∀ o ∈ s.out, GoodPath o.path

theorem Live.init : Live KSt.init where
  inv := .init L
  os := rfl
  pan := rfl
  plan := by intro r t h; cases h
  rest := fun _ => rfl
  plain := by intro x h; cases h
  tidy := .init
  pend := fun q h => absurd rfl h
  out := by intro o h; cases h

theorem Live.holds {s : KSt} (h : Live s) {r : Sched.Req} (hr : s.Holds r) : Y.okReq r := by
  rcases hr with ⟨i, hm⟩ | ⟨ei, hm, rfl⟩
  · exact h.inv.oks.calls _ hm
  · exact h.inv.oks.int ei (by simp [hm])

theorem holds_go {cfg : Sched.Cfg} {s : KSt} {l : Sched.Lab Sched.Req} {sys' : Sched.State Y} (h : Sched.Tr Y cfg s.sys l sys') (hl : Free l) {r : Sched.Req}
    (hr : s.Holds r) : ({ s with sys := sys' } : KSt).Holds r := by
  rcases hr with ⟨i, hm⟩ | ⟨ei, hm, rfl⟩
  · exact .inl ⟨i, h.keeps_locked (by rintro i r rfl; exact hl) hm⟩
  · exact .inr ⟨ei, h.keeps_int (by rintro r rfl; exact hl) hm, rfl⟩

theorem live_pend {w : Trg.St} {pend : Path → Event} : ∀ q, live w pend q ≠ 0 → w.nat.get? q ≠ none := by
  intro q hq hn
  exact hq (by simp only [live]; rw [if_pos hn])

theorem handle_neat {E : Env} (hE : E.Named) {w : Trg.St} (h : Tidy true w) (fd : Nat) (p : Path) (ge : Event) : Neat true (handle E w fd p ge) := by
  unfold handle
  split
  · exact Tidy.process (fun _ => rfl) hE h p ge
  · exact ⟨h, by intro ev hev; cases hev⟩

theorem Live.step {cfg : Sched.Cfg} {X : Outside} (hX : X.Named) {s s' : KSt} {o : List Op} {k : List (Verif.Call × Bool)} {r : List (Path × Event)}
    {g : List (Key × EventInfo)} (h : Live s) (hs : KStep cfg X s o k r g s') : Live s' := by
  obtain ⟨h1, h2, h3, h4, h5, h6, h7, h8, h9⟩ := h
  cases hs with
  | go l sys' htr hfree =>
    refine ⟨h1.tr htr, (Plain.free_os htr hfree).trans h2, (Plain.free_tree htr hfree) ▸ h3, ?_, h5, h6, h7, h8, h9⟩
    intro r t hp
    obtain ⟨g1, g2, g3⟩ := h4 r t hp
    refine ⟨?_, g2, holds_go htr hfree g3⟩
    simp only [Plain.free_tree htr hfree]; exact g1
  | change p fl m hx hm hf =>
    refine ⟨h1, h2, h3, h4, h5, h6, h7, fun q hq => ?_, h9⟩
    dsimp only at hq
    split at hq
    · next he => subst he; rw [hm]; simp
    · exact h8 q hq
  | wait p w hh ho hp hw =>
    refine ⟨h1, h2, h3, h4, h5, h6, h7, fun q hq => ?_, h9⟩
    dsimp only at hq
    split at hq
    · exact absurd rfl hq
    · exact h8 q hq
  | process E fd p ge hx hh =>
    have hn := handle_neat (hX E hx) h7 fd p ge
    refine ⟨h1, h2, h3, h4, h5, h6, hn.1, live_pend, fun o ho => ?_⟩
    obtain ⟨ev, hev, rfl⟩ := List.mem_map.1 ho
    exact hn.2 ev hev
  | send ei l hl hc hok =>
    have htr : Sched.Tr Y cfg { s.sys with os := [ei] } (.push ei) { s.sys with os := [], cq := s.sys.cq ++ [ei] } := .push ei [] rfl hc
    have hr : Sched.Tr Y cfg s.sys (.report [ei]) { s.sys with os := [ei] } := .report [ei] (by simpa using hok) h2
    have he : ({ s.sys with os := [], cq := s.sys.cq ++ [ei] } : Sched.State Y) = { s.sys with cq := s.sys.cq ++ [ei] } := by rw [← h2]
    exact ⟨he ▸ (h1.tr hr).tr htr, h2, h3, h4, h5, h6, h7, h8, fun o ho => h9 o (by rw [hl]; simp [ho])⟩
  | plan r ops t new hr hp ht hn =>
    have hm := Plain.steps_mild ht.1
    refine ⟨h1, h2, h3, ?_, (fun h => nomatch h), ?_, h7, h8, h9⟩
    · rintro r t ⟨⟩; exact ⟨Plain.plans_step ht, hm.pan.trans h3, hr⟩
    · obtain ⟨n, g1, g2⟩ := hm.plain
      obtain rfl : n = new := List.append_cancel_right (g1.symm.trans hn)
      intro x hx
      exact g2 x (by simpa using hx)
  | call E c ok rest w' hx ht hserv =>
    refine ⟨h1, h2, h3, h4, fun hp => absurd (h5 hp) (by rw [ht]; simp), fun x hx => h6 x (by rw [ht]; simp [hx]), h7.serves (fun _ => rfl) (hX E hx) hserv, live_pend, h9⟩
  | effect i r a b t hcalls hp ht =>
    have htr : Sched.Tr Y cfg s.sys (.effect i r) _ := .effect i r a b t hcalls (h4 _ _ hp).1 fun _ => h2
    exact ⟨h1.tr htr, h2, (h4 _ _ hp).2.1, (fun r t h => nomatch h), fun _ => ht, h6, h7, h8, h9⟩
  | intEffect ei t hi hp ht =>
    have htr : Sched.Tr Y cfg s.sys _ _ := .intEffect ei t hi (h4 _ _ hp).1 fun _ => h2
    exact ⟨h1.tr htr, h2, (h4 _ _ hp).2.1, (fun r t h => nomatch h), fun _ => ht, h6, h7, h8, h9⟩

theorem KRun.live {cfg : Sched.Cfg} {X : Outside} (hX : X.Named) {ops : List Op} {k : List (Verif.Call × Bool)} {r : List (Path × Event)}
    {g : List (Key × EventInfo)} {s s' : KSt} (h0 : Live s) (h : KRun cfg X s ops k r g s') : Live s' := by
  induction h with
  | refl => exact h0
  | step _ hs ih => exact ih.step hX hs

/-! #### The answers of the watcher -/

/-- What the watcher answers, and the watcher afterwards. -/
def ans (E : Env) (w : Trg.St) : Verif.Call → Bool × Trg.St
  | .watch p e => (decide ((Trg.Watch kqueue E w p e).2 = .ok), (Trg.Watch kqueue E w p e).1)
  | .rewatch p _ new => (decide ((Trg.Rewatch kqueue E w p new).2 = .ok), (Trg.Rewatch kqueue E w p new).1)
  | .unwatch p => (decide ((Trg.Unwatch kqueue E w p).2 = .ok), (Trg.Unwatch kqueue E w p).1)
  | _ => (false, w)

theorem ans_serves {E : Env} (hE : ∀ p, E.opn p ≠ .skip) (w : Trg.St) {c : Verif.Call} (hc : IsPlain c) : Trg.Serves kqueue E w c (ans E w c).1 (ans E w c).2 := by
  cases c with
  | watch p e => exact .watch p e (hE p)
  | rewatch p old new => exact .rewatch p old new (hE p)
  | unwatch p => exact .unwatch p (hE p)
  | _ => exact hc.elim

theorem Inner.of {cfg : Sched.Cfg} {X : Outside} {s s' : KSt} {o : List Op} {k : List (Verif.Call × Bool)} {g : List (Key × EventInfo)}
    (h : KStep cfg X s o k [] g s') (hs : s'.sys = s.sys) : Inner cfg X s s' := ⟨o, k, g, h, by rw [hs]⟩

/-- The rest of the state. -/
def Same (s s' : KSt) : Prop := s'.sys = s.sys ∧ s'.plan = s.plan

/-- The watcher after the calls of a log. -/
def replay (E : Env) (w : Trg.St) : Log → Trg.St
  | [] => w
  | (c, _) :: l => (ans E (replay E w l) c).2

/-- The oracle that answers as the watcher does. -/
def right (E : Env) (w : Trg.St) (base : Log) : Oracle := fun l c => (ans E (replay E w (l.take (l.length - base.length))) c).1

theorem told_right {X : Outside} {E : Env} (hE : X.env E) (hskip : ∀ p, E.opn p ≠ .skip) {w : Trg.St} {base b : Log} (h : Told (right E w base) base b) :
    ∃ new, b = new ++ base ∧ ((∀ x ∈ new, IsPlain x.1) → ∀ (s : KSt) (cfg : Sched.Cfg), s.w = w → ∀ rest, s.todo = new.reverse ++ rest →
      ∃ s', Relation.ReflTransGen (Inner cfg X) s s' ∧ Same s s' ∧ s'.todo = rest ∧ s'.w = replay E w new) := by
  induction h with
  | refl => exact ⟨[], rfl, fun _ s cfg hx rest ht => ⟨s, .refl, ⟨rfl, rfl⟩, ht, hx⟩⟩
  | @cons b c _ ih =>
    obtain ⟨new, rfl, ih⟩ := ih
    refine ⟨(c, Bsd.right E w base (new ++ base) c) :: new, rfl, fun hpl s cfg hx rest ht => ?_⟩
    obtain ⟨s', h1, h2, h3, h4⟩ := ih (fun x hx => hpl x (by simp [hx])) s cfg hx ((c, Bsd.right E w base (new ++ base) c) :: rest) (by rw [ht]; simp)
    have hr : Bsd.right E w base (new ++ base) c = (ans E s'.w c).1 := by rw [h4]; unfold Bsd.right; simp
    have hs : KStep cfg X s' [] [(c, (ans E s'.w c).1)] [] [] _ := .call E c _ rest _ hE (by rw [h3, hr]) (ans_serves hskip s'.w (hpl (c, Bsd.right E w base (new ++ base) c) (by simp)))
    exact ⟨_, h1.tail (.of hs rfl), h2, rfl, by rw [h4]; rfl⟩

/-! #### Progress -/

/-- An operation that holds the lock begins, with the answers that the watcher gives. -/
theorem begins {cfg : Sched.Cfg} {X : Outside} (hrel : X.rel = false) (E : Env) {s : KSt} (h : Live s) (hp : s.plan = none) {r : Sched.Req} (hm : s.Holds r) :
    ∃ ops t new, Told (right E s.w s.sys.tree.world.log) s.sys.tree.world.log t.world.log ∧ t.world.log = new ++ s.sys.tree.world.log ∧
      KStep cfg X s ops [] [] [] { s with plan := some (r, t), todo := new.reverse } := by
  obtain ⟨ops, t, h1, h2⟩ := Plain.begins (right E s.w s.sys.tree.world.log) s.sys.tree (h.holds hm)
  obtain ⟨new, hnew⟩ := h2.told.suffix
  exact ⟨ops, t, new, h2.told, hnew, .plan r ops t new hm hp (by rw [hrel]; exact h1) hnew⟩

theorem inner_free {l : Sched.Lab Sched.Req} (h : l.inner) : Free l := by cases l <;> first | trivial | exact h

theorem Inner.go {cfg : Sched.Cfg} {X : Outside} {s : KSt} {l : Sched.Lab Sched.Req} {sys' : Sched.State Y} (h : Sched.Tr Y cfg s.sys l sys') (hl : l.inner) :
    Inner cfg X s { s with sys := sys' } := ⟨_, _, _, .go l sys' h (inner_free hl), h.calls_le hl.env⟩

/-- The goroutine of the watcher goes on. -/
theorem monitor_step {cfg : Sched.Cfg} (hC : 0 < cfg.capC) {X : Outside} {E : Env} (hE : X.env E) {s : KSt} (h : Live s)
    (hb : ¬ ((∀ q, s.pend q = 0) ∧ s.hand = none ∧ s.out = [])) : ∃ s', Inner cfg X s s' ∧ s'.plan = s.plan := by
  cases hh : s.hand with
  | some x => obtain ⟨fd, p, ge⟩ := x; exact ⟨_, .of (.process E fd p ge hE hh) rfl, rfl⟩
  | none =>
  cases ho : s.out with
  | cons ei l =>
    by_cases hq : s.sys.cq.length < cfg.capC
    · exact ⟨_, ⟨_, _, _, .send ei l ho hq (h.out ei (by rw [ho]; simp)), Nat.le_refl _⟩, rfl⟩
    · cases hcq : s.sys.cq with
      | nil => rw [hcq] at hq; exact absurd hC hq
      | cons ei q => exact ⟨_, .go (.spawn ei q hcq) trivial, rfl⟩
  | nil =>
    have : ∃ q, s.pend q ≠ 0 := by
      by_contra hn
      exact hb ⟨fun q => by by_contra hq; exact hn ⟨q, hq⟩, hh, ho⟩
    obtain ⟨q, hq⟩ := this
    have := h.tidy.nat rfl q (h.pend q hq)
    cases hw : s.w.lkp.get? q with
    | none => exact absurd hw this
    | some w => exact ⟨_, .of (.wait q w hh ho hq hw) rfl, rfl⟩

/-- The operation is done with the tree. -/
theorem ends {cfg : Sched.Cfg} {X : Outside} {s : KSt} (h : Live s) {r : Sched.Req} {t : St} (hp : s.plan = some (r, t)) (ht : s.todo = []) :
    ∃ s', Inner cfg X s s' ∧ s'.plan = none := by
  obtain ⟨_, _, ⟨i, hm⟩ | ⟨ei, hm, rfl⟩⟩ := h.plan r t hp
  · obtain ⟨a, b, hab⟩ := List.append_of_mem hm
    exact ⟨_, ⟨_, _, _, .effect i r a b t hab hp ht, by simp [hab]⟩, rfl⟩
  · exact ⟨_, ⟨_, _, _, .intEffect ei t hm hp ht, Nat.le_refl _⟩, rfl⟩

/-- A goroutine of the tree goes on, or a request has the lock. -/
theorem tree_step {cfg : Sched.Cfg} (hC : 0 < cfg.capC) (hR : 0 < cfg.capR) {X : Outside} {s : KSt} (h : Live s) (hne : ¬ s.sys.Idle) :
    (∃ s', Inner cfg X s s' ∧ s'.plan = s.plan) ∨ ∃ r, s.Holds r := by
  rcases Sched.progress_inner hC hR h.os hne with ⟨l, s', h1, h2⟩ | ⟨i, r, hm⟩ | ⟨ei, hm⟩
  · exact .inl ⟨_, .go h1 h2, rfl⟩
  · exact .inr ⟨r, .inl ⟨i, hm⟩⟩
  · exact .inr ⟨_, .inr ⟨ei, hm, rfl⟩⟩

theorem progress {cfg : Sched.Cfg} (hC : 0 < cfg.capC) (hR : 0 < cfg.capR) {X : Outside} (hrel : X.rel = false) {E : Env} (hE : X.env E)
    (hskip : ∀ p, E.opn p ≠ .skip) {s : KSt} (h : Live s) (hne : ¬ s.Rest) :
    (∃ s', Inner cfg X s s') ∨ (∃ c ok rest s', s.todo = (c, ok) :: rest ∧ Inner cfg X { s with todo := (c, !ok) :: rest } s') := by
  by_cases hb : (∀ q, s.pend q = 0) ∧ s.hand = none ∧ s.out = []
  · cases ht : s.todo with
    | cons x rest =>
      obtain ⟨c, ok⟩ := x
      have hc := h.plain (c, ok) (by rw [ht]; simp)
      have hserv := ans_serves hskip s.w hc
      by_cases hok : ok = (ans E s.w c).1
      · subst hok
        exact .inl ⟨_, .of (.call E c _ rest _ hE ht hserv) rfl⟩
      · have hok : (!ok) = (ans E s.w c).1 := by
          revert hok; generalize (ans E s.w c).1 = x; cases ok <;> cases x <;> simp
        exact .inr ⟨c, ok, rest, _, rfl, .of (s := { s with todo := (c, !ok) :: rest }) (.call E c _ rest _ hE (by rw [hok]) hserv) rfl⟩
    | nil =>
    cases hp : s.plan with
    | some x => obtain ⟨s', h1, _⟩ := ends (cfg := cfg) (X := X) h hp ht; exact .inl ⟨s', h1⟩
    | none =>
    rcases tree_step (cfg := cfg) (X := X) hC hR h (fun hi => hne ⟨hi, hb.1, hb.2.1, hb.2.2, hp, ht⟩) with ⟨s', h1, _⟩ | ⟨r, hm⟩
    · exact .inl ⟨s', h1⟩
    · obtain ⟨ops, t, new, _, _, hs⟩ := begins (cfg := cfg) hrel E h hp hm
      exact .inl ⟨_, .of hs rfl⟩
  · obtain ⟨s', h1, _⟩ := monitor_step hC hE h hb
    exact .inl ⟨s', h1⟩

/-! #### Termination -/

/-- What is left to do. -/
noncomputable def KSt.measure (s : KSt) : Nat × Nat × Nat × Nat :=
  (2 * Set.ncard {q | s.pend q ≠ 0} + (if s.hand = none then 0 else 1), 2 * (9 * s.out.length + s.sys.work) + (if s.plan = none then 1 else 0),
    s.todo.length, s.sys.left)

theorem Live.finite {s : KSt} (h : Live s) : Set.Finite {q | s.pend q ≠ 0} := by
  refine (List.finite_toSet s.w.nat.keys).subset fun q hq => ?_
  have := h.pend q hq
  cases hv : s.w.nat.get? q with
  | none => exact absurd hv this
  | some v => exact (GoMap.mem_keys_iff _ _).2 ⟨v, hv⟩

theorem live_sub {w : Trg.St} {pend : Path → Event} : {q | live w pend q ≠ 0} ⊆ {q | pend q ≠ 0} := by
  intro q hq
  simp only [Set.mem_setOf_eq, live] at hq ⊢
  split at hq
  · exact absurd rfl hq
  · exact hq

theorem KStep.decreases {cfg : Sched.Cfg} {X : Outside} {s s' : KSt} {o : List Op} {k : List (Verif.Call × Bool)} {g : List (Key × EventInfo)} (h : Live s)
    (hs : KStep cfg X s o k [] g s') (hc : s'.sys.calls.length ≤ s.sys.calls.length) : Lex4 s'.measure s.measure := by
  generalize hreps : ([] : List (Path × Event)) = reps at hs
  cases hs with
  | go l sys' htr hfree =>
    have henv := htr.calls_env hc (by rintro evs rfl; exact hfree)
    rcases htr.decreases L h.inv henv with hd | ⟨hd1, hd2⟩
    · exact .inr ⟨rfl, .inl (by simp only [KSt.measure]; omega)⟩
    · exact .inr ⟨rfl, .inr ⟨by simp only [KSt.measure]; omega, .inr ⟨rfl, hd2⟩⟩⟩
  | change => cases hreps
  | wait p w hh ho hp hw =>
    left
    have hlt : Set.ncard {q | (if q = p then 0 else s.pend q) ≠ 0} < Set.ncard {q | s.pend q ≠ 0} := by
      refine Set.ncard_lt_ncard ?_ h.finite
      refine ⟨fun q hq => ?_, fun hsub => ?_⟩
      · simp only [Set.mem_setOf_eq] at hq ⊢
        split at hq
        · exact absurd rfl hq
        · exact hq
      · have := hsub (show p ∈ {q | s.pend q ≠ 0} from hp)
        simp at this
    simp only [KSt.measure, hh, if_true]
    rw [if_neg (by simp)]
    omega
  | process E fd p ge hx hh =>
    left
    have hle := Set.ncard_le_ncard (live_sub (w := (handle E s.w fd p ge).1) (pend := s.pend)) h.finite
    simp only [KSt.measure, hh, if_true]
    rw [if_neg (by simp)]
    omega
  | send ei l hl hq hok =>
    right
    refine ⟨rfl, .inl ?_⟩
    simp only [KSt.measure, hl, Sched.State.work, List.length_append, List.length_cons, List.length_nil]
    omega
  | plan r ops t new hr hp ht hn => right; exact ⟨rfl, .inl (by simp [KSt.measure, hp])⟩
  | call E c ok rest w' hx ht hserv =>
    have hsub : {q | live w' (fun q => if cuts E c q then 0 else s.pend q) q ≠ 0} ⊆ {q | s.pend q ≠ 0} := by
      refine live_sub.trans fun q hq => ?_
      simp only [Set.mem_setOf_eq] at hq ⊢
      split at hq
      · exact absurd rfl hq
      · exact hq
    have hle := Set.ncard_le_ncard hsub h.finite
    rcases Nat.lt_or_eq_of_le hle with hlt | heq
    · left; simp only [KSt.measure]; omega
    · right
      exact ⟨by simp only [KSt.measure]; omega, .inr ⟨rfl, .inl (by simp [KSt.measure, ht])⟩⟩
  | effect i r a b t hcalls hp ht =>
    right
    refine ⟨rfl, .inl ?_⟩
    simp [KSt.measure, hp, Sched.State.work, hcalls, Sched.Call.w]
    omega
  | intEffect ei t hi hp ht =>
    right
    refine ⟨rfl, .inl ?_⟩
    simp [KSt.measure, hp, Sched.State.work, hi, Sched.Intern.w]
    omega

theorem Inner.decreases {cfg : Sched.Cfg} {X : Outside} {s s' : KSt} (h : Live s) (hs : Inner cfg X s s') : Lex4 s'.measure s.measure := by
  obtain ⟨o, k, g, h1, h2⟩ := hs
  exact h1.decreases h h2

theorem Inner.live {cfg : Sched.Cfg} {X : Outside} (hX : X.Named) {s s' : KSt} (h : Live s) (hs : Inner cfg X s s') : Live s' := by
  obtain ⟨o, k, g, h1, h2⟩ := hs
  exact h.step hX h1

/-! #### Everything is done in the end -/

theorem many {cfg : Sched.Cfg} {X : Outside} (hX : X.Named) {s s' : KSt} (h : Live s) (hs : Relation.ReflTransGen (Inner cfg X) s s') :
    Live s' ∧ (s' = s ∨ Relation.TransGen Lex4 s'.measure s.measure) := by
  induction hs with
  | refl => exact ⟨h, .inl rfl⟩
  | tail _ h2 ih =>
    obtain ⟨g1, g3⟩ := ih
    refine ⟨h2.live hX g1, .inr ?_⟩
    rcases g3 with rfl | g3
    · exact .single (h2.decreases g1)
    · exact .head (h2.decreases g1) g3

/-- As long as no operation is at the watcher, there is a way on after which this is so again. -/
theorem onward {cfg : Sched.Cfg} (hC : 0 < cfg.capC) (hR : 0 < cfg.capR) {X : Outside} (hX : X.Named) (hrel : X.rel = false) {E : Env} (hE : X.env E)
    (hskip : ∀ p, E.opn p ≠ .skip) {s : KSt} (h : Live s) (hp : s.plan = none) (hne : ¬ s.Rest) :
    ∃ s₁ s', Inner cfg X s s₁ ∧ Relation.ReflTransGen (Inner cfg X) s₁ s' ∧ s'.plan = none := by
  by_cases hb : (∀ q, s.pend q = 0) ∧ s.hand = none ∧ s.out = []
  · have ht := h.rest hp
    rcases tree_step (cfg := cfg) (X := X) hC hR h (fun hi => hne ⟨hi, hb.1, hb.2.1, hb.2.2, hp, ht⟩) with ⟨s', h1, h2⟩ | ⟨r, hm⟩
    · exact ⟨s', s', h1, .refl, h2.trans hp⟩
    · obtain ⟨ops, t, new, htold, hnew, hs⟩ := begins (cfg := cfg) hrel E h hp hm
      have hl := h.step hX hs
      obtain ⟨new', h1, h2⟩ := told_right hE hskip htold
      obtain rfl : new' = new := List.append_cancel_right (h1.symm.trans hnew)
      obtain ⟨s', g1, g2, g3, g4⟩ := h2 (fun x hx => hl.plain x (by simpa using hx)) { s with plan := some (r, t), todo := new'.reverse } cfg rfl [] (by simp)
      obtain ⟨s'', k1, k2⟩ := ends (cfg := cfg) (X := X) (many hX hl g1).1 (r := r) (t := t) g2.2 g3
      exact ⟨_, s'', .of hs rfl, g1.tail k1, k2⟩
  · obtain ⟨s', h1, h2⟩ := monitor_step hC hE h hb
    exact ⟨s', s', h1, .refl, h2.trans hp⟩

theorem drains {cfg : Sched.Cfg} (hC : 0 < cfg.capC) (hR : 0 < cfg.capR) {X : Outside} (hX : X.Named) (hrel : X.rel = false) {E : Env} (hE : X.env E)
    (hskip : ∀ p, E.opn p ≠ .skip) {s : KSt} (h : Live s) (hp : s.plan = none) : ∃ s', Relation.ReflTransGen (Inner cfg X) s s' ∧ s'.Rest := by
  have key : ∀ m, ∀ s : KSt, s.measure = m → Live s → s.plan = none → ∃ s', Relation.ReflTransGen (Inner cfg X) s s' ∧ s'.Rest := by
    intro m
    induction m using lex4_wf.transGen.induction with
    | _ m ih =>
      intro s hm h hp
      by_cases hr : s.Rest
      · exact ⟨s, .refl, hr⟩
      obtain ⟨s₁, s', h1, h2, h3⟩ := onward (cfg := cfg) hC hR hX hrel hE hskip h hp hr
      have h4 := Relation.ReflTransGen.head h1 h2
      obtain ⟨g1, _⟩ := many hX h h4
      have hlt : Relation.TransGen Lex4 s'.measure m := by
        obtain ⟨_, g3⟩ := many hX (h1.live hX h) h2
        rw [← hm]
        rcases g3 with rfl | g3
        · exact .single (h1.decreases h)
        · exact g3.tail (h1.decreases h)
      obtain ⟨s'', k1, k2⟩ := ih _ hlt s' rfl g1 h3
      exact ⟨s'', h4.trans k1, k2⟩
  exact key _ s rfl h hp

/-- C110, BSDs.  In every state of the program in which something is under way, something can happen without help from users and files: a goroutine takes a
step, or the call of the watcher that is due returns with the other outcome than was guessed.  This does not go on for ever, and nothing panics.  From every
state in which no operation is at the watcher everything can be brought to its end, that is, each Watch and Stop returns and each notification is handled.
Calls of the watcher may fail, also those whose failure the tree ignores. -/
theorem C110_bsd {cfg : Sched.Cfg} (hC : 0 < cfg.capC) (hR : 0 < cfg.capR) {X : Outside} (hX : X.Named) (hrel : X.rel = false) {E : Env} (hE : X.env E)
    (hskip : ∀ p, E.opn p ≠ .skip) {ops : List Op} {k : List (Verif.Call × Bool)} {r : List (Path × Event)} {g : List (Key × EventInfo)} {s : KSt}
    (h : KRun cfg X KSt.init ops k r g s) :
    (¬ s.Rest → (∃ s', Inner cfg X s s') ∨ (∃ c ok rest s', s.todo = (c, ok) :: rest ∧ Inner cfg X { s with todo := (c, !ok) :: rest } s')) ∧
    (∀ f : Nat → KSt, f 0 = s → (∀ n, Inner cfg X (f n) (f (n + 1))) → False) ∧
    (s.plan = none → ∃ s', Relation.ReflTransGen (Inner cfg X) s s' ∧ s'.Rest) ∧
    s.sys.tree.world.panicked = false := by
  have hl : Live s := h.live hX .init
  refine ⟨progress hC hR hrel hE hskip hl, fun f h0 hf => ?_, drains hC hR hX hrel hE hskip hl, hl.pan⟩
  have hlive : ∀ n, Live (f n) := by
    intro n
    induction n with
    | zero => rw [h0]; exact hl
    | succ n ih => exact (hf n).live hX ih
  exact no_descent lex4_wf (fun n => (f n).measure) fun n => (hf n).decreases (hlive n)

namespace LiveEx
open Ex (e x d cfg Wr req1 op1 t1 step1 goodE uW)
open Trg.Ex (E7 kd ke kf)

/-- `E7` without the root directory. -/
def E8 : Env := { E7 with stat := fun p => if p = [kd] ∨ p = [kd, ke] then some true else if p = [kd, ke, kf] then some false else none }

theorem named8 : E8.Named := by
  constructor
  · intro p h
    simp only [E8] at h
    split at h
    · next hp => rcases hp with rfl | rfl <;> simp [GoodPath, kd, ke]
    · split at h
      · next hp => subst hp; simp [GoodPath, kd, ke, kf]
      · exact absurd rfl h
  · intro p l h y hy
    have h : E7.list p = .ok l := h
    simp only [E7] at h
    split at h
    · cases h; simp at hy; subst hy; simp
    · split at h
      · cases h; simp at hy; subst hy; simp
      · split at h
        · cases h; simp at hy; subst hy; simp
        · cases h

/-- Files change in any way, or vanish for the moment of a call; calls may fail. -/
def X8 : Outside where
  env := fun E => E.Named ∧ (E.stat = E8.stat ∨ ∀ p, E.stat p = none)
  chg := fun _ _ => True
  rel := false

def w8 : Trg.St := (Trg.Watch kqueue E8 {} e Wr).1

/-- Channel 1 watches `/d/e` for Write; the call has returned. -/
def s8 : KSt :=
  { sys := { Sched.State.init Y with tree := t1, next := 1 }, w := w8, pend := live w8 (fun _ => 0), log := [(.watch e Wr, true)] }

theorem run8 : KRun cfg X8 KSt.init [op1] [(.watch e Wr, true)] [] [] s8 := by
  have h := KRun.refl (cfg := cfg) (X := X8) (s := KSt.init)
  have h := h.step (.go _ _ (.call (Y := Y) req1 (show GoodPath e ∧ NonRec.UserEvents P Wr from ⟨goodE, uW⟩) trivial) trivial)
  have h := h.step (.go _ _ (.lock 0 req1 [] [] rfl (by rintro ⟨_, _, _, _, h⟩; cases h)
    (by rintro ⟨_, _, h | h⟩ <;> cases h <;> contradiction) (by rintro ⟨_, h | h⟩ <;> cases h)) trivial)
  have h := h.step (.plan req1 [op1] t1 [(.watch e Wr, true)] (.inl ⟨0, .head _⟩) rfl ⟨NonRec.Steps.nil.snoc (Plain.step_weaken step1), op1, ⟨_, rfl⟩, .inl rfl⟩ rfl)
  have h := h.step (.call E8 (.watch e Wr) true [] w8 ⟨named8, .inl rfl⟩ rfl (.watch e Wr (by decide)))
  have h := h.step (.effect 0 req1 [] [] t1 rfl rfl rfl)
  have h := h.step (.go _ _ (.unlock 0 req1 [] [] rfl) trivial)
  have h := h.step (.go _ _ (.ret 0 req1 [] [] rfl) trivial)
  exact h

/-- Then the file in it is written, and a Stop has the lock. -/
theorem run9 : ∃ ops k r g s, KRun cfg X8 KSt.init ops k r g s ∧ s.pend x = 0x2 ∧ (1, .stop 1, .locked) ∈ s.sys.calls ∧ s.plan = none := by
  have h := run8
  have h := h.step (.change x 0x2 0x2 trivial (by decide) (by decide))
  have h := h.step (.go _ _ (.call (Y := Y) (Sched.Req.stop 1) trivial trivial) trivial)
  have h := h.step (.go _ _ (.lock 1 (Sched.Req.stop 1) [] [] rfl (by rintro ⟨_, _, _, _, h⟩; cases h)
    (by rintro ⟨_, _, h | h⟩ <;> cases h <;> contradiction) (by rintro ⟨_, h | h⟩ <;> cases h)) trivial)
  exact ⟨_, _, _, _, _, h, by decide, .head _, rfl⟩

example : ∃ s s' : KSt, (1, Sched.Req.stop 1, Sched.Call.locked) ∈ s.sys.calls ∧ s.pend x ≠ 0 ∧ Relation.ReflTransGen (Inner cfg X8) s s' ∧ s'.Rest := by
  obtain ⟨ops, k, r, g, s, h, h1, h2, h3⟩ := run9
  obtain ⟨s', g1, g2⟩ := (C110_bsd (by decide) (by decide) (X := X8) (fun E hE => hE.1) rfl (E := E8) ⟨named8, .inl rfl⟩ (fun p => by simp [E8, E7]) h).2.2.1 h3
  exact ⟨s, s', h2, by rw [h1]; decide, g1, g2⟩

end LiveEx
end Bsd
end Verif
