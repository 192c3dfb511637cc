/-
The whole program does not hang (C110): Solaris and illumos.
-/
import Verif.PropsLiveBsd
import Verif.PropsFen

namespace Verif
open NonRec (GoodPath)

namespace Fen
open Trg (fen Env Tidy Res Mode W Ev)
open Linux (Free sigs)
open NonRec (Op)

abbrev L : Sched.Laws Y := Sched.plainLaws P factsP

/-! ### The watcher -/

/-- The call cannot queue an event. -/
def NCall.Still : NCall → Prop
  | .reassoc .. => False
  | _ => True

theorem call_len (k : Kern) {c : NCall} (h : c.Still) : (k.call c).queue.length ≤ k.queue.length := by
  cases c with
  | assoc => exact Nat.le_refl _
  | dissoc p =>
    simp only [Kern.call]
    split
    · exact Nat.le_refl _
    · exact List.length_filter_le _ _
  | reassoc => exact h.elim
  | keep => exact Nat.le_refl _

theorem calls_len : ∀ (l : List NCall) (k : Kern), (∀ c ∈ l, c.Still) → (l.foldl Kern.call k).queue.length ≤ k.queue.length
  | [], _, _ => Nat.le_refl _
  | c :: l, k, h => Nat.le_trans (calls_len l (k.call c) fun c hc => h c (by simp [hc])) (call_len k (h c (by simp)))

theorem ff {p : Prop} (h : false = true) : p := Bool.noConfusion h

/-- Entries are good; with `b`, no call queues an event. -/
structure Clean (b : Bool) (s : Rec) : Prop where
  tidy : Tidy false s.t
  still : b = true → ∀ c ∈ s.n, c.Still

variable {E : Env} {b : Bool} {s : Rec}

theorem Clean.more (h : Clean b s) {t : Trg.St} (ht : Tidy false t) {l : List NCall} (hl : b = true → ∀ c ∈ l, c.Still) : Clean b ⟨t, s.n ++ l⟩ :=
  ⟨ht, fun hb c hc => (List.mem_append.1 hc).elim (h.still hb c) (hl hb c)⟩

theorem Clean.singlewatch (h : Clean b s) {p : Path} (hp : GoodPath p) (e : Event) (m : Mode) (d : Bool) : Clean b (singlewatch E s p e m d).1 := by
  refine h.more (h.tidy.singlewatch hp e m d) fun _ c hc => ?_
  simp only [swCalls] at hc
  split at hc
  · split at hc
    · simp only [List.mem_cons, List.not_mem_nil, or_false] at hc
      rcases hc with rfl | rfl <;> trivial
    · cases hc
  · simp only [List.mem_cons, List.not_mem_nil, or_false] at hc
    subst hc; trivial

theorem Clean.singleunwatch (h : Clean b s) (p : Path) {m : Mode} (hm : b = true → m = .both) : Clean b (singleunwatch E s p m).1 := by
  refine h.more (h.tidy.singleunwatch ff p m) fun hb c hc => ?_
  obtain rfl := hm hb
  simp only [suCalls] at hc
  split at hc
  · cases hc
  · rw [if_neg (by simp [Trg.W.sub])] at hc
    simp only [List.mem_cons, List.not_mem_nil, or_false] at hc
    subst hc; trivial

theorem Clean.watch (hE : E.Named) (h : Clean b s) {p : Path} (hp : GoodPath p) (e : Event) (d : Bool) : Clean b (watch E s p e d).1 := by
  have h1 := h.singlewatch (E := E) hp e .dir d
  unfold Fen.watch
  split
  · next he => rw [he] at h1; exact h1
  · next he => rw [he] at h1; exact h1
  · next s' r _ _ he =>
    rw [he] at h1
    split
    · refine Trg.walk_keeps (Clean b) hE (fun s x hx h => ?_) h1
      have h2 := h.singlewatch (E := E) (Trg.join_good hp hx) e .ndir x.2
      unfold watchKid
      split
      · next he => rw [he] at h2; exact h2
      · exact h2
    · exact h1

theorem Clean.unwatch (hE : E.Named) (h : Clean false s) (p : Path) (d : Bool) : Clean false (unwatch E s p d).1 := by
  unfold Fen.unwatch
  split
  · have h1 : Clean false (Trg.walk E p (unwatchKid E p) s).1 := by
      refine Trg.walk_keeps (Clean false) hE (fun s x hx h => ?_) h
      have h2 := h.singleunwatch (E := E) (Trg.join p x.1) (m := .ndir) (fun h => nomatch h)
      unfold unwatchKid
      split
      · next he => rw [he] at h2; exact h2
      · exact h2
    split
    · next he => rw [he] at h1; exact h1.singleunwatch _ (fun h => nomatch h)
    · exact h1
  · exact h.singleunwatch _ (fun h => nomatch h)

/-- A call of the watcher that may end native watches and make them again. -/
def Undoes : Verif.Call → Prop
  | .unwatch .. | .rewatch .. => True
  | _ => False

theorem Clean.serves (hE : E.Named) (h : Clean b s) {c : Verif.Call} {ok : Bool} {s' : Rec} (hs : Serves E s c ok s') (hc : b = true → ¬ Undoes c) : Clean b s' := by
  cases hs with
  | watch p e _ =>
    unfold Watch
    split
    · exact h
    · next hd => exact h.watch hE (hE.stat p (by rw [hd]; simp)) _ _
  | unwatch p _ =>
    have hb : b = false := by cases b with | false => rfl | true => exact absurd trivial (hc rfl)
    subst hb
    unfold Unwatch
    split
    · exact h
    · exact h.unwatch hE _ _
  | rewatch p old new _ =>
    have hb : b = false := by cases b with | false => rfl | true => exact absurd trivial (hc rfl)
    subst hb
    unfold Rewatch
    split
    · exact h
    · next d hd =>
      have h1 := h.unwatch hE p d
      split
      · next he => rw [he] at h1; exact h1.watch hE (hE.stat p (by rw [hd]; simp)) _ _
      · next he => rw [he] at h1; exact h1

/-- State and events. -/
def Neat (r : Rec × List Ev) : Prop := Clean true r.1 ∧ ∀ ev ∈ r.2, GoodPath ev.path

theorem moved_neat {p : Path} {w : W} {e : Event} : ∀ (l : List Path) {s : Rec}, (∀ q ∈ l, GoodPath q) → Clean true s → Neat (moved E p w e s l)
  | [], s, _, h => ⟨h, by intro ev hev; cases hev⟩
  | q :: l, s, hl, h => by
    unfold moved
    split
    · have h1 := moved_neat (p := p) (w := w) (e := e) l (fun q hq => hl q (by simp [hq])) (h.singleunwatch (E := E) q (m := .both) fun _ => rfl)
      refine ⟨h1.1, fun ev hev => ?_⟩
      rcases List.mem_append.1 hev with hev | hev
      · split at hev
        · simp only [List.mem_singleton] at hev; subst hev; exact hl q (by simp)
        · cases hev
      · exact h1.2 ev hev
    · exact moved_neat l (fun q hq => hl q (by simp [hq])) h

theorem scanKid_neat {p : Path} (hp : GoodPath p) {w : W} {n : Rec × List Ev} (h : Neat n) {x : Comp × Bool} (hx : x.1 ≠ []) : Neat (scanKid E p w n x).1 := by
  have hq := Trg.join_good hp hx
  have h1 := h.1.singlewatch (E := E) hq w.eDir .ndir x.2
  have one : ∀ {b : Prop} [Decidable b] {r : Event}, ∀ ev ∈ n.2 ++ (if b then [(⟨Trg.join p x.1, r, x.2⟩ : Ev)] else []), GoodPath ev.path := by
    intro b _ r ev hev
    rcases List.mem_append.1 hev with hev | hev
    · exact h.2 ev hev
    · split at hev
      · simp only [List.mem_singleton] at hev; subst hev; exact hq
      · cases hev
  unfold scanKid
  dsimp only
  split <;> (next he => rw [he] at h1; first | exact ⟨h1, one⟩ | exact ⟨h1, h.2⟩)

theorem Clean.del (h : Clean b s) (p : Path) (w : W) : Clean b (del s p w) := ⟨h.tidy.del ff p w, h.still⟩

theorem process_neat (hE : E.Named) (h : Clean true s) (p : Path) (ge : Event) : Neat (process E s p ge) := by
  unfold process
  split
  · exact ⟨h, by intro ev hev; cases hev⟩
  · next w hw =>
    have hp := h.tidy.good p (by rw [hw]; simp)
    have h1 : Clean true (renew E s p w ge) := by
      refine h.more (Trg.renew_tidy ff h.tidy hw ge) fun _ c hc => ?_
      split at hc
      · split at hc
        · cases hc
        · simp only [List.mem_singleton] at hc; subst hc; trivial
      · cases hc
    dsimp only
    split
    · exact ⟨h1, by intro ev hev; cases hev⟩
    · have h2 : Neat (if w.isDir = true then dir E (renew E s p w ge) p w (Trg.decode fen.nat2not ge w.all) ge
          else (renew E s p w ge, [⟨p, Trg.decode fen.nat2not ge w.all, w.isDir⟩])) := by
        split
        · unfold dir
          split
          · have h3 : Neat (if ge &&& fen.nRename ≠ 0 then
                moved E p w (Trg.decode fen.nat2not ge w.all) (renew E s p w ge) (renew E s p w ge).t.lkp.keys else (renew E s p w ge, [])) := by
              split
              · refine moved_neat _ (fun q hq => ?_) h1
                obtain ⟨v, hv⟩ := (GoMap.mem_keys_iff _ _).1 hq
                exact h1.tidy.good q (by rw [hv]; simp)
              · exact ⟨h1, by intro ev hev; cases hev⟩
            refine ⟨h3.1.del _ _, fun ev hev => ?_⟩
            rcases List.mem_cons.1 hev with rfl | hev
            · exact hp
            · exact h3.2 ev hev
          · split
            · refine Trg.walk_keeps Neat hE (fun n x hx hn => scanKid_neat hp hn hx) ?_
              exact ⟨h1, by intro ev hev; cases hev⟩
            · exact ⟨h1, by intro ev hev; cases hev⟩
        · exact ⟨h1, by simpa using hp⟩
      split
      · exact ⟨h2.1.del _ _, h2.2⟩
      · exact h2

/-! ### The program -/

/-- Nothing is going on in the program. -/
def FSt.Rest (s : FSt) : Prop := s.sys.Idle ∧ s.kern.queue = [] ∧ s.hand = none ∧ s.out = [] ∧ s.plan = none ∧ s.todo = []

/-- A step inside of the program, with the calls of the watcher in it: nothing happens to files and no user calls.  Calls of the watcher may fail. -/
def Inner (cfg : Sched.Cfg) (X : Outside) (s : FSt) (k : List (Verif.Call × Bool)) (s' : FSt) : Prop :=
  ∃ o g, FStep cfg X s o k [] g s' ∧ s'.sys.calls.length ≤ s.sys.calls.length

/-- `Wait` returns a notification. -/
def Wakes (s s' : FSt) : Prop := s.hand = none ∧ s'.hand ≠ none

/-- A step in which no notification is taken from the kernel. -/
def Local (cfg : Sched.Cfg) (X : Outside) (s s' : FSt) : Prop := ∃ k, Inner cfg X s k s' ∧ ¬ Wakes s s'

/-- All answers are about paths and names as the OS has them. -/
def Outside.Named (X : Outside) : Prop := ∀ E, X.env E → E.Named

/-- The invariant. -/
structure Live (s : FSt) : Prop where
  inv : Sched.Inv L s.sys
  os : s.sys.os = []
  pan : s.sys.tree.world.panicked = false
  plan : ∀ r t, s.plan = some (r, t) → Y.step s.sys.tree r t ∧ t.world.panicked = false ∧ s.Holds r
  rest : s.plan = none → s.todo = []
  plain : ∀ x ∈ s.todo, IsPlain x.1
  tidy : Tidy false s.w
  out : ∀ o ∈ s.out, GoodPath o.path

theorem Live.init : Live FSt.init where
  inv := .init L
  os := rfl
  pan := rfl
  plan := by intro r t h; cases h
  rest := fun _ => rfl
  plain := by intro x h; cases h
  tidy := .init
  out := by intro o h; cases h

theorem Live.holds {s : FSt} (h : Live s) {r : Sched.Req} (hr : s.Holds r) : Y.okReq r := by
  rcases hr with ⟨i, hm⟩ | ⟨ei, hm, rfl⟩
  · exact h.inv.oks.calls _ hm
  · exact h.inv.oks.int ei (by simp [hm])

theorem holds_go {cfg : Sched.Cfg} {s : FSt} {l : Sched.Lab Sched.Req} {sys' : Sched.State Y} (h : Sched.Tr Y cfg s.sys l sys') (hl : Free l) {r : Sched.Req}
    (hr : s.Holds r) : ({ s with sys := sys' } : FSt).Holds r := by
  rcases hr with ⟨i, hm⟩ | ⟨ei, hm, rfl⟩
  · exact .inl ⟨i, h.keeps_locked (by rintro i r rfl; exact hl) hm⟩
  · exact .inr ⟨ei, h.keeps_int (by rintro r rfl; exact hl) hm, rfl⟩

theorem woken_clean {s : FSt} (h : Tidy false s.w) (p : Path) : Clean true (s.woken p) := by
  refine ⟨⟨ff, fun q hq => h.good q ?_⟩, fun _ c hc => by cases hc⟩
  have he : (Trg.retrieved fen s.w p).lkp = s.w.lkp := by unfold Trg.retrieved; first | rfl | (split <;> rfl)
  have hq : (Trg.retrieved fen s.w p).lkp.get? q ≠ none := hq
  rw [he] at hq; exact hq

theorem Live.step {cfg : Sched.Cfg} {X : Outside} (hX : X.Named) {s s' : FSt} {o : List Op} {k : List (Verif.Call × Bool)} {r : List (Path × Event)}
    {g : List (Key × EventInfo)} (h : Live s) (hs : FStep cfg X s o k r g s') : Live s' := by
  obtain ⟨h1, h2, h3, h4, h5, h6, h7, h9⟩ := h
  cases hs with
  | go l sys' htr hfree =>
    refine ⟨h1.tr htr, (Plain.free_os htr hfree).trans h2, (Plain.free_tree htr hfree) ▸ h3, ?_, h5, h6, h7, h9⟩
    intro r t hp
    obtain ⟨g1, g2, g3⟩ := h4 r t hp
    refine ⟨?_, g2, holds_go htr hfree g3⟩
    simp only [Plain.free_tree htr hfree]; exact g1
  | change p fl hx => exact ⟨h1, h2, h3, h4, h5, h6, h7, h9⟩
  | wait p a fl hh ho hp => exact ⟨h1, h2, h3, h4, h5, h6, h7, h9⟩
  | process E p ge hx hh =>
    have hn := process_neat (hX E hx) (woken_clean h7 p) p ge
    refine ⟨h1, h2, h3, h4, h5, h6, hn.1.tidy, fun o ho => ?_⟩
    obtain ⟨ev, hev, rfl⟩ := List.mem_map.1 ho
    exact hn.2 ev hev
  | send ei l hl hc hok =>
    have htr : Sched.Tr Y cfg { s.sys with os := [ei] } (.push ei) { s.sys with os := [], cq := s.sys.cq ++ [ei] } := .push ei [] rfl hc
    have hr : Sched.Tr Y cfg s.sys (.report [ei]) { s.sys with os := [ei] } := .report [ei] (by simpa using hok) h2
    have he : ({ s.sys with os := [], cq := s.sys.cq ++ [ei] } : Sched.State Y) = { s.sys with cq := s.sys.cq ++ [ei] } := by rw [← h2]
    exact ⟨he ▸ (h1.tr hr).tr htr, h2, h3, h4, h5, h6, h7, fun o ho => h9 o (by rw [hl]; simp [ho])⟩
  | plan r ops t new hr hp ht hn =>
    have hm := Plain.steps_mild ht.1
    refine ⟨h1, h2, h3, ?_, (fun h => nomatch h), ?_, h7, h9⟩
    · rintro r t ⟨⟩; exact ⟨Plain.plans_step ht, hm.pan.trans h3, hr⟩
    · obtain ⟨n, g1, g2⟩ := hm.plain
      obtain rfl : n = new := List.append_cancel_right (g1.symm.trans hn)
      intro x hx
      exact g2 x (by simpa using hx)
  | call E c ok rest w' hx ht hserv =>
    have hc : Clean false w' := Clean.serves (hX E hx) (s := ⟨s.w, []⟩) ⟨h7, ff⟩ hserv ff
    exact ⟨h1, h2, h3, h4, fun hp => absurd (h5 hp) (by rw [ht]; simp), fun x hx => h6 x (by rw [ht]; simp [hx]), hc.tidy, h9⟩
  | effect i r a b t hcalls hp ht =>
    have htr : Sched.Tr Y cfg s.sys (.effect i r) _ := .effect i r a b t hcalls (h4 _ _ hp).1 fun _ => h2
    exact ⟨h1.tr htr, h2, (h4 _ _ hp).2.1, (fun r t h => nomatch h), fun _ => ht, h6, h7, h9⟩
  | intEffect ei t hi hp ht =>
    have htr : Sched.Tr Y cfg s.sys _ _ := .intEffect ei t hi (h4 _ _ hp).1 fun _ => h2
    exact ⟨h1.tr htr, h2, (h4 _ _ hp).2.1, (fun r t h => nomatch h), fun _ => ht, h6, h7, h9⟩

theorem FRun.live {cfg : Sched.Cfg} {X : Outside} (hX : X.Named) {ops : List Op} {k : List (Verif.Call × Bool)} {r : List (Path × Event)}
    {g : List (Key × EventInfo)} {s s' : FSt} (h0 : Live s) (h : FRun cfg X s ops k r g s') : Live s' := by
  induction h with
  | refl => exact h0
  | step _ hs ih => exact ih.step hX hs

/-! #### The answers of the watcher -/

/-- What the watcher answers, and the watcher afterwards. -/
def ans (E : Env) (w : Trg.St) : Verif.Call → Bool × Rec
  | .watch p e => (decide ((Watch E ⟨w, []⟩ p e).2 = .ok), (Watch E ⟨w, []⟩ p e).1)
  | .rewatch p _ new => (decide ((Rewatch E ⟨w, []⟩ p new).2 = .ok), (Rewatch E ⟨w, []⟩ p new).1)
  | .unwatch p => (decide ((Unwatch E ⟨w, []⟩ p).2 = .ok), (Unwatch E ⟨w, []⟩ p).1)
  | _ => (false, ⟨w, []⟩)

theorem ans_serves {E : Env} (hE : ∀ p, E.opn p ≠ .skip) (w : Trg.St) {c : Verif.Call} (hc : IsPlain c) : Serves E ⟨w, []⟩ c (ans E w c).1 (ans E w c).2 := by
  cases c with
  | watch p e => exact .watch p e (hE p)
  | rewatch p old new => exact .rewatch p old new (hE p)
  | unwatch p => exact .unwatch p (hE p)
  | _ => exact hc.elim

theorem Local.of {cfg : Sched.Cfg} {X : Outside} {s s' : FSt} {o : List Op} {k : List (Verif.Call × Bool)} {g : List (Key × EventInfo)}
    (h : FStep cfg X s o k [] g s') (hs : s'.sys = s.sys) (hh : s'.hand = none ∨ s'.hand = s.hand) : Local cfg X s s' := by
  refine ⟨k, ⟨o, g, h, by rw [hs]⟩, fun hw => ?_⟩
  rcases hh with hh | hh
  · exact hw.2 hh
  · exact hw.2 (hh.trans hw.1)

/-- The rest of the state. -/
def Same (s s' : FSt) : Prop := s'.sys = s.sys ∧ s'.plan = s.plan

/-- The watcher after the calls of a log. -/
def replay (E : Env) (w : Trg.St) : Log → Trg.St
  | [] => w
  | (c, _) :: l => (ans E (replay E w l) c).2.t

/-- The oracle that answers as the watcher does. -/
def right (E : Env) (w : Trg.St) (base : Log) : Oracle := fun l c => (ans E (replay E w (l.take (l.length - base.length))) c).1

theorem told_right {X : Outside} {E : Env} (hE : X.env E) (hskip : ∀ p, E.opn p ≠ .skip) {w : Trg.St} {base b : Log} (h : Told (right E w base) base b) :
    ∃ new, b = new ++ base ∧ ((∀ x ∈ new, IsPlain x.1) → ∀ (s : FSt) (cfg : Sched.Cfg), s.w = w → ∀ rest, s.todo = new.reverse ++ rest →
      ∃ s', Relation.ReflTransGen (Local cfg X) s s' ∧ Same s s' ∧ s'.todo = rest ∧ s'.w = replay E w new) := by
  induction h with
  | refl => exact ⟨[], rfl, fun _ s cfg hx rest ht => ⟨s, .refl, ⟨rfl, rfl⟩, ht, hx⟩⟩
  | @cons b c _ ih =>
    obtain ⟨new, rfl, ih⟩ := ih
    refine ⟨(c, Fen.right E w base (new ++ base) c) :: new, rfl, fun hpl s cfg hx rest ht => ?_⟩
    obtain ⟨s', h1, h2, h3, h4⟩ := ih (fun x hx => hpl x (by simp [hx])) s cfg hx ((c, Fen.right E w base (new ++ base) c) :: rest) (by rw [ht]; simp)
    have hr : Fen.right E w base (new ++ base) c = (ans E s'.w c).1 := by rw [h4]; unfold Fen.right; simp
    have hs : FStep cfg X s' [] [(c, (ans E s'.w c).1)] [] [] _ := .call E c _ rest _ hE (by rw [h3, hr]) (ans_serves hskip s'.w (hpl (c, Fen.right E w base (new ++ base) c) (by simp)))
    exact ⟨_, h1.tail (.of hs rfl (.inr rfl)), h2, rfl, by rw [h4]; rfl⟩

/-! #### Progress -/

/-- An operation that holds the lock begins, with the answers that the watcher gives. -/
theorem begins {cfg : Sched.Cfg} {X : Outside} (hrel : X.rel = false) (E : Env) {s : FSt} (h : Live s) (hp : s.plan = none) {r : Sched.Req} (hm : s.Holds r) :
    ∃ ops t new, Told (right E s.w s.sys.tree.world.log) s.sys.tree.world.log t.world.log ∧ t.world.log = new ++ s.sys.tree.world.log ∧
      FStep cfg X s ops [] [] [] { s with plan := some (r, t), todo := new.reverse } := by
  obtain ⟨ops, t, h1, h2⟩ := Plain.begins (right E s.w s.sys.tree.world.log) s.sys.tree (h.holds hm)
  obtain ⟨new, hnew⟩ := h2.told.suffix
  exact ⟨ops, t, new, h2.told, hnew, .plan r ops t new hm hp (by rw [hrel]; exact h1) hnew⟩

theorem inner_free {l : Sched.Lab Sched.Req} (h : l.inner) : Free l := by cases l <;> first | trivial | exact h

theorem Local.go {cfg : Sched.Cfg} {X : Outside} {s : FSt} {l : Sched.Lab Sched.Req} {sys' : Sched.State Y} (h : Sched.Tr Y cfg s.sys l sys') (hl : l.inner) :
    Local cfg X s { s with sys := sys' } := ⟨_, ⟨_, _, .go l sys' h (inner_free hl), h.calls_le hl.env⟩, fun hw => hw.2 hw.1⟩

/-- The goroutine of the watcher goes on. -/
theorem monitor_step {cfg : Sched.Cfg} (hC : 0 < cfg.capC) {X : Outside} {E : Env} (hE : X.env E) {s : FSt} (h : Live s)
    (hb : ¬ (s.hand = none ∧ s.out = [])) : ∃ s', Local cfg X s s' ∧ s'.plan = s.plan := by
  cases hh : s.hand with
  | some x => obtain ⟨p, ge⟩ := x; exact ⟨_, .of (.process E p ge hE hh) rfl (.inl rfl), rfl⟩
  | none =>
  cases ho : s.out with
  | cons ei l =>
    by_cases hq : s.sys.cq.length < cfg.capC
    · exact ⟨_, ⟨_, ⟨_, _, .send ei l ho hq (h.out ei (by rw [ho]; simp)), Nat.le_refl _⟩, fun hw => hw.2 hw.1⟩, rfl⟩
    · cases hcq : s.sys.cq with
      | nil => rw [hcq] at hq; exact absurd hC hq
      | cons ei q => exact ⟨_, .go (.spawn ei q hcq) trivial, rfl⟩
  | nil => exact absurd ⟨hh, ho⟩ hb

/-- The operation is done with the tree. -/
theorem ends {cfg : Sched.Cfg} {X : Outside} {s : FSt} (h : Live s) {r : Sched.Req} {t : St} (hp : s.plan = some (r, t)) (ht : s.todo = []) :
    ∃ s', Local cfg X s s' ∧ s'.plan = none := by
  obtain ⟨_, _, ⟨i, hm⟩ | ⟨ei, hm, rfl⟩⟩ := h.plan r t hp
  · obtain ⟨a, b, hab⟩ := List.append_of_mem hm
    exact ⟨_, ⟨_, ⟨_, _, .effect i r a b t hab hp ht, by simp [hab]⟩, fun hw => hw.2 hw.1⟩, rfl⟩
  · exact ⟨_, ⟨_, ⟨_, _, .intEffect ei t hm hp ht, Nat.le_refl _⟩, fun hw => hw.2 hw.1⟩, rfl⟩

/-- A goroutine of the tree goes on, or a request has the lock. -/
theorem tree_step {cfg : Sched.Cfg} (hC : 0 < cfg.capC) (hR : 0 < cfg.capR) {X : Outside} {s : FSt} (h : Live s) (hne : ¬ s.sys.Idle) :
    (∃ s', Local cfg X s s' ∧ s'.plan = s.plan) ∨ ∃ r, s.Holds r := by
  rcases Sched.progress_inner hC hR h.os hne with ⟨l, s', h1, h2⟩ | ⟨i, r, hm⟩ | ⟨ei, hm⟩
  · exact .inl ⟨_, .go h1 h2, rfl⟩
  · exact .inr ⟨r, .inl ⟨i, hm⟩⟩
  · exact .inr ⟨_, .inr ⟨ei, hm, rfl⟩⟩

theorem progress {cfg : Sched.Cfg} (hC : 0 < cfg.capC) (hR : 0 < cfg.capR) {X : Outside} (hrel : X.rel = false) {E : Env} (hE : X.env E)
    (hskip : ∀ p, E.opn p ≠ .skip) {s : FSt} (h : Live s) (hne : ¬ s.Rest) :
    (∃ k s', Inner cfg X s k s') ∨ (∃ c ok rest k s', s.todo = (c, ok) :: rest ∧ Inner cfg X { s with todo := (c, !ok) :: rest } k s') := by
  by_cases hb : s.hand = none ∧ s.out = []
  swap
  · obtain ⟨s', ⟨k, h1, _⟩, _⟩ := monitor_step (cfg := cfg) hC hE h hb
    exact .inl ⟨k, s', h1⟩
  cases hq : s.kern.queue with
  | cons x l =>
    obtain ⟨p, a, fl⟩ := x
    exact .inl ⟨_, _, _, _, .wait p a fl hb.1 hb.2 (by rw [hq]; simp), Nat.le_refl _⟩
  | nil =>
  cases ht : s.todo with
  | cons x rest =>
    obtain ⟨c, ok⟩ := x
    have hc := h.plain (c, ok) (by rw [ht]; simp)
    have hserv := ans_serves hskip s.w hc
    by_cases hok : ok = (ans E s.w c).1
    · subst hok
      exact .inl ⟨_, _, _, _, .call E c _ rest _ hE ht hserv, Nat.le_refl _⟩
    · have hok : (!ok) = (ans E s.w c).1 := by
        revert hok; generalize (ans E s.w c).1 = x; cases ok <;> cases x <;> simp
      exact .inr ⟨c, ok, rest, _, _, rfl, _, _, .call (s := { s with todo := (c, !ok) :: rest }) E c _ rest _ hE (by rw [hok]) hserv, Nat.le_refl _⟩
  | nil =>
  cases hp : s.plan with
  | some x => obtain ⟨s', ⟨k, h1, _⟩, _⟩ := ends (cfg := cfg) (X := X) h hp ht; exact .inl ⟨k, s', h1⟩
  | none =>
  rcases tree_step (cfg := cfg) (X := X) hC hR h (fun hi => hne ⟨hi, hq, hb.1, hb.2, hp, ht⟩) with ⟨s', ⟨k, h1, _⟩, _⟩ | ⟨r, hm⟩
  · exact .inl ⟨k, s', h1⟩
  · obtain ⟨ops, t, new, _, _, hs⟩ := begins (cfg := cfg) hrel E h hp hm
    exact .inl ⟨_, _, _, _, hs, Nat.le_refl _⟩

/-! #### Termination -/

/-- What is left to do, `n` for notifications. -/
def FSt.measure (n : Nat) (s : FSt) : Nat × Nat × Nat × Nat :=
  (2 * n + (if s.hand = none then 0 else 1), 2 * (9 * s.out.length + s.sys.work) + (if s.plan = none then 1 else 0), s.todo.length, s.sys.left)

theorem Inner.live {cfg : Sched.Cfg} {X : Outside} (hX : X.Named) {s s' : FSt} {k : List (Verif.Call × Bool)} (h : Live s) (hs : Inner cfg X s k s') : Live s' := by
  obtain ⟨o, g, h1, h2⟩ := hs
  exact h.step hX h1

/-- Each step leaves less to do if it does not lead to more notifications; and, notifications in the queue apart, if none is retrieved. -/
theorem Inner.decreases {cfg : Sched.Cfg} {X : Outside} (hX : X.Named) {s s' : FSt} {k : List (Verif.Call × Bool)} (h : Live s) (hs : Inner cfg X s k s') :
    ((∀ c ∈ k, ¬ Undoes c.1) → Lex4 (s'.measure s'.kern.queue.length) (s.measure s.kern.queue.length)) ∧
    (¬ Wakes s s' → Lex4 (s'.measure 0) (s.measure 0)) := by
  obtain ⟨o, g, hs, hc⟩ := hs
  generalize hreps : ([] : List (Path × Event)) = reps at hs
  have both : ∀ {n n' : Nat} {A B : Prop}, (∀ m m' : Nat, m' ≤ m → Lex4 (s'.measure m') (s.measure m)) → n' ≤ n →
      (A → Lex4 (s'.measure n') (s.measure n)) ∧ (B → Lex4 (s'.measure 0) (s.measure 0)) :=
    fun hm hn => ⟨fun _ => hm _ _ hn, fun _ => hm _ _ (Nat.le_refl _)⟩
  have mono : ∀ {a b c d x y z u : Nat}, a ≤ b → (a = b → Lex4 (a, x, y, z) (b, c, d, u)) → Lex4 (a, x, y, z) (b, c, d, u) := by
    intro a b c d x y z u hle hk
    rcases Nat.lt_or_eq_of_le hle with hlt | heq
    · exact .inl hlt
    · exact hk heq
  cases hs with
  | go l sys' htr hfree =>
    refine both (fun m m' hm => mono (by simp only []; omega) fun he => ?_) (Nat.le_refl _)
    have henv := htr.calls_env hc (by rintro evs rfl; exact hfree)
    rcases htr.decreases L h.inv henv with hd | ⟨hd1, hd2⟩
    · exact .inr ⟨he, .inl (by simp only []; omega)⟩
    · exact .inr ⟨he, .inr ⟨by simp only []; omega, .inr ⟨rfl, hd2⟩⟩⟩
  | change => cases hreps
  | wait p a fl hh ho hp =>
    refine ⟨fun _ => .inl ?_, fun hw => absurd ⟨hh, by simp⟩ hw⟩
    have h1 := List.length_erase_of_mem hp
    have h2 : 0 < s.kern.queue.length := List.length_pos_of_mem hp
    simp only [FSt.measure, hh, if_true]
    rw [if_neg (by simp)]
    omega
  | process E p ge hx hh =>
    have hn := process_neat (hX E hx) (woken_clean h.tidy p) p ge
    refine both (fun m m' hm => .inl ?_) (calls_len _ s.kern (hn.1.still rfl))
    simp only [FSt.measure, hh, if_true]
    rw [if_neg (by simp)]
    omega
  | send ei l hl hq hok =>
    refine both (fun m m' hm => mono (by simp only []; omega) fun he => .inr ⟨he, .inl ?_⟩) (Nat.le_refl _)
    simp only [hl, Sched.State.work, List.length_append, List.length_cons, List.length_nil]
    omega
  | plan r ops t new hr hp ht hn =>
    refine both (fun m m' hm => mono (by simp only []; omega) fun he => .inr ⟨he, .inl (by simp [hp])⟩) (Nat.le_refl _)
  | call E c ok rest w' hx ht hserv =>
    have key : ∀ m m' : Nat, m' ≤ m → Lex4 (FSt.measure m' { s with w := w'.t, kern := w'.n.foldl Kern.call s.kern, todo := rest, log := (c, ok) :: s.log }) (s.measure m) :=
      fun m m' hm => mono (by simp only []; omega) fun he => .inr ⟨he, .inr ⟨rfl, .inl (by simp [ht])⟩⟩
    refine ⟨fun hu => key _ _ (calls_len _ _ ?_), fun _ => key _ _ (Nat.le_refl _)⟩
    have hc : Clean true w' := Clean.serves (hX E hx) (s := ⟨s.w, []⟩) ⟨h.tidy, fun _ c hc => by cases hc⟩ hserv (fun _ => hu (c, ok) (by simp))
    exact hc.still rfl
  | effect i r a b t hcalls hp ht =>
    refine both (fun m m' hm => mono (by simp only []; omega) fun he => .inr ⟨he, .inl ?_⟩) (Nat.le_refl _)
    simp [hp, Sched.State.work, hcalls, Sched.Call.w]
    omega
  | intEffect ei t hi hp ht =>
    refine both (fun m m' hm => mono (by simp only []; omega) fun he => .inr ⟨he, .inl ?_⟩) (Nat.le_refl _)
    simp [hp, Sched.State.work, hi, Sched.Intern.w]
    omega

theorem Local.live {cfg : Sched.Cfg} {X : Outside} (hX : X.Named) {s s' : FSt} (h : Live s) (hs : Local cfg X s s') : Live s' := by
  obtain ⟨k, h1, _⟩ := hs
  exact h1.live hX h

theorem Local.decreases {cfg : Sched.Cfg} {X : Outside} (hX : X.Named) {s s' : FSt} (h : Live s) (hs : Local cfg X s s') : Lex4 (s'.measure 0) (s.measure 0) := by
  obtain ⟨k, h1, h2⟩ := hs
  exact (h1.decreases hX h).2 h2

/-! #### Everything else is done in the end -/

theorem many {cfg : Sched.Cfg} {X : Outside} (hX : X.Named) {s s' : FSt} (h : Live s) (hs : Relation.ReflTransGen (Local cfg X) s s') :
    Live s' ∧ (s' = s ∨ Relation.TransGen Lex4 (s'.measure 0) (s.measure 0)) := by
  induction hs with
  | refl => exact ⟨h, .inl rfl⟩
  | tail _ h2 ih =>
    obtain ⟨g1, g3⟩ := ih
    refine ⟨h2.live hX g1, .inr ?_⟩
    rcases g3 with rfl | g3
    · exact .single (h2.decreases hX g1)
    · exact .head (h2.decreases hX g1) g3

/-- Nothing is going on but in the kernel. -/
def FSt.Calm (s : FSt) : Prop := s.sys.Idle ∧ s.hand = none ∧ s.out = [] ∧ s.plan = none ∧ s.todo = []

/-- As long as no operation is at the watcher, there is a way on after which this is so again. -/
theorem onward {cfg : Sched.Cfg} (hC : 0 < cfg.capC) (hR : 0 < cfg.capR) {X : Outside} (hX : X.Named) (hrel : X.rel = false) {E : Env} (hE : X.env E)
    (hskip : ∀ p, E.opn p ≠ .skip) {s : FSt} (h : Live s) (hp : s.plan = none) (hne : ¬ s.Calm) :
    ∃ s₁ s', Local cfg X s s₁ ∧ Relation.ReflTransGen (Local cfg X) s₁ s' ∧ s'.plan = none := by
  by_cases hb : s.hand = none ∧ s.out = []
  · have ht := h.rest hp
    rcases tree_step (cfg := cfg) (X := X) hC hR h (fun hi => hne ⟨hi, hb.1, hb.2, hp, ht⟩) with ⟨s', h1, h2⟩ | ⟨r, hm⟩
    · exact ⟨s', s', h1, .refl, h2.trans hp⟩
    · obtain ⟨ops, t, new, htold, hnew, hs⟩ := begins (cfg := cfg) hrel E h hp hm
      have hl := h.step hX hs
      obtain ⟨new', h1, h2⟩ := told_right hE hskip htold
      obtain rfl : new' = new := List.append_cancel_right (h1.symm.trans hnew)
      obtain ⟨s', g1, g2, g3, g4⟩ := h2 (fun x hx => hl.plain x (by simpa using hx)) { s with plan := some (r, t), todo := new'.reverse } cfg rfl [] (by simp)
      obtain ⟨s'', k1, k2⟩ := ends (cfg := cfg) (X := X) (many hX hl g1).1 (r := r) (t := t) g2.2 g3
      exact ⟨_, s'', .of hs rfl (.inr rfl), g1.tail k1, k2⟩
  · obtain ⟨s', h1, h2⟩ := monitor_step (cfg := cfg) hC hE h hb
    exact ⟨s', s', h1, .refl, h2.trans hp⟩

theorem drains {cfg : Sched.Cfg} (hC : 0 < cfg.capC) (hR : 0 < cfg.capR) {X : Outside} (hX : X.Named) (hrel : X.rel = false) {E : Env} (hE : X.env E)
    (hskip : ∀ p, E.opn p ≠ .skip) {s : FSt} (h : Live s) (hp : s.plan = none) : ∃ s', Relation.ReflTransGen (Local cfg X) s s' ∧ s'.Calm := by
  have key : ∀ m, ∀ s : FSt, s.measure 0 = m → Live s → s.plan = none → ∃ s', Relation.ReflTransGen (Local cfg X) s s' ∧ s'.Calm := by
    intro m
    induction m using lex4_wf.transGen.induction with
    | _ m ih =>
      intro s hm h hp
      by_cases hr : s.Calm
      · exact ⟨s, .refl, hr⟩
      obtain ⟨s₁, s', h1, h2, h3⟩ := onward (cfg := cfg) hC hR hX hrel hE hskip h hp hr
      have h4 := Relation.ReflTransGen.head h1 h2
      obtain ⟨g1, _⟩ := many hX h h4
      have hlt : Relation.TransGen Lex4 (s'.measure 0) m := by
        obtain ⟨_, g3⟩ := many hX (h1.live hX h) h2
        rw [← hm]
        rcases g3 with rfl | g3
        · exact .single (h1.decreases hX h)
        · exact g3.tail (h1.decreases hX h)
      obtain ⟨s'', k1, k2⟩ := ih _ hlt s' rfl g1 h3
      exact ⟨s'', h4.trans k1, k2⟩
  exact key _ s rfl h hp

/-- C110, Solaris and illumos.  In every state of the program in which something is under way, something can happen without help from users and files: a
goroutine takes a step, or the call of the watcher that is due returns with the other outcome than was guessed.  If this goes on for ever, notifications
are retrieved and the tree calls Unwatch or Rewatch again and again.  From every state in which no operation is at the watcher, each Watch and Stop can
return and each notification that was retrieved can be handled, with no further one retrieved.  Nothing panics.  Calls of the watcher may fail.
Missing: that there are finitely many such calls, so that it does not go on for ever.  (They may make the kernel notify, C109, and a notification may make the tree call.)
`C110_solaris` has this, for directories of bounded depth. -/
theorem C110_solaris_partial {cfg : Sched.Cfg} (hC : 0 < cfg.capC) (hR : 0 < cfg.capR) {X : Outside} (hX : X.Named) (hrel : X.rel = false) {E : Env} (hE : X.env E)
    (hskip : ∀ p, E.opn p ≠ .skip) {ops : List Op} {k : List (Verif.Call × Bool)} {r : List (Path × Event)} {g : List (Key × EventInfo)} {s : FSt}
    (h : FRun cfg X FSt.init ops k r g s) :
    (¬ s.Rest → (∃ k s', Inner cfg X s k s') ∨ (∃ c ok rest k s', s.todo = (c, ok) :: rest ∧ Inner cfg X { s with todo := (c, !ok) :: rest } k s')) ∧
    (∀ (f : Nat → FSt) (ks : Nat → List (Verif.Call × Bool)), f 0 = s → (∀ n, Inner cfg X (f n) (ks n) (f (n + 1))) →
      ∀ m, (∃ n, m ≤ n ∧ Wakes (f n) (f (n + 1))) ∧ ∃ n, m ≤ n ∧ ∃ c ∈ ks n, Undoes c.1) ∧
    (s.plan = none → ∃ s', Relation.ReflTransGen (Local cfg X) s s' ∧ s'.Calm) ∧
    s.sys.tree.world.panicked = false := by
  have hl : Live s := h.live hX .init
  refine ⟨progress hC hR hrel hE hskip hl, fun f ks h0 hf m => ?_, drains hC hR hX hrel hE hskip hl, hl.pan⟩
  have hlive : ∀ n, Live (f n) := by
    intro n
    induction n with
    | zero => rw [h0]; exact hl
    | succ n ih => exact (hf n).live hX ih
  constructor
  · by_contra hn
    refine no_descent lex4_wf (fun n => (f (m + n)).measure 0) fun n => ((hf (m + n)).decreases hX (hlive _)).2 fun hw => hn ⟨m + n, by omega, hw⟩
  · by_contra hn
    refine no_descent lex4_wf (fun n => (f (m + n)).measure (f (m + n)).kern.queue.length) fun n =>
      ((hf (m + n)).decreases hX (hlive _)).1 fun c hc hu => hn ⟨m + n, by omega, c, hc, hu⟩

namespace LiveEx
open Ex (e x d cfg Wr req1 op1 t1 step1 goodE uW)
open Bsd.LiveEx (E8 named8)
open Trg.Ex (E7)

/-- Files change in any way, or vanish for the moment of a call; calls may fail. -/
def X8 : Outside where
  env := fun E => E.Named ∧ (E.stat = E8.stat ∨ ∀ p, E.stat p = none)
  chg := fun _ _ => True
  rel := false

def w8 : Trg.St := (Watch E8 ⟨{}, []⟩ e Wr).1.t
def n8 : List NCall := (Watch E8 ⟨{}, []⟩ e Wr).1.n

/-- Channel 1 watches `/d/e` for Write; the call has returned. -/
def s8 : FSt :=
  { sys := { Sched.State.init Y with tree := t1, next := 1 }, w := w8, kern := n8.foldl Kern.call {}, log := [(.watch e Wr, true)] }

theorem run8 : FRun cfg X8 FSt.init [op1] [(.watch e Wr, true)] [] [] s8 := by
  have h := FRun.refl (cfg := cfg) (X := X8) (s := FSt.init)
  have h := h.step (.go _ _ (.call (Y := Y) req1 (show GoodPath e ∧ NonRec.UserEvents P Wr from ⟨goodE, uW⟩) trivial) trivial)
  have h := h.step (.go _ _ (.lock 0 req1 [] [] rfl (by rintro ⟨_, _, _, _, h⟩; cases h)
    (by rintro ⟨_, _, h | h⟩ <;> cases h <;> contradiction) (by rintro ⟨_, h | h⟩ <;> cases h)) trivial)
  have h := h.step (.plan req1 [op1] t1 [(.watch e Wr, true)] (.inl ⟨0, .head _⟩) rfl ⟨NonRec.Steps.nil.snoc (Plain.step_weaken step1), op1, ⟨_, rfl⟩, .inl rfl⟩ rfl)
  have h := h.step (.call E8 (.watch e Wr) true [] _ ⟨named8, .inl rfl⟩ rfl (.watch e Wr (by decide)))
  have h := h.step (.effect 0 req1 [] [] t1 rfl rfl rfl)
  have h := h.step (.go _ _ (.unlock 0 req1 [] [] rfl) trivial)
  have h := h.step (.go _ _ (.ret 0 req1 [] [] rfl) trivial)
  exact h

/-- Then the file in it is written, and a Stop has the lock. -/
theorem run9 : ∃ ops k r g s, FRun cfg X8 FSt.init ops k r g s ∧ s.kern.queue ≠ [] ∧ (1, .stop 1, .locked) ∈ s.sys.calls ∧ s.plan = none := by
  have h := run8
  have h := h.step (.change x 0x2 trivial)
  have h := h.step (.go _ _ (.call (Y := Y) (Sched.Req.stop 1) trivial trivial) trivial)
  have h := h.step (.go _ _ (.lock 1 (Sched.Req.stop 1) [] [] rfl (by rintro ⟨_, _, _, _, h⟩; cases h)
    (by rintro ⟨_, _, h | h⟩ <;> cases h <;> contradiction) (by rintro ⟨_, h | h⟩ <;> cases h)) trivial)
  exact ⟨_, _, _, _, _, h, by decide, .head _, rfl⟩

example : ∃ s s' : FSt, (1, Sched.Req.stop 1, Sched.Call.locked) ∈ s.sys.calls ∧ s.kern.queue ≠ [] ∧ Relation.ReflTransGen (Local cfg X8) s s' ∧ s'.Calm := by
  obtain ⟨ops, k, r, g, s, h, h1, h2, h3⟩ := run9
  obtain ⟨s', g1, g2⟩ := (C110_solaris_partial (by decide) (by decide) (X := X8) (fun E hE => hE.1) rfl (E := E8) ⟨named8, .inl rfl⟩ (fun p => by simp [E8, E7]) h).2.2.1 h3
  exact ⟨s, s', h2, h1, g1, g2⟩

end LiveEx
end Fen
end Verif
