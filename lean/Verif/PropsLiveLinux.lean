/-
The whole program does not hang (C110): Linux.
-/
import Verif.PropsLivePlain
import Verif.PropsLinux3

namespace Verif

theorem sum_map_set {α : Type} (f : α → Nat) : ∀ (l : List α) (i : Nat) (x y : α), l[i]? = some y → ((l.set i x).map f).sum + f y = (l.map f).sum + f x
  | [], i, x, y, h => by simp at h
  | z :: l, 0, x, y, h => by
    simp only [List.getElem?_cons_zero, Option.some.injEq] at h
    subst h
    simp only [List.set_cons_zero, List.map_cons, List.sum_cons]; omega
  | z :: l, i + 1, x, y, h => by
    simp only [List.getElem?_cons_succ] at h
    have := sum_map_set f l i x y h
    simp only [List.set_cons_succ, List.map_cons, List.sum_cons]; omega

namespace Inotify
open NonRec (GoodPath)

/-- Steps of the goroutines of the watcher that do not send: `loop` reads something and hands it on, a consumer looks up a batch or is done with one. -/
inductive Work : PSt → PSt → Prop
  | read {s : PSt} (n : Nat) : s.batch = none → 0 < n → s.queue ≠ [] → Work s { s with queue := s.queue.drop n, batch := some (s.queue.take n) }
  | hand {s : PSt} (i : Nat) (es : List Raw) : s.batch = some es → s.cons[i]? = some .idle → Work s { s with batch := none, cons := s.cons.set i (.got es) }
  | transform {s : PSt} (i : Nat) (es : List Raw) : s.cons[i]? = some (.got es) → Work s { s with cons := s.cons.set i (.sending (outs s.k.m es)) }
  | next {s : PSt} (i : Nat) : s.cons[i]? = some (.sending []) → Work s { s with cons := s.cons.set i .idle }

theorem Work.step {s s' : PSt} (h : Work s s') : PStep s [] s' := by
  cases h with
  | read n h1 _ _ => exact .read n h1
  | hand i es h1 h2 => exact .hand i es h1 h2
  | transform i es h => exact .transform i es h
  | next i h => exact .next i h

theorem Work.same {s s' : PSt} (h : Work s s') : s'.caller = s.caller ∧ s'.out = s.out ∧ s'.k = s.k := by cases h <;> exact ⟨rfl, rfl, rfl⟩

/-- A record that may give events. -/
def real (r : Raw) : Nat := if r.mask &&& (inIgnored ||| inQOverflow) ≠ 0 then 0 else 1

def reals (l : List Raw) : Nat := (l.map real).sum

theorem reals_append (a b : List Raw) : reals (a ++ b) = reals a + reals b := by simp [reals]

theorem outs_le (m : Table) (es : List Raw) : (outs m es).length ≤ 2 * reals es := by
  have h1 : ∀ r, ((transform1 m r).1.toList).length + ((transform1 m r).2).length ≤ 2 * real r := by
    intro r
    unfold transform1 real
    by_cases h : r.mask &&& (inIgnored ||| inQOverflow) ≠ 0
    · rw [if_pos h, if_pos h]; simp
    · rw [if_neg h, if_neg h]
      split
      · simp
      · split
        · simp
        · dsimp only; split <;> simp
  have hA : ∀ l : List Raw, ((l.map (fun r => (transform1 m r).1.map (Out.mk r))).filterMap id).length = (l.map fun r => ((transform1 m r).1.toList).length).sum := by
    intro l
    induction l with
    | nil => rfl
    | cons r l ih =>
      simp only [List.map_cons, List.sum_cons]
      cases h : (transform1 m r).1 with
      | none => simp only [Option.map_none, List.filterMap_cons_none (f := id) (a := none) rfl, ih]; simp
      | some v => simp only [Option.map_some, List.filterMap_cons_some (f := id) rfl, List.length_cons, ih]; simp [Nat.add_comm]
  have hB : ∀ l : List Raw, ((l.flatMap (fun r => (transform1 m r).2.map (·.map (Out.mk r)))).filterMap id).length ≤ (l.map fun r => ((transform1 m r).2).length).sum := by
    intro l
    induction l with
    | nil => simp
    | cons r l ih =>
      simp only [List.flatMap_cons, List.filterMap_append, List.length_append, List.map_cons, List.sum_cons]
      have := List.length_filterMap_le (id : Option Out → Option Out) ((transform1 m r).2.map (·.map (Out.mk r)))
      rw [List.length_map] at this
      omega
  have hC : ∀ l : List Raw, (l.map fun r => ((transform1 m r).1.toList).length).sum + (l.map fun r => ((transform1 m r).2).length).sum ≤ 2 * reals l := by
    intro l
    induction l with
    | nil => simp
    | cons r l ih =>
      have := h1 r
      simp only [reals, List.map_cons, List.sum_cons] at ih ⊢
      omega
  unfold outs
  rw [List.filterMap_append, List.length_append, hA]
  exact Nat.le_trans (Nat.add_le_add_left (hB es) _) (hC es)

theorem join_good {p : Path} {c : Comp} (hp : GoodPath p) (hc : c ≠ []) : GoodPath (join p c) := by
  unfold join
  obtain ⟨h1, h2⟩ := hp
  split
  · next h => subst h; simp at h2
  · exact ⟨by simp, by simp [h2, hc]⟩

/-- Events are of paths of the table or right below. -/
theorem outs_good {m : Table} (hm : ∀ x ∈ m, GoodPath x.2.path) {es : List Raw} {o : Out} (ho : o ∈ outs m es) : GoodPath o.info.path := by
  have h1 : ∀ r, (∀ v, (transform1 m r).1 = some v → GoodPath v.path) ∧ ∀ v, some v ∈ (transform1 m r).2 → GoodPath v.path := by
    intro r
    unfold transform1
    split
    · exact ⟨by rintro v ⟨⟩, by simp⟩
    · split
      · exact ⟨by rintro v ⟨⟩, by simp⟩
      · next w hw =>
        have hg := hm _ (GoMap.mem_of_get? hw)
        have hp : GoodPath (if r.name = [] then w.path else join w.path r.name) := by
          split
          · exact hg
          · exact join_good hg (by assumption)
        split
        · exact ⟨by rintro v ⟨⟩, by simp⟩
        · dsimp only
          constructor
          · intro v hv
            split at hv
            · cases hv
            · cases hv; exact hp
          · intro v hv
            simp only [List.mem_singleton] at hv
            cases hd : decodeSys w.mask r.mask with
            | none => rw [hd] at hv; cases hv
            | some e => rw [hd] at hv; cases hv; exact hp
  unfold outs at ho
  simp only [List.mem_filterMap, List.mem_append, List.mem_map, List.mem_flatMap, id] at ho
  obtain ⟨x, ⟨r, _, hr⟩ | ⟨r, _, y, hy, hr⟩, rfl⟩ := ho
  · cases hv : (transform1 m r).1 with
    | none => rw [hv] at hr; cases hr
    | some v => rw [hv] at hr; cases hr; exact (h1 r).1 v hv
  · cases y with
    | none => cases hr
    | some v => cases hr; exact (h1 r).2 v hy

/-- What a consumer still has to do. -/
def Consumer.stage : Consumer → Nat
  | .idle => 0
  | .got _ => 2
  | .sending _ => 1

/-- Events that may come of it. -/
def Consumer.load : Consumer → Nat
  | .idle => 0
  | .got es => 2 * reals es
  | .sending l => l.length

/-- Events that may come of all that was reported. -/
def PSt.load (s : PSt) : Nat := 2 * reals s.queue + 2 * reals (s.batch.getD []) + (s.cons.map Consumer.load).sum

/-- Steps of the goroutines of the watcher that are left. -/
def PSt.stage (s : PSt) : Nat := 4 * s.queue.length + (if s.batch = none then 0 else 3) + (s.cons.map Consumer.stage).sum

theorem Work.decreases {s s' : PSt} (h : Work s s') : s'.load ≤ s.load ∧ s'.stage < s.stage := by
  cases h with
  | read n hb hn hq =>
    have h1 : reals s.queue = reals (s.queue.take n) + reals (s.queue.drop n) := by rw [← reals_append, List.take_append_drop]
    have h2 : (s.queue.drop n).length < s.queue.length := by
      have := List.length_pos_iff.2 hq
      rw [List.length_drop]; omega
    simp only [PSt.load, PSt.stage, hb, Option.getD_some, Option.getD_none, if_true]
    rw [if_neg (by simp)]
    have : reals [] = 0 := rfl
    constructor <;> omega
  | hand i es hb hc =>
    have h1 := sum_map_set Consumer.load s.cons i (.got es) .idle hc
    have h2 := sum_map_set Consumer.stage s.cons i (.got es) .idle hc
    simp only [Consumer.load, Consumer.stage] at h1 h2
    simp only [PSt.load, PSt.stage, hb, Option.getD_some, Option.getD_none, if_true]
    rw [if_neg (by simp)]
    have : reals [] = 0 := rfl
    constructor <;> omega
  | transform i es hc =>
    have h0 := outs_le s.k.m es
    have h1 := sum_map_set Consumer.load s.cons i (.sending (outs s.k.m es)) (.got es) hc
    have h2 := sum_map_set Consumer.stage s.cons i (.sending (outs s.k.m es)) (.got es) hc
    simp only [Consumer.load, Consumer.stage] at h1 h2
    simp only [PSt.load, PSt.stage]
    constructor <;> omega
  | next i hc =>
    have h1 := sum_map_set Consumer.load s.cons i .idle (.sending []) hc
    have h2 := sum_map_set Consumer.stage s.cons i .idle (.sending []) hc
    simp only [Consumer.load, Consumer.stage, List.length_nil] at h1 h2
    simp only [PSt.load, PSt.stage]
    constructor <;> omega

end Inotify

namespace Linux
open Inotify (PSt PStep Raw Out Work Consumer)
open NonRec (Op GoodPath)

abbrev L : Sched.Laws Y := Sched.plainLaws I factsI

/-- Nothing is going on in the program. -/
def LSt.Rest (s : LSt) : Prop := s.sys.Idle ∧ s.pipe.Quiet ∧ s.plan = none ∧ s.todo = [] ∧ s.pipe.caller = .idle

/-- The kernel gives the call no descriptor, or there is no entry. -/
def Refused (k : Inotify.St) : Call → Prop
  | .watch p e | .rewatch p _ e => Inotify.accepts e = false ∨ Inotify.addWatch k p (Inotify.encode e) = none
  | .unwatch p => k.m.find? (fun x => decide (x.2.path = p)) = none
  | _ => False

/-- A step inside of the program: nothing happens to files and no user calls.  Calls of the watcher may fail; with `honest` only those fail that have to. -/
inductive Inner (cfg : Sched.Cfg) (honest : Bool) (s : LSt) : LSt → Prop
  /-- A goroutine of the watcher. -/
  | work (p' : PSt) : Work s.pipe p' → Inner cfg honest s { s with pipe := p' }
  /-- A goroutine of the tree, a call of the watcher, or the sending of an event. -/
  | step {o r g s'} : LStep cfg false s o r g s' → s'.sys.calls.length ≤ s.sys.calls.length →
      ¬ (s'.sys = s.sys ∧ s'.plan = s.plan ∧ s'.todo = s.todo ∧ s'.pipe.caller = s.pipe.caller) →
      (honest = true → ∀ c rest, s.todo = (c, false) :: rest → s'.todo = rest → Refused s.pipe.k c) → Inner cfg honest s s'

theorem Inner.weaken {cfg : Sched.Cfg} {s s' : LSt} (h : Inner cfg true s s') : Inner cfg false s s' := by
  cases h with
  | work p' h => exact .work p' h
  | step h1 h2 h3 _ => exact .step h1 h2 h3 (fun h => nomatch h)

/-- Only paths without empty components lead somewhere.  (The root directory is left out: no call is about it, as the requests are not.) -/
def LSt.Named (s : LSt) : Prop := ∀ p, s.pipe.k.inode p ≠ none → GoodPath p

/-- The invariant. -/
structure Live (s : LSt) : Prop where
  inv : Sched.Inv L s.sys
  os : s.sys.os = []
  pan : s.sys.tree.world.panicked = false
  plan : ∀ r t, s.plan = some (r, t) → Y.step s.sys.tree r t ∧ t.world.panicked = false ∧ s.Holds r
  rest : s.plan = none → s.todo = [] ∧ s.pipe.caller = .idle
  plain : ∀ x ∈ s.todo, IsPlain x.1
  cons : s.pipe.cons ≠ []
  named : s.Named
  table : ∀ x ∈ s.pipe.k.m, GoodPath x.2.path
  added : ∀ wd p e, s.pipe.caller = .added wd p e → GoodPath p
  out : ∀ l, Consumer.sending l ∈ s.pipe.cons → ∀ o ∈ l, GoodPath o.info.path

theorem Live.init {f : Path → Option Nat} (hf : ∀ p, f p ≠ none → GoodPath p) {n : Nat} (hn : 0 < n) : Live (LSt.init f n) where
  inv := .init L
  os := rfl
  pan := rfl
  plan := by intro r t h; cases h
  rest := fun _ => ⟨rfl, rfl⟩
  plain := by intro x h; cases h
  cons := by
    intro h
    have h : List.replicate n Consumer.idle = [] := h
    rw [List.replicate_eq_nil_iff] at h
    omega
  named := hf
  table := by intro x h; cases h
  added := by intro wd p e h; cases h
  out := by
    intro l h
    have h : Consumer.sending l ∈ List.replicate n Consumer.idle := h
    have := List.eq_of_mem_replicate h
    cases this

theorem Live.holds {s : LSt} (h : Live s) {r : Sched.Req} (hr : s.Holds r) : Y.okReq r := by
  rcases hr with ⟨i, hm⟩ | ⟨ei, hm, rfl⟩
  · exact h.inv.oks.calls _ hm
  · exact h.inv.oks.int ei (by simp [hm])

theorem sending_set {l : List Consumer} {i : Nat} {c : Consumer} {m : List Out} (h : Consumer.sending m ∈ l.set i c) : Consumer.sending m ∈ l ∨ c = .sending m := by
  rcases List.mem_or_eq_of_mem_set h with h | h
  · exact .inl h
  · exact .inr h.symm

theorem addWatch_m {k k' : Inotify.St} {p : Path} {e : Event} {wd : Nat} (h : Inotify.addWatch k p e = some (wd, k')) :
    k'.m = k.m ∧ k'.inode = k.inode ∧ k.inode p ≠ none := by
  unfold Inotify.addWatch at h
  split at h
  · cases h
  · split at h
    · cases h
    · next ino hi =>
      split at h <;> cases h <;> exact ⟨rfl, rfl, by rw [hi]; simp⟩

theorem set_ne_nil {α : Type} {l : List α} (h : l ≠ []) (i : Nat) (x : α) : l.set i x ≠ [] := by simpa [List.set_eq_nil_iff] using h

theorem Live.step {cfg : Sched.Cfg} {stable : Bool} {s s' : LSt} {o : List Op} {r : List Raw} {g : List (Key × EventInfo)} (h : Live s)
    (hs : LStep cfg stable s o r g s') (hn : s'.Named) : Live s' := by
  obtain ⟨h1, h2, h3, h4, h5, h6, h7, h8, h9, h10, h11⟩ := h
  have busy : ∀ {x}, s.todo = x → x ≠ [] → s.plan ≠ none := fun hx hne hp => hne (hx ▸ (h5 hp).1)
  have mid : ∀ {c}, s.pipe.caller = c → c ≠ .idle → s.plan ≠ none := fun hc hne hp => hne (hc ▸ (h5 hp).2)
  cases hs with
  | go l sys' htr hfree =>
    refine ⟨h1.tr htr, (Plain.free_os htr hfree).trans h2, (Plain.free_tree htr hfree) ▸ h3, ?_, h5, h6, h7, hn, h9, h10, h11⟩
    intro r t hp
    obtain ⟨g1, g2, g3⟩ := h4 r t hp
    refine ⟨?_, g2, holds_go htr hfree g3⟩
    simp only [Plain.free_tree htr hfree]; exact g1
  | pipe raws p' hps hc ho hst =>
    have key : p'.cons ≠ [] ∧ (∀ x ∈ p'.k.m, GoodPath x.2.path) ∧ ∀ l, Consumer.sending l ∈ p'.cons → ∀ o ∈ l, GoodPath o.info.path := by
      cases hps with
      | change r _ => exact ⟨h7, h9, h11⟩
      | fs k' hf => cases hf with | mk f keep _ => exact ⟨h7, h9, h11⟩
      | reorder k' _ hr => cases hr with | mk m' hp => exact ⟨h7, fun x hx => h9 x (hp.mem_iff.1 hx), h11⟩
      | add p e wd k' hi _ _ => rw [hi] at hc; cases hc
      | table wd p e hi => rw [hi] at hc; cases hc
      | rm p wd w l hi _ _ => rw [hi] at hc; cases hc
      | forget wd hi => rw [hi] at hc; cases hc
      | read n _ => exact ⟨h7, h9, h11⟩
      | hand i es _ _ =>
        refine ⟨set_ne_nil h7 _ _, h9, fun l hl => ?_⟩
        rcases sending_set hl with hl | hl
        · exact h11 l hl
        · cases hl
      | transform i es _ =>
        refine ⟨set_ne_nil h7 _ _, h9, fun l hl => ?_⟩
        rcases sending_set hl with hl | hl
        · exact h11 l hl
        · cases hl; exact fun o ho => Inotify.outs_good h9 ho
      | send i o l hi =>
        have : (s.pipe.out ++ [o]).length = s.pipe.out.length := congrArg List.length ho
        simp at this
      | next i _ =>
        refine ⟨set_ne_nil h7 _ _, h9, fun l hl => ?_⟩
        rcases sending_set hl with hl | hl
        · exact h11 l hl
        · cases hl
    refine ⟨h1, h2, h3, h4, fun hp => ⟨(h5 hp).1, hc.trans (h5 hp).2⟩, h6, key.1, hn, key.2.1, fun wd p e he => h10 wd p e (hc ▸ he), key.2.2⟩
  | send i o l hl hc hok =>
    have htr : Sched.Tr Y cfg { s.sys with os := [o.info] } (.push o.info) { s.sys with os := [], cq := s.sys.cq ++ [o.info] } := .push o.info [] rfl hc
    have hr : Sched.Tr Y cfg s.sys (.report [o.info]) { s.sys with os := [o.info] } := .report [o.info] (by simpa using hok) h2
    have he : ({ s.sys with os := [], cq := s.sys.cq ++ [o.info] } : Sched.State Y) = { s.sys with cq := s.sys.cq ++ [o.info] } := by rw [← h2]
    refine ⟨he ▸ (h1.tr hr).tr htr, h2, h3, h4, h5, h6, set_ne_nil h7 _ _, hn, h9, h10, fun l' hl' => ?_⟩
    rcases sending_set hl' with hl' | hl'
    · exact h11 l' hl'
    · cases hl'
      exact fun o' ho' => h11 _ (List.mem_of_getElem? hl) o' (by simp [ho'])
  | plan r ops t new hr hp ht hn' =>
    have hm := Plain.steps_mild ht.1
    refine ⟨h1, h2, h3, ?_, (fun h => nomatch h), ?_, h7, hn, h9, h10, h11⟩
    · rintro r t ⟨⟩; exact ⟨Plain.plans_step ht, hm.pan.trans h3, hr⟩
    · obtain ⟨n, g1, g2⟩ := hm.plain
      obtain rfl : n = new := List.append_cancel_right (g1.symm.trans hn')
      intro x hx
      exact g2 x (by simpa using hx)
  | add c p e rest wd k' ht ha hc he hk =>
    obtain ⟨g1, g2, g3⟩ := addWatch_m hk
    refine ⟨h1, h2, h3, h4, fun hp => absurd hp (busy ht (by simp)), fun x hx => h6 x (by rw [ht]; simp [hx]), h7, hn, ?_, ?_, h11⟩
    · dsimp only; rw [g1]; exact h9
    · rintro wd p e ⟨⟩; exact h8 _ g3
  | table wd p e hc =>
    refine ⟨h1, h2, h3, h4, fun hp => absurd hp (mid hc (by simp)), h6, h7, hn, fun x hx => ?_, (fun _ _ _ h => nomatch h), h11⟩
    rcases Inotify.mem_set' hx with hx | rfl
    · exact h9 x hx
    · exact h10 wd p e hc
  | rm p rest wd w l ht hc hf hl =>
    exact ⟨h1, h2, h3, h4, fun hp => absurd hp (busy ht (by simp)), fun x hx => h6 x (by rw [ht]; simp [hx]), h7, hn, h9, (fun _ _ _ h => nomatch h), h11⟩
  | forget wd hc =>
    exact ⟨h1, h2, h3, h4, fun hp => absurd hp (mid hc (by simp)), h6, h7, hn, fun x hx => h9 x (Inotify.mem_del' hx), (fun _ _ _ h => nomatch h), h11⟩
  | refuse c rest ht hc hf =>
    exact ⟨h1, h2, h3, h4, fun hp => absurd hp (busy ht (by simp)), fun x hx => h6 x (by rw [ht]; simp [hx]), h7, hn, h9, h10, h11⟩
  | effect i r a b t hcalls hp ht hc =>
    have htr : Sched.Tr Y cfg s.sys (.effect i r) _ := .effect i r a b t hcalls (h4 _ _ hp).1 fun _ => h2
    exact ⟨h1.tr htr, h2, (h4 _ _ hp).2.1, (fun r t h => nomatch h), fun _ => ⟨ht, hc⟩, h6, h7, hn, h9, h10, h11⟩
  | intEffect ei t hi hp ht hc =>
    have htr : Sched.Tr Y cfg s.sys _ _ := .intEffect ei t hi (h4 _ _ hp).1 fun _ => h2
    exact ⟨h1.tr htr, h2, (h4 _ _ hp).2.1, (fun r t h => nomatch h), fun _ => ⟨ht, hc⟩, h6, h7, hn, h9, h10, h11⟩

theorem LRun.live {cfg : Sched.Cfg} {stable : Bool} {J : LSt → Prop} (hJ : ∀ s, J s → s.Named) {ops : List Op} {r : List Raw}
    {g : List (Key × EventInfo)} {s s' : LSt} (h0 : Live s) (h : LRun cfg stable J s ops r g s') : Live s' := by
  induction h with
  | refl => exact h0
  | step _ hs hj ih => exact ih.step hs (hJ _ hj)

/-- Files stay as they are. -/
theorem Inner.inode {cfg : Sched.Cfg} {honest : Bool} {s s' : LSt} (h : Inner cfg honest s s') : s'.pipe.k.inode = s.pipe.k.inode := by
  cases h with
  | work p' hw => dsimp only; rw [hw.same.2.2]
  | step hs hcl hne _ =>
    cases hs with
    | pipe raws p' hps hc ho hst => exact absurd ⟨rfl, rfl, rfl, hc⟩ hne
    | add c p e rest wd k' ht ha hc he hk => exact (addWatch_m hk).2.1
    | _ => rfl

theorem Inner.live {cfg : Sched.Cfg} {honest : Bool} {s s' : LSt} (h : Live s) (hs : Inner cfg honest s s') : Live s' := by
  have hn : s'.Named := by intro p; rw [hs.inode]; exact h.named p
  cases hs with
  | work p' hw => exact h.step (cfg := cfg) (stable := false) (.pipe [] p' hw.step hw.same.1 hw.same.2.1 (fun h => nomatch h)) hn
  | step hs _ _ _ => exact h.step hs hn

/-! #### Termination -/

/-- What is left to do. -/
def LSt.measure (s : LSt) : Nat × Nat × Nat × Nat :=
  (2 * (9 * s.pipe.load + s.sys.work) + (if s.plan = none then 1 else 0), 2 * s.todo.length + (if s.pipe.caller = .idle then 0 else 1),
    s.pipe.stage, s.sys.left)

theorem Inner.decreases {cfg : Sched.Cfg} {honest : Bool} {s s' : LSt} (h : Live s) (hs : Inner cfg honest s s') : Lex4 s'.measure s.measure := by
  cases hs with
  | work p' hw =>
    obtain ⟨h1, h2⟩ := hw.decreases
    have h3 := hw.same.1
    by_cases hlt : p'.load < s.pipe.load
    · exact .inl (by simp only [LSt.measure]; omega)
    · exact .inr ⟨by simp only [LSt.measure]; omega, .inr ⟨by simp only [LSt.measure, h3], .inl h2⟩⟩
  | step hs hcl hne _ =>
    cases hs with
    | go l sys' htr hfree =>
      have henv := htr.calls_env hcl (by rintro evs rfl; exact hfree)
      rcases htr.decreases L h.inv henv with hd | ⟨hd1, hd2⟩
      · exact .inl (by simp only [LSt.measure]; omega)
      · exact .inr ⟨by simp only [LSt.measure]; omega, .inr ⟨rfl, .inr ⟨rfl, hd2⟩⟩⟩
    | pipe raws p' hps hc ho hst => exact absurd ⟨rfl, rfl, rfl, hc⟩ hne
    | send i o l hl hq hok =>
      left
      have h1 := sum_map_set Consumer.load s.pipe.cons i (.sending l) (.sending (o :: l)) hl
      simp only [Consumer.load, List.length_cons] at h1
      simp only [LSt.measure, PSt.load, Sched.State.work, List.length_append, List.length_cons, List.length_nil]
      omega
    | plan r ops t new hr hp ht hn => left; simp [LSt.measure, hp]
    | add c p e rest wd k' ht ha hc he hk =>
      right; exact ⟨rfl, .inl (by simp [LSt.measure, ht, hc]; omega)⟩
    | table wd p e hc => right; exact ⟨rfl, .inl (by simp [LSt.measure, hc])⟩
    | rm p rest wd w l ht hc hf hl =>
      right
      have hr : ∀ l : List Raw, l = [] ∨ l = [{ wd := wd, mask := Inotify.inIgnored }] → Inotify.reals (s.pipe.queue ++ l) = Inotify.reals s.pipe.queue := by
        intro l hl
        rw [Inotify.reals_append]
        rcases hl with rfl | rfl
        · rfl
        · have h0 : Inotify.real { wd := wd, mask := Inotify.inIgnored } = 0 := if_pos (show Inotify.inIgnored &&& (Inotify.inIgnored ||| Inotify.inQOverflow) ≠ 0 by decide)
          simp [Inotify.reals, h0]
      refine ⟨by simp only [LSt.measure, PSt.load, hr _ hl], .inl (by simp [LSt.measure, ht, hc]; omega)⟩
    | forget wd hc => right; exact ⟨rfl, .inl (by simp [LSt.measure, hc])⟩
    | refuse c rest ht hc hf => right; exact ⟨rfl, .inl (by simp [LSt.measure, ht])⟩
    | effect i r a b t hcalls hp ht hc =>
      left
      simp [LSt.measure, hp, Sched.State.work, hcalls, Sched.Call.w]
      omega
    | intEffect ei t hi hp ht hc =>
      left
      simp [LSt.measure, hp, Sched.State.work, hi, Sched.Intern.w]
      omega

theorem many {cfg : Sched.Cfg} {honest : Bool} {s s' : LSt} (h : Live s) (hs : Relation.ReflTransGen (Inner cfg honest) s s') :
    Live s' ∧ (s' = s ∨ Relation.TransGen Lex4 s'.measure s.measure) := by
  induction hs with
  | refl => exact ⟨h, .inl rfl⟩
  | tail _ h2 ih =>
    obtain ⟨g1, g3⟩ := ih
    refine ⟨h2.live g1, .inr ?_⟩
    rcases g3 with rfl | g3
    · exact .single (h2.decreases g1)
    · exact .head (h2.decreases g1) g3

/-! #### The answers of the watcher -/

/-- What the watcher answers, and the watcher afterwards. -/
def ans (k : Inotify.St) : Call → Bool × Inotify.St
  | .watch p e | .rewatch p _ e => ((Inotify.watch false k p e).2, (Inotify.watch false k p e).1)
  | .unwatch p => ((Inotify.unwatch k p).2, (Inotify.unwatch k p).1)
  | _ => (false, k)

/-- The rest of the state. -/
def Same (s s' : LSt) : Prop := s'.sys = s.sys ∧ s'.plan = s.plan

/-- The watcher can give this answer. -/
theorem serve {cfg : Sched.Cfg} {s : LSt} {c : Call} (hpl : IsPlain c) {rest : List (Call × Bool)} (hi : s.pipe.caller = .idle)
    (ht : s.todo = (c, (ans s.pipe.k c).1) :: rest) :
    ∃ s', Relation.TransGen (Inner cfg true) s s' ∧ Same s s' ∧ s'.pipe.caller = .idle ∧ s'.todo = rest ∧ s'.pipe.k = (ans s.pipe.k c).2 := by
  have ask : ∀ p e, Asks c p e → ans s.pipe.k c = ((Inotify.watch false s.pipe.k p e).2, (Inotify.watch false s.pipe.k p e).1) →
      (Refused s.pipe.k c ↔ (Inotify.accepts e = false ∨ Inotify.addWatch s.pipe.k p (Inotify.encode e) = none)) →
      ∃ s', Relation.TransGen (Inner cfg true) s s' ∧ Same s s' ∧ s'.pipe.caller = .idle ∧ s'.todo = rest ∧ s'.pipe.k = (ans s.pipe.k c).2 := by
    intro p e ha he href
    have no : ans s.pipe.k c = (false, s.pipe.k) → (Inotify.accepts e = false ∨ Inotify.addWatch s.pipe.k p (Inotify.encode e) = none) →
        ∃ s', Relation.TransGen (Inner cfg true) s s' ∧ Same s s' ∧ s'.pipe.caller = .idle ∧ s'.todo = rest ∧ s'.pipe.k = (ans s.pipe.k c).2 := by
      intro h0 hr
      rw [h0] at ht ⊢
      have hs : LStep cfg false s [] [] [] _ := .refuse c rest ht hi (.inl ⟨p, e, ha⟩)
      refine ⟨_, .single (.step hs (Nat.le_refl _) ?_ ?_), ⟨rfl, rfl⟩, hi, rfl, rfl⟩
      · rintro ⟨_, _, h, _⟩; rw [ht] at h; simp at h
      · intro _ c' rest' h1 _
        rw [ht] at h1; cases h1; exact href.2 hr
    by_cases hacc : Inotify.accepts e = false
    · exact no (by rw [he]; simp [Inotify.watch, hacc]) (.inl hacc)
    · cases hadd : Inotify.addWatch s.pipe.k p (Inotify.encode e) with
      | none => exact no (by rw [he]; simp [Inotify.watch, hadd]) (.inr hadd)
      | some x =>
        obtain ⟨wd, k'⟩ := x
        have h0 : ans s.pipe.k c = (true, { k' with m := k'.m.set wd ⟨p, e⟩ }) := by rw [he]; simp [Inotify.watch, hadd, hacc]
        rw [h0] at ht ⊢
        have hs : LStep cfg false s [] [] [] _ := .add c p e rest wd k' ht ha hi (by simpa using hacc) hadd
        have hs' : LStep cfg false _ [] [] [] _ := .table (s := { s with pipe := { s.pipe with k := k', caller := .added wd p e }, todo := rest, log := (c, true) :: s.log }) wd p e rfl
        refine ⟨_, .tail (.single (.step hs (Nat.le_refl _) ?_ ?_)) (.step hs' (Nat.le_refl _) ?_ ?_), ⟨rfl, rfl⟩, rfl, rfl, rfl⟩
        · rintro ⟨_, _, h, _⟩; rw [ht] at h; simp at h
        · intro _ c' rest' h1 _; rw [ht] at h1; cases h1
        · rintro ⟨_, _, _, h⟩; cases h
        · intro _ c' rest' h1 h2
          have h1 : rest = (c', false) :: rest' := h1
          have h2 : rest = rest' := h2
          rw [h2] at h1; simp at h1
  cases c with
  | watch p e => exact ask p e (.inl rfl) rfl Iff.rfl
  | rewatch p old e => exact ask p e (.inr ⟨old, rfl⟩) rfl Iff.rfl
  | unwatch p =>
    cases hf : s.pipe.k.m.find? (fun x => decide (x.2.path = p)) with
    | none =>
      have h0 : ans s.pipe.k (.unwatch p) = (false, s.pipe.k) := by simp [ans, Inotify.unwatch, hf]
      rw [h0] at ht ⊢
      have hs : LStep cfg false s [] [] [] _ := .refuse _ rest ht hi (.inr ⟨p, rfl, .inl rfl⟩)
      refine ⟨_, .single (.step hs (Nat.le_refl _) ?_ ?_), ⟨rfl, rfl⟩, hi, rfl, rfl⟩
      · rintro ⟨_, _, h, _⟩; rw [ht] at h; simp at h
      · intro _ c' rest' h1 _
        rw [ht] at h1; cases h1; exact hf
    | some x =>
      obtain ⟨wd, w⟩ := x
      have h0 : ans s.pipe.k (.unwatch p) = (true, { s.pipe.k with watches := s.pipe.k.watches.del wd, m := s.pipe.k.m.del wd }) := by
        simp [ans, Inotify.unwatch, hf]
      rw [h0] at ht ⊢
      have hs : LStep cfg false s [] [] [] _ := .rm p rest wd w [] ht hi hf (.inl rfl)
      have hs' : LStep cfg false _ [] [] [] _ := .forget (s := { s with pipe := { s.pipe with k := { s.pipe.k with watches := s.pipe.k.watches.del wd }, queue := s.pipe.queue ++ [], caller := .removed wd }, todo := rest, log := (.unwatch p, true) :: s.log }) wd rfl
      refine ⟨_, .tail (.single (.step hs (Nat.le_refl _) ?_ ?_)) (.step hs' (Nat.le_refl _) ?_ ?_), ⟨rfl, rfl⟩, rfl, rfl, rfl⟩
      · rintro ⟨_, _, h, _⟩; rw [ht] at h; simp at h
      · intro _ c' rest' h1 _; rw [ht] at h1; cases h1
      · rintro ⟨_, _, _, h⟩; cases h
      · intro _ c' rest' h1 h2
        have h1 : rest = (c', false) :: rest' := h1
        have h2 : rest = rest' := h2
        rw [h2] at h1; simp at h1
  | _ => exact hpl.elim

/-- The watcher after the calls of a log. -/
def replay (k : Inotify.St) : Log → Inotify.St
  | [] => k
  | (c, _) :: l => (ans (replay k l) c).2

/-- The oracle that answers as the watcher does. -/
def right (k : Inotify.St) (base : Log) : Oracle := fun l c => (ans (replay k (l.take (l.length - base.length))) c).1

theorem told_right {k : Inotify.St} {base b : Log} (h : Told (right k base) base b) :
    ∃ new, b = new ++ base ∧ ((∀ x ∈ new, IsPlain x.1) → ∀ (s : LSt) (cfg : Sched.Cfg), s.pipe.k = k → s.pipe.caller = .idle → ∀ rest, s.todo = new.reverse ++ rest →
      ∃ s', Relation.ReflTransGen (Inner cfg true) s s' ∧ Same s s' ∧ s'.pipe.caller = .idle ∧ s'.todo = rest ∧ s'.pipe.k = replay k new) := by
  induction h with
  | refl => exact ⟨[], rfl, fun _ s cfg hx hi rest ht => ⟨s, .refl, ⟨rfl, rfl⟩, hi, ht, hx⟩⟩
  | @cons b c _ ih =>
    obtain ⟨new, rfl, ih⟩ := ih
    refine ⟨(c, Linux.right k base (new ++ base) c) :: new, rfl, fun hpl s cfg hx hi rest ht => ?_⟩
    obtain ⟨s', h1, h2, h3, h4, h5⟩ := ih (fun x hx => hpl x (by simp [hx])) s cfg hx hi ((c, Linux.right k base (new ++ base) c) :: rest) (by rw [ht]; simp)
    have hr : Linux.right k base (new ++ base) c = (ans s'.pipe.k c).1 := by rw [h5]; unfold Linux.right; simp
    obtain ⟨s₂, g2, g3, g4, g5, g6⟩ := serve (cfg := cfg) (hpl (c, Linux.right k base (new ++ base) c) (by simp)) h3 (by rw [h4, hr])
    exact ⟨s₂, h1.trans g2.to_reflTransGen, ⟨g3.1.trans h2.1, g3.2.trans h2.2⟩, g4, g5, by rw [g6, h5]; rfl⟩

/-! #### Progress -/

theorem inner_free {l : Sched.Lab Sched.Req} (h : l.inner) : Free l := by cases l <;> first | trivial | exact h

theorem Inner.go {cfg : Sched.Cfg} {s : LSt} (hl : Live s) {l : Sched.Lab Sched.Req} {sys' : Sched.State Y} (h : Sched.Tr Y cfg s.sys l sys') (hi : l.inner) :
    Inner cfg true s { s with sys := sys' } := by
  refine .step (.go l sys' h (inner_free hi)) (h.calls_le hi.env) ?_ ?_
  · rintro ⟨he, _⟩
    have he : sys' = s.sys := he
    rcases h.decreases L hl.inv hi.env with hd | ⟨_, hd⟩ <;> rw [he] at hd <;> exact absurd hd (Nat.lt_irrefl _)
  · intro _ c rest h1 h2
    have h2 : s.todo = rest := h2
    rw [h2] at h1; simp at h1

/-- The goroutines of the watcher go on. -/
theorem pipe_step {cfg : Sched.Cfg} (hC : 0 < cfg.capC) {s : LSt} (h : Live s) (hq : ¬ s.pipe.Quiet) : ∃ s', Inner cfg true s s' ∧ s'.plan = s.plan := by
  by_cases hc : ∀ c ∈ s.pipe.cons, c = Consumer.idle
  · cases hb : s.pipe.batch with
    | some es =>
      cases hcs : s.pipe.cons with
      | nil => exact absurd hcs h.cons
      | cons c l =>
        obtain rfl := hc c (by rw [hcs]; simp)
        exact ⟨_, .work _ (.hand 0 es hb (by rw [hcs]; rfl)), rfl⟩
    | none =>
      have hne : s.pipe.queue ≠ [] := fun hq' => hq ⟨hq', hb, hc⟩
      exact ⟨_, .work _ (.read 1 hb (by decide) hne), rfl⟩
  · simp only [not_forall] at hc
    obtain ⟨c, hm, hne⟩ := hc
    obtain ⟨i, hi⟩ := List.getElem?_of_mem hm
    cases c with
    | idle => exact absurd rfl hne
    | got es => exact ⟨_, .work _ (.transform i es hi), rfl⟩
    | sending l =>
      cases l with
      | nil => exact ⟨_, .work _ (.next i hi), rfl⟩
      | cons o l =>
        by_cases hq : s.sys.cq.length < cfg.capC
        · refine ⟨_, .step (.send i o l hi hq (h.out _ hm o (by simp))) (Nat.le_refl _) ?_ ?_, rfl⟩
          · rintro ⟨he, _⟩
            have := congrArg (fun x : Sched.State Y => x.cq.length) he
            simp at this
          · intro _ c rest h1 h2
            have h2 : s.todo = rest := h2
            rw [h2] at h1; simp at h1
        · cases hcq : s.sys.cq with
          | nil => rw [hcq] at hq; exact absurd hC hq
          | cons ei q => exact ⟨_, .go h (.spawn ei q hcq) trivial, rfl⟩

/-- An operation that holds the lock begins, with the answers that the watcher gives. -/
theorem begins {cfg : Sched.Cfg} {s : LSt} (h : Live s) (hp : s.plan = none) {r : Sched.Req} (hm : s.Holds r) :
    ∃ t new, Told (right s.pipe.k s.sys.tree.world.log) s.sys.tree.world.log t.world.log ∧ t.world.log = new ++ s.sys.tree.world.log ∧
      Inner cfg true s { s with plan := some (r, t), todo := new.reverse } := by
  obtain ⟨ops, t, h1, h2⟩ := Plain.begins (right s.pipe.k s.sys.tree.world.log) s.sys.tree (h.holds hm)
  obtain ⟨new, hnew⟩ := h2.told.suffix
  refine ⟨t, new, h2.told, hnew, .step (.plan r ops t new hm hp h1 hnew) (Nat.le_refl _) ?_ ?_⟩
  · rintro ⟨_, he, _⟩; rw [hp] at he; cases he
  · intro _ c rest h1 _
    rw [(h.rest hp).1] at h1; cases h1

/-- The operation is done with the tree. -/
theorem ends {cfg : Sched.Cfg} {s : LSt} (h : Live s) {r : Sched.Req} {t : St} (hp : s.plan = some (r, t)) (ht : s.todo = []) (hc : s.pipe.caller = .idle) :
    ∃ s', Inner cfg true s s' ∧ s'.plan = none := by
  have no : ∀ {s' : LSt}, true = true → ∀ c rest, s.todo = (c, false) :: rest → s'.todo = rest → Refused s.pipe.k c := by
    intro s' _ c rest h1; rw [ht] at h1; cases h1
  obtain ⟨_, _, ⟨i, hm⟩ | ⟨ei, hm, rfl⟩⟩ := h.plan r t hp
  · obtain ⟨a, b, hab⟩ := List.append_of_mem hm
    refine ⟨_, .step (.effect i r a b t hab hp ht hc) (by simp [hab]) ?_ no, rfl⟩
    rintro ⟨_, he, _⟩; rw [hp] at he; cases he
  · refine ⟨_, .step (.intEffect ei t hm hp ht hc) (Nat.le_refl _) ?_ no, rfl⟩
    rintro ⟨_, he, _⟩; rw [hp] at he; cases he

/-- A goroutine of the tree goes on, or a request has the lock. -/
theorem tree_step {cfg : Sched.Cfg} (hC : 0 < cfg.capC) (hR : 0 < cfg.capR) {s : LSt} (h : Live s) (hne : ¬ s.sys.Idle) :
    (∃ s', Inner cfg true s s' ∧ s'.plan = s.plan) ∨ ∃ r, s.Holds r := by
  rcases Sched.progress_inner hC hR h.os hne with ⟨l, s', h1, h2⟩ | ⟨i, r, hm⟩ | ⟨ei, hm⟩
  · exact .inl ⟨_, .go h h1 h2, rfl⟩
  · exact .inr ⟨r, .inl ⟨i, hm⟩⟩
  · exact .inr ⟨_, .inr ⟨ei, hm, rfl⟩⟩

theorem progress {cfg : Sched.Cfg} (hC : 0 < cfg.capC) (hR : 0 < cfg.capR) {s : LSt} (h : Live s) (hne : ¬ s.Rest) :
    (∃ s', Inner cfg false s s') ∨ (∃ c rest s', s.todo = (c, true) :: rest ∧ Inner cfg false { s with todo := (c, false) :: rest } s') := by
  by_cases hq : s.pipe.Quiet
  swap
  · obtain ⟨s', h1, _⟩ := pipe_step (cfg := cfg) hC h hq; exact .inl ⟨s', h1.weaken⟩
  cases hca : s.pipe.caller with
  | added wd p e =>
    refine .inl ⟨_, .step (.table wd p e hca) (Nat.le_refl _) ?_ (fun h => nomatch h)⟩
    rintro ⟨_, _, _, he⟩; rw [hca] at he; cases he
  | removed wd =>
    refine .inl ⟨_, .step (.forget wd hca) (Nat.le_refl _) ?_ (fun h => nomatch h)⟩
    rintro ⟨_, _, _, he⟩; rw [hca] at he; cases he
  | idle =>
  cases ht : s.todo with
  | cons x rest =>
    obtain ⟨c, ok⟩ := x
    have hpl := h.plain (c, ok) (by rw [ht]; simp)
    have hf : (∃ p e, Asks c p e) ∨ ∃ p, c = .unwatch p ∧ (false = false ∨ s.pipe.k.m.find? (fun x => decide (x.2.path = p)) = none) := by
      cases c with
      | watch p e => exact .inl ⟨p, e, .inl rfl⟩
      | rewatch p old e => exact .inl ⟨p, e, .inr ⟨old, rfl⟩⟩
      | unwatch p => exact .inr ⟨p, rfl, .inl rfl⟩
      | _ => exact hpl.elim
    cases ok with
    | false =>
      refine .inl ⟨_, .step (.refuse c rest ht hca hf) (Nat.le_refl _) ?_ (fun h => nomatch h)⟩
      rintro ⟨_, _, he, _⟩; rw [ht] at he; simp at he
    | true =>
      refine .inr ⟨c, rest, _, rfl, .step (s := { s with todo := (c, false) :: rest }) (.refuse c rest rfl hca hf) (Nat.le_refl _) ?_ (fun h => nomatch h)⟩
      rintro ⟨_, _, he, _⟩; simp at he
  | nil =>
  cases hp : s.plan with
  | some x => obtain ⟨s', h1, _⟩ := ends (cfg := cfg) h hp ht hca; exact .inl ⟨s', h1.weaken⟩
  | none =>
  rcases tree_step (cfg := cfg) hC hR h (fun hi => hne ⟨hi, hq, hp, ht, hca⟩) with ⟨s', h1, _⟩ | ⟨r, hm⟩
  · exact .inl ⟨s', h1.weaken⟩
  · obtain ⟨t, new, _, _, hs⟩ := begins (cfg := cfg) h hp hm
    exact .inl ⟨_, hs.weaken⟩

/-! #### Everything is done in the end -/

/-- As long as no operation is at the watcher, there is a way on after which this is so again. -/
theorem onward {cfg : Sched.Cfg} (hC : 0 < cfg.capC) (hR : 0 < cfg.capR) {s : LSt} (h : Live s) (hp : s.plan = none) (hne : ¬ s.Rest) :
    ∃ s₁ s', Inner cfg true s s₁ ∧ Relation.ReflTransGen (Inner cfg true) s₁ s' ∧ s'.plan = none := by
  obtain ⟨ht, hca⟩ := h.rest hp
  by_cases hq : s.pipe.Quiet
  · rcases tree_step (cfg := cfg) hC hR h (fun hi => hne ⟨hi, hq, hp, ht, hca⟩) with ⟨s', h1, h2⟩ | ⟨r, hm⟩
    · exact ⟨s', s', h1, .refl, h2.trans hp⟩
    · obtain ⟨t, new, htold, hnew, hs⟩ := begins (cfg := cfg) h hp hm
      have hl := hs.live h
      obtain ⟨new', h1, h2⟩ := told_right htold
      obtain rfl : new' = new := List.append_cancel_right (h1.symm.trans hnew)
      obtain ⟨s', g1, g2, g3, g4, g5⟩ := h2 (fun x hx => hl.plain x (by simpa using hx)) { s with plan := some (r, t), todo := new'.reverse } cfg rfl hca [] (by simp)
      obtain ⟨s'', k1, k2⟩ := ends (cfg := cfg) (many hl g1).1 (r := r) (t := t) g2.2 g4 g3
      exact ⟨_, s'', hs, g1.tail k1, k2⟩
  · obtain ⟨s', h1, h2⟩ := pipe_step (cfg := cfg) hC h hq
    exact ⟨s', s', h1, .refl, h2.trans hp⟩

theorem drains {cfg : Sched.Cfg} (hC : 0 < cfg.capC) (hR : 0 < cfg.capR) {s : LSt} (h : Live s) (hp : s.plan = none) :
    ∃ s', Relation.ReflTransGen (Inner cfg true) s s' ∧ s'.Rest := by
  have key : ∀ m, ∀ s : LSt, s.measure = m → Live s → s.plan = none → ∃ s', Relation.ReflTransGen (Inner cfg true) s s' ∧ s'.Rest := by
    intro m
    induction m using lex4_wf.transGen.induction with
    | _ m ih =>
      intro s hm h hp
      by_cases hr : s.Rest
      · exact ⟨s, .refl, hr⟩
      obtain ⟨s₁, s', h1, h2, h3⟩ := onward (cfg := cfg) hC hR h hp hr
      have h4 := Relation.ReflTransGen.head h1 h2
      obtain ⟨g1, _⟩ := many h h4
      have hlt : Relation.TransGen Lex4 s'.measure m := by
        obtain ⟨_, g3⟩ := many (h1.live h) h2
        rw [← hm]
        rcases g3 with rfl | g3
        · exact .single (h1.decreases h)
        · exact g3.tail (h1.decreases h)
      obtain ⟨s'', k1, k2⟩ := ih _ hlt s' rfl g1 h3
      exact ⟨s'', h4.trans k1, k2⟩
  exact key _ s rfl h hp

/-- C110, Linux.  In every state of the program in which something is under way, something can happen without help from users and files: a goroutine takes a
step, or the call of the watcher that is due fails although it was guessed to succeed.  This does not go on for ever, and nothing panics.  From every
state in which no operation is at the watcher everything can be brought to its end, that is, each Watch and Stop returns and each record of the kernel is
handled, with no failures of calls but those that the kernel's tables demand.  Before, calls of the watcher may have failed, files been moved and linked, and the kernel's
queue may have run over. -/
theorem C110_linux {cfg : Sched.Cfg} (hC : 0 < cfg.capC) (hR : 0 < cfg.capR) {f : Path → Option Nat} {n : Nat} (hn : 0 < n) {stable : Bool} {ops : List Op}
    {r : List Raw} {g : List (Key × EventInfo)} {s : LSt} (h : LRun cfg stable LSt.Named (LSt.init f n) ops r g s) :
    (¬ s.Rest → (∃ s', Inner cfg false s s') ∨ (∃ c rest s', s.todo = (c, true) :: rest ∧ Inner cfg false { s with todo := (c, false) :: rest } s')) ∧
    (∀ F : Nat → LSt, F 0 = s → (∀ n, Inner cfg false (F n) (F (n + 1))) → False) ∧
    (s.plan = none → ∃ s', Relation.ReflTransGen (Inner cfg true) s s' ∧ s'.Rest) ∧
    s.sys.tree.world.panicked = false := by
  have hf : ∀ p, f p ≠ none → GoodPath p := by
    clear hC hR
    have key : (LSt.init f n).Named := by
      generalize hi : LSt.init f n = i at h ⊢
      induction h with
      | refl h => exact h
      | step _ _ _ ih => exact ih
    exact key
  have hl : Live s := h.live (fun _ h => h) (.init hf hn)
  refine ⟨progress hC hR hl, fun F h0 hF => ?_, drains hC hR hl, hl.pan⟩
  have hlive : ∀ n, Live (F n) := by
    intro n
    induction n with
    | zero => rw [h0]; exact hl
    | succ n ih => exact (hF n).live ih
  exact no_descent lex4_wf (fun n => (F n).measure) fun n => (hF n).decreases (hlive n)

namespace LiveEx
open Ex

theorem named_fs {s : LSt} (h : s.pipe.k.inode = fs) : s.Named := by
  intro p hp
  rw [h] at hp
  simp only [fs] at hp
  split at hp
  · next he => subst he; exact good
  · exact absurd rfl hp

/-- Channel 1 watches `/d`, a file in it is created, the record has been read and looked up, and a Stop has the lock. -/
theorem run : ∃ ops r g s, LRun cfg true LSt.Named (LSt.init fs 2) ops r g s ∧ s.pipe.cons = [.sending [⟨r1, ei⟩], .idle] ∧
    (1, .stop 1, .locked) ∈ s.sys.calls ∧ s.plan = none := by
  have n : ∀ {s : LSt}, s.pipe.k.inode = fs → s.Named := named_fs
  have same : ∀ {a b : Inotify.PSt}, a.k.inode = fs → b.k.inode = fs → Keeps a b := by
    intro a b h1 h2; exact ⟨by rw [h2]; exact noLinks, fun _ _ _ => by rw [h1, h2]⟩
  have h := LRun.refl (cfg := cfg) (stable := true) (I := LSt.Named) (s := LSt.init fs 2) (n rfl)
  have h := h.step (.go _ _ (.call (Y := Y) req1 (show GoodPath d ∧ NonRec.UserEvents I C from ⟨good, uC⟩) trivial) trivial) (n rfl)
  have h := h.step (.go _ _ (.lock 0 req1 [] [] rfl (by rintro ⟨_, _, _, _, h⟩; cases h)
    (by rintro ⟨_, _, h | h⟩ <;> cases h <;> contradiction) (by rintro ⟨_, h | h⟩ <;> cases h)) trivial) (n rfl)
  have h := h.step (.plan req1 [op1] t1 [(.watch d C, true)] (.inl ⟨0, .head _⟩) rfl ⟨NonRec.Steps.nil.snoc step1, op1, ⟨_, rfl⟩, .inl rfl⟩ rfl) (n rfl)
  have h := h.step (.add (.watch d C) d C [] 1 _ rfl (.inl rfl) rfl (by decide) rfl) (n rfl)
  have h := h.step (.table 1 d C rfl) (n rfl)
  have h := h.step (.effect 0 req1 [] [] t1 rfl rfl rfl rfl) (n rfl)
  have h := h.step (.go _ _ (.unlock 0 req1 [] [] rfl) trivial) (n rfl)
  have h := h.step (.go _ _ (.ret 0 req1 [] [] rfl) trivial) (n rfl)
  have h := h.step (.pipe [r1] _ (.change r1 ⟨8, false, by decide, by decide⟩) rfl rfl (fun _ => same rfl rfl)) (n rfl)
  have h := h.step (.pipe [] _ (.read 1 rfl) rfl rfl (fun _ => same rfl rfl)) (n rfl)
  have h := h.step (.pipe [] _ (.hand 0 [r1] rfl rfl) rfl rfl (fun _ => same rfl rfl)) (n rfl)
  have h := h.step (.pipe [] _ (.transform 0 [r1] rfl) rfl rfl (fun _ => same rfl rfl)) (n rfl)
  have h := h.step (.go _ _ (.call (Y := Y) (Sched.Req.stop 1) trivial trivial) trivial) (n rfl)
  have h := h.step (.go _ _ (.lock 1 (Sched.Req.stop 1) [] [] rfl (by rintro ⟨_, _, _, _, h⟩; cases h)
    (by rintro ⟨_, _, h | h⟩ <;> cases h <;> contradiction) (by rintro ⟨_, h | h⟩ <;> cases h)) trivial) (n rfl)
  exact ⟨_, _, _, _, h, by decide, .head _, rfl⟩

example : ∃ s s' : LSt, (1, Sched.Req.stop 1, Sched.Call.locked) ∈ s.sys.calls ∧ s.pipe.cons = [.sending [⟨r1, ei⟩], .idle] ∧
    Relation.ReflTransGen (Inner cfg true) s s' ∧ s'.Rest := by
  obtain ⟨ops, r, g, s, h, h1, h2, h3⟩ := run
  obtain ⟨s', g1, g2⟩ := (C110_linux (by decide) (by decide) (by decide) h).2.2.1 h3
  exact ⟨s, s', h2, h1, g1, g2⟩

end LiveEx
end Linux
end Verif
