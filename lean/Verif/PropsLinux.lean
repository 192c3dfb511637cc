/-
The whole program on Linux (C90).
-/
import Verif.Linux

namespace Verif
namespace Linux
open Inotify (PSt PStep Raw Out PInv Drives Agree Held FromKernel at_ outs total total_step)
open NonRec (Hist Steps Op regOf NoFail GoodPath)
open Spec (wants copies Reg)

abbrev I : Platform := Platform.inotify

theorem factsI : I.Facts := Platform.inotify_wf.facts

/-! ### What is requested is watched -/

/-- The operation is not one of channel `c`, nor the removal of `x` or of a directory above. -/
def Leaves (c : Nat) (x : Path) : Op → Prop
  | .watch _ _ d _ _ => d ≠ c
  | .stop d => d ≠ c
  | .internal ei => ei.event = I.remove → ¬ ei.path <+: x
  | .shuffle => True

theorem regOf_snoc (ops : List Op) (op : Op) : regOf I (ops ++ [op]) = NonRec.regStep I (regOf I ops) op := by
  simp [regOf, List.foldl_append]

theorem Leaves.noFail {c : Nat} {x : Path} {op : Op} (h : Leaves c x op) : NoFail c op := by
  cases op with
  | watch p isrec d e res => exact fun hd => absurd hd h
  | _ => trivial

theorem leaves_step {c : Nat} {x q : Path} {op : Op} (h : Leaves c x op) (hq : q <+: x) (r : Reg) : NonRec.regStep I r op c q = r c q := by
  cases op with
  | watch p isrec d e res =>
    simp only [NonRec.regStep]
    split
    · simp only [Reg.watch]
      rw [if_neg]
      rintro ⟨h1, _⟩
      exact h h1.symm
    · rfl
  | stop d =>
    simp only [NonRec.regStep, Reg.stop]
    rw [if_neg (fun hc => h hc.symm)]
  | internal ei =>
    simp only [NonRec.regStep]
    split
    · next he =>
      simp only [Reg.remove]
      rw [if_neg fun hp => h he (hp.trans hq)]
    · rfl
  | shuffle => rfl

theorem leaves_reg {c : Nat} {x q : Path} (ops : List Op) : ∀ {ops' : List Op}, (∀ op ∈ ops', Leaves c x op) → q <+: x →
    regOf I (ops ++ ops') c q = regOf I ops c q := by
  intro ops'
  induction ops' generalizing ops with
  | nil => intro _ _; rw [List.append_nil]
  | cons op ops' ih =>
    intro h hq
    rw [show ops ++ op :: ops' = (ops ++ [op]) ++ ops' by simp, ih (ops ++ [op]) (fun o ho => h o (by simp [ho])) hq, regOf_snoc,
      leaves_step (h op (by simp)) hq]

theorem copies_congr {r r' : Reg} {c : Nat} {E : Event} {x : Path} (h : ∀ q, q <+: x → r' c q = r c q) : copies r' c E x = copies r c E x := by
  have hd : x.dropLast <+: x := List.dropLast_prefix x
  unfold copies
  congr 1
  · apply List.countP_congr
    intro i _
    simp only [Spec.wantsBelow, h _ ((List.take_prefix i _).trans hd)]
  · simp only [wants, h _ hd, h x List.prefix_rfl]
    rfl

/-- The tree asks the OS for what is registered. -/
theorem wants_backed {ops : List Op} {t : St} (ht : Hist I true ops t) {c : Nat} (hops : ∀ op ∈ ops, NoFail c op) {p : Path}
    {E : Event} (hE : E &&& I.internal = 0) (hreg : wants (regOf I ops) c E p = true) : E ⊑ osOf t.world.log p := by
  have href := NonRec.Hist.refines factsI ht hops
  unfold wants at hreg
  rcases hx : regOf I ops c p with _ | ⟨ev, fl⟩
  · rw [hx] at hreg; cases hreg
  · rw [hx] at hreg
    have hs : E ⊑ ev := by simpa using hreg
    intro i hb
    refine ((NonRec.C11_os_mirror factsI ht p).1 i).2 ⟨?_, .inl ⟨c, ev ||| (if fl then I.recursive else 0), ?_, ?_⟩⟩
    · have := congrArg (fun v => BitVec.getLsbD v i) hE
      simp only [BitVec.getLsbD_and] at this
      have hi' : BitVec.getLsbD E i = true := hb
      rw [hi'] at this
      simpa using this
    · rw [href.ent, hx]; rfl
    · rw [BitVec.getLsbD_or, hs i hb]; rfl

theorem hist_append {ops ops' : List Op} {s t : St} (h : Hist I true ops s) (h' : Steps I true s ops' t) : Hist I true (ops ++ ops') t := by
  induction h' with
  | nil => rw [List.append_nil]; exact h
  | snoc _ hs ih => rw [← List.append_assoc]; exact ih.snoc hs

/-- Also in the middle of operations. -/
theorem backed_amid {ops ops' : List Op} {s t : St} (h : Hist I true ops s) (h' : Steps I true s ops' t)
    {c : Nat} (hops : ∀ op ∈ ops ++ ops', NoFail c op) {p x : Path} (hp : p <+: x) (hl : ∀ op ∈ ops', Leaves c x op) {E : Event}
    (hE : E &&& I.internal = 0) (hreg : wants (regOf I ops) c E p = true) {l : Log} (h1 : s.world.log <:+ l) (h2 : l <:+ t.world.log) :
    E ⊑ osOf l p := by
  induction h' with
  | nil =>
    rw [Amid.same ⟨h1, h2⟩]
    exact wants_backed h (by simpa using hops) hE hreg
  | @snoc ops'' s₃ op s₄ h3 h4 ih =>
    have hh3 := hist_append h h3
    have hst := NonRec.Step.steady factsI (NonRec.Hist.good factsI hh3) h4
    have hw : ∀ o, (∀ op ∈ o, Leaves c x op) → wants (regOf I (ops ++ o)) c E p = true := by
      intro o ho
      unfold wants
      rw [leaves_reg ops ho hp]
      exact hreg
    rcases amid_split ⟨h1, h2⟩ hst.1 with hl' | hl'
    · exact ih (fun o ho => hops o (by simp only [List.mem_append] at ho ⊢; rcases ho with h | h; exact .inl h; exact .inr (.inl h)))
        (fun o ho => hl o (by simp [ho])) hl'.2
    · refine Event.Sub.trans ?_ (hst.2 l hl' p).1
      have h5 := wants_backed hh3 (fun o ho => hops o (by simp only [List.mem_append] at ho ⊢; rcases ho with h | h; exact .inl h; exact .inr (.inl h))) hE (hw _ fun o ho => hl o (by simp [ho]))
      have h6 := wants_backed (hist_append h (h3.snoc h4)) hops hE (hw _ hl)
      generalize osOf s₃.world.log p = a at *
      generalize osOf s₄.world.log p = b at *
      clear hst ih hops hl h4 h3 hw h hreg hE
      ebits

/-! ### The invariant -/

/-- No path has two descriptors. -/
def Uniq (m : Inotify.Table) : Prop := ∀ wd wd' w w', m.get? wd = some w → m.get? wd' = some w' → w.path = w'.path → wd = wd'

theorem drives_uniq {l : Log} {k : Inotify.St} (h : Drives l k) : Uniq k.m := by
  intro wd wd' w w' hw hw' hp
  obtain ⟨a, ha, hai⟩ := h.reach.exact _ _ hw
  obtain ⟨b, hb, hbi⟩ := h.reach.exact _ _ hw'
  rw [hp, hbi] at hai
  exact h.reach.base.uniq _ _ _ _ ha hb (Option.some.inj hai).symm

/-- After the operations `base`, all of them done, and `ops`, of which the last may be under way. -/
structure J (base ops : List Op) (s : LSt) : Prop where
  tree : ∃ ops₀ ops₁, ops = ops₀ ++ ops₁ ∧ Hist I true (base ++ ops₀) s.sys.tree ∧
    ((s.plan = none ∧ ops₁ = [] ∧ s.log = s.sys.tree.world.log ∧ s.pipe.caller = .idle ∧ s.todo = []) ∨
      ∃ r t, s.plan = some (r, t) ∧ Steps I true s.sys.tree ops₁ t ∧ s.sys.tree.world.log <:+ s.log ∧
        s.todo.reverse ++ s.log = t.world.log)
  drives : Drives s.log (settle s.pipe)
  busy : s.pipe.caller ≠ .idle → ∃ c l, s.log = c :: l ∧ s.sys.tree.world.log <:+ l ∧ Agree (osOf l) s.pipe.k ∧ Uniq s.pipe.k.m
  nodup : s.pipe.k.m.Nodup
  inv : PInv s.pipe

theorem J.init {f : Path → Option Nat} (hf : Inotify.NoLinks f) (n : Nat) : J [] [] (LSt.init f n) where
  tree := ⟨[], [], rfl, .nil, .inl ⟨rfl, rfl, rfl, rfl, rfl⟩⟩
  drives := .init f hf
  busy := fun h => absurd rfl h
  nodup := GoMap.nodup_nil
  inv := PInv.init f n

theorem free_tree {cfg : Sched.Cfg} {s s' : Sched.State Y} {l : Sched.Lab Y.Req} (h : Sched.Tr Y cfg s l s') (hl : Free l) :
    s'.tree = s.tree := by
  cases h <;> first | rfl | exact hl.elim

theorem settle_idle {s : PSt} (h : s.caller = .idle) : settle s = s.k := by unfold settle; rw [h]

/-- The table only changes at the end of a call, or in its order. -/
theorem pipe_table {s p' : PSt} {raws : List Raw} (h : PStep s raws p') (hc : p'.caller = s.caller) (ho : p'.out = s.out) (hn : s.k.m.Nodup) :
    (∀ wd, p'.k.m.get? wd = s.k.m.get? wd) ∧ p'.k.m.Nodup ∧ (s.caller ≠ .idle → p'.k.m = s.k.m) := by
  cases h with
  | fs k' hf => cases hf with | mk _ _ _ => exact ⟨fun _ => rfl, hn, fun _ => rfl⟩
  | reorder k' hi hf =>
    cases hf with
    | mk m' hp =>
      exact ⟨fun wd => Inotify.get?_perm hn hp wd, (List.Perm.nodup_iff (hp.map Prod.fst)).2 hn, fun h => absurd hi h⟩
  | add p e wd k' hi _ _ => rw [hi] at hc; cases hc
  | table wd p e hi => rw [hi] at hc; cases hc
  | rm p wd w l hi _ _ => rw [hi] at hc; cases hc
  | forget wd hi => rw [hi] at hc; cases hc
  | _ => exact ⟨fun _ => rfl, hn, fun _ => rfl⟩

theorem pipe_drives {s p' : PSt} {raws : List Raw} {l : Log} (h : PStep s raws p') (hc : p'.caller = s.caller)
    (hd : Drives l (settle s)) (hk : Keeps s p') : Drives l (settle p') := by
  cases h with
  | @fs k' hf =>
    cases hf with
    | mk f keep hkeep =>
      have h2 : (settle { s with k := { s.k with inode := f, watches := s.k.watches.filter (fun p => keep p.2.inode) } }) =
          { settle s with inode := f, watches := (settle s).watches.filter (fun p => keep p.2.inode) } := by
        unfold settle
        simp only
        split <;> rfl
      have h3 : (settle s).inode = s.k.inode := by unfold settle; split <;> rfl
      rw [h2]
      exact hd.fs (.mk _ _ _ hkeep) hk.1 fun wd w hw => by rw [h3]; exact hk.2 wd w hw
  | reorder k' hi hf =>
    rw [settle_idle hi] at hd
    cases hf with
    | mk m' hp =>
      rw [settle_idle (by exact hi)]
      exact hd.reorder (.mk _ _ hp)
  | add p e wd k' hi _ _ => rw [hi] at hc; cases hc
  | table wd p e hi => rw [hi] at hc; cases hc
  | rm p wd w l hi _ _ => rw [hi] at hc; cases hc
  | forget wd hi => rw [hi] at hc; cases hc
  | _ => exact hd

theorem agree_congr {os : Path → Event} {a b : Inotify.St} (h : ∀ wd, b.m.get? wd = a.m.get? wd) (ha : Agree os a) : Agree os b :=
  ⟨fun p hp => by simp only [h]; exact ha.1 p hp, fun wd w hw => ha.2 wd w (by rw [← h]; exact hw)⟩

/-- A call is begun: an operation is under way. -/
theorem J.planned {base ops : List Op} {s : LSt} (h : J base ops s) (ht : s.todo ≠ []) :
    ∃ ops₀ ops₁, ops = ops₀ ++ ops₁ ∧ Hist I true (base ++ ops₀) s.sys.tree ∧
      ∃ r t, s.plan = some (r, t) ∧ Steps I true s.sys.tree ops₁ t ∧ s.sys.tree.world.log <:+ s.log ∧ s.todo.reverse ++ s.log = t.world.log := by
  obtain ⟨ops₀, ops₁, h1, h2, h3 | h3⟩ := h.tree
  · exact absurd h3.2.2.2.2 ht
  · exact ⟨ops₀, ops₁, h1, h2, h3⟩

theorem J.step {cfg : Sched.Cfg} {base ops o : List Op} {s s' : LSt} {r : List Raw} {g : List (Key × EventInfo)} (h : J base ops s)
    (hs : LStep cfg true s o r g s') : J base (ops ++ o) s' := by
  cases hs with
  | go l sys' htr hl =>
    have := free_tree htr hl
    rw [List.append_nil]
    refine ⟨?_, h.drives, ?_, h.nodup, h.inv⟩
    · simp only [this]; exact h.tree
    · simp only [this]; exact h.busy
  | pipe raws p' hst hc ho hk =>
    obtain ⟨h1, h2, h3⟩ := pipe_table hst hc ho h.nodup
    rw [List.append_nil]
    refine ⟨?_, pipe_drives hst hc h.drives (hk rfl), ?_, h2, h.inv.step hst⟩
    · simp only [hc]; exact h.tree
    · intro hb
      simp only [hc] at hb
      obtain ⟨c, l, g1, g2, g3, g4⟩ := h.busy hb
      exact ⟨c, l, g1, g2, agree_congr h1 g3, by simp only [h3 hb]; exact g4⟩
  | send i o l hi hc hok =>
    rw [List.append_nil]
    refine ⟨h.tree, h.drives, h.busy, h.nodup, h.inv.step (.send i o l hi)⟩
  | plan r ops' t new hr hp ht hn =>
    obtain ⟨ops₀, ops₁, h1, h2, h3 | ⟨r', t', h3, _⟩⟩ := h.tree
    · obtain ⟨_, rfl, h5, h6, h7⟩ := h3
      rw [List.append_nil] at h1
      subst h1
      refine ⟨⟨ops, o, rfl, h2, .inr ⟨r, t, rfl, ht.1, ?_, ?_⟩⟩, h.drives, h.busy, h.nodup, h.inv⟩
      · rw [h5]; exact List.suffix_rfl
      · simp only [List.reverse_reverse, h5]; exact hn.symm
    · rw [hp] at h3; cases h3
  | add c p e rest wd k' ht ha hc he hk =>
    have hidle := h.drives
    rw [settle_idle hc] at hidle
    have hm := Inotify.addWatch_m hk
    have hw : Inotify.watch false s.pipe.k p e = ({ k' with m := k'.m.set wd ⟨p, e⟩ }, true) := by
      unfold Inotify.watch
      rw [if_neg (by rw [he]; decide), if_neg (by decide), hk]
    obtain ⟨ops₀, ops₁, g1, g2, r, t, g3, g4, g5, g6⟩ := h.planned (by rw [ht]; simp)
    rw [List.append_nil]
    refine ⟨⟨ops₀, ops₁, g1, g2, .inr ⟨r, t, g3, g4, g5.trans (List.suffix_cons _ _), ?_⟩⟩, ?_, ?_, ?_, ?_⟩
    · rw [← g6, ht]; simp
    · refine hidle.call ?_
      rcases ha with rfl | ⟨old, rfl⟩
      · exact .watch false hw
      · exact .rewatch false hw
    · intro _
      exact ⟨_, _, rfl, g5, agree_congr (by intro wd; simp only [hm]) hidle.agree, by simp only [hm]; exact drives_uniq hidle⟩
    · simp only [hm]; exact h.nodup
    · exact h.inv.step (.add p e wd k' hc he hk)
  | table wd p e hc =>
    rw [List.append_nil]
    have hd := h.drives
    have hset : settle s.pipe = { s.pipe.k with m := s.pipe.k.m.set wd ⟨p, e⟩ } := by unfold settle; rw [hc]
    obtain ⟨ops₀, ops₁, h1, h2, h3 | h3⟩ := h.tree
    · rw [h3.2.2.2.1] at hc; cases hc
    · refine ⟨⟨ops₀, ops₁, h1, h2, .inr h3⟩, ?_, fun hb => absurd rfl hb, h.nodup.set _ _, h.inv.step (.table wd p e hc)⟩
      rw [settle_idle rfl]
      rw [hset] at hd
      exact hd
  | rm p rest wd w l ht hc hf hl =>
    have hidle := h.drives
    rw [settle_idle hc] at hidle
    have hw : Inotify.unwatch s.pipe.k p = ({ s.pipe.k with watches := s.pipe.k.watches.del wd, m := s.pipe.k.m.del wd }, true) := by
      unfold Inotify.unwatch
      rw [hf]
    obtain ⟨ops₀, ops₁, g1, g2, r, t, g3, g4, g5, g6⟩ := h.planned (by rw [ht]; simp)
    rw [List.append_nil]
    refine ⟨⟨ops₀, ops₁, g1, g2, .inr ⟨r, t, g3, g4, g5.trans (List.suffix_cons _ _), ?_⟩⟩, ?_, ?_, h.nodup, h.inv.step (.rm p wd w _ hc hf hl)⟩
    · rw [← g6, ht]; simp
    · exact hidle.call (.unwatch hw)
    · intro _
      exact ⟨_, _, rfl, g5, agree_congr (fun _ => rfl) hidle.agree, show Uniq s.pipe.k.m from drives_uniq hidle⟩
  | forget wd hc =>
    rw [List.append_nil]
    have hd := h.drives
    have hset : settle s.pipe = { s.pipe.k with m := s.pipe.k.m.del wd } := by unfold settle; rw [hc]
    obtain ⟨ops₀, ops₁, h1, h2, h3 | h3⟩ := h.tree
    · rw [h3.2.2.2.1] at hc; cases hc
    · refine ⟨⟨ops₀, ops₁, h1, h2, .inr h3⟩, ?_, fun hb => absurd rfl hb, h.nodup.del _, h.inv.step (.forget wd hc)⟩
      rw [settle_idle rfl]
      rw [hset] at hd
      exact hd
  | refuse c rest ht hc hf =>
    have hidle := h.drives
    rw [settle_idle hc] at hidle
    obtain ⟨ops₀, ops₁, g1, g2, r, t, g3, g4, g5, g6⟩ := h.planned (by rw [ht]; simp)
    rw [List.append_nil]
    refine ⟨⟨ops₀, ops₁, g1, g2, .inr ⟨r, t, g3, g4, g5.trans (List.suffix_cons _ _), ?_⟩⟩, ?_, fun hb => absurd hc hb, h.nodup, h.inv⟩
    · rw [← g6, ht]; simp
    · rw [settle_idle (by exact hc)]
      refine hidle.call ?_
      have hfail : ∀ p e, Inotify.watch true s.pipe.k p e = (s.pipe.k, false) := by
        intro p e
        unfold Inotify.watch
        split <;> simp
      rcases hf with ⟨p, e, rfl | ⟨old, rfl⟩⟩ | ⟨p, rfl, hf | hf⟩
      · exact .watch true (hfail p e)
      · exact .rewatch true (hfail p e)
      · cases hf
      · refine .unwatch ?_
        unfold Inotify.unwatch
        rw [hf]
  | effect i r a b t hcalls hp ht hc =>
    obtain ⟨ops₀, ops₁, h1, h2, h3 | ⟨r', t', h3, h4, h5, h6⟩⟩ := h.tree
    · rw [h3.1] at hp; cases hp
    · rw [hp] at h3
      cases h3
      rw [List.append_nil]
      refine ⟨⟨ops, [], by simp, by rw [h1, ← List.append_assoc]; exact hist_append h2 h4, .inl ⟨rfl, rfl, ?_, hc, ht⟩⟩, h.drives, fun hb => absurd hc hb, h.nodup, h.inv⟩
      rw [ht] at h6; simpa using h6
  | intEffect ei t hi hp ht hc =>
    obtain ⟨ops₀, ops₁, h1, h2, h3 | ⟨r', t', h3, h4, h5, h6⟩⟩ := h.tree
    · rw [h3.1] at hp; cases hp
    · rw [hp] at h3
      cases h3
      rw [List.append_nil]
      refine ⟨⟨ops, [], by simp, by rw [h1, ← List.append_assoc]; exact hist_append h2 h4, .inl ⟨rfl, rfl, ?_, hc, ht⟩⟩, h.drives, fun hb => absurd hc hb, h.nodup, h.inv⟩
      rw [ht] at h6; simpa using h6

theorem J.rebase {base ops : List Op} {s : LSt} (h : J base ops s) (hp : s.plan = none) : J (base ++ ops) [] s where
  tree := by
    obtain ⟨ops₀, ops₁, h1, h2, h3 | ⟨r, t, h3, _⟩⟩ := h.tree
    · refine ⟨[], [], rfl, ?_, .inl ⟨h3.1, rfl, h3.2.2⟩⟩
      rw [h1, h3.2.1]; simpa using h2
    · rw [hp] at h3; cases h3
  drives := h.drives
  busy := h.busy
  nodup := h.nodup
  inv := h.inv

/-! ### The descriptor of a path -/

/-- `E` is in the OS watch of `p`; if the watcher executes a call, after this call. -/
def Backed (p : Path) (E : Event) (s : LSt) : Prop := E ⊑ osOf s.log p

theorem J.backed {base ops : List Op} {s : LSt} (h : J base ops s) {c : Nat} (hops : ∀ op ∈ base ++ ops, NoFail c op) {p x : Path}
    (hpx : p <+: x) (hl : ∀ op ∈ ops, Leaves c x op) {E : Event} (hE : E &&& I.internal = 0) (hreg : wants (regOf I base) c E p = true) :
    Backed p E s := by
  obtain ⟨ops₀, ops₁, rfl, h2, h3⟩ := h.tree
  have hw : wants (regOf I (base ++ ops₀)) c E p = true := by
    unfold wants
    rw [leaves_reg base (fun o ho => hl o (by simp [ho])) hpx]
    exact hreg
  rw [← List.append_assoc] at hops
  unfold Backed
  rcases h3 with ⟨_, rfl, h5, _⟩ | ⟨r, t, _, h4, h5, h6⟩
  · rw [h5]
    exact wants_backed h2 (by simpa using hops) hE hw
  · exact backed_amid h2 h4 hops hpx (fun o ho => hl o (by simp [ho])) hE hw h5 ⟨_, h6⟩

/-- The descriptor of `p` stays the same. -/
theorem J.held_settle {base ops : List Op} {s : LSt} (h : J base ops s) {wd : Nat} {p : Path} {E : Event} (hE : E ≠ 0) (hb : Backed p E s)
    (hh : Held wd p E s.pipe) : ∃ w, (settle s.pipe).m.get? wd = some w ∧ w.path = p ∧ E ⊑ w.mask := by
  obtain ⟨w, hw, hp, hm⟩ := hh
  have h0 : osOf s.log p ≠ 0 := by
    intro h0
    have := hb
    unfold Backed at this
    rw [h0] at this
    exact hE (Event.sub_zero this)
  obtain ⟨wd'', h1⟩ := h.drives.agree.1 p h0
  have hu := drives_uniq h.drives
  rcases hc : s.pipe.caller with _ | ⟨wd', p', e'⟩ | wd'
  · rw [settle_idle hc]; exact ⟨w, hw, hp, hm⟩
  · obtain ⟨c, l, g1, g2, g3, g4⟩ := h.busy (by rw [hc]; simp)
    have hset : settle s.pipe = { s.pipe.k with m := s.pipe.k.m.set wd' ⟨p', e'⟩ } := by unfold settle; rw [hc]
    have hwd : wd'' = wd := by
      by_cases h2 : wd' = wd
      · subst h2
        apply Classical.byContradiction
        intro hne
        have h1' := h1
        rw [hset] at h1'
        simp only [GoMap.get?_set, if_neg (fun hx : wd' = wd'' => hne hx.symm)] at h1'
        exact hne (g4 _ _ _ _ h1' hw hp.symm)
      · refine hu _ _ _ w h1 ?_ hp.symm
        rw [hset]
        simp only [GoMap.get?_set, if_neg h2]
        exact hw
    exact ⟨_, hwd ▸ h1, rfl, (show E ⊑ osOf s.log p from hb)⟩
  · obtain ⟨c, l, g1, g2, g3, g4⟩ := h.busy (by rw [hc]; simp)
    have hset : settle s.pipe = { s.pipe.k with m := s.pipe.k.m.del wd' } := by unfold settle; rw [hc]
    have h1' := h1
    rw [hset] at h1'
    simp only [GoMap.get?_del] at h1'
    split at h1'
    · cases h1'
    · have hwd := g4 _ _ _ _ h1' hw hp.symm
      exact ⟨_, hwd ▸ h1, rfl, (show E ⊑ osOf s.log p from hb)⟩

theorem J.held_step {cfg : Sched.Cfg} {base ops o : List Op} {s s' : LSt} {r : List Raw} {g : List (Key × EventInfo)} (h : J base ops s)
    (hs : LStep cfg true s o r g s') {wd : Nat} {p : Path} {E : Event} (hE : E ≠ 0) (hb : Backed p E s)
    (hh : Held wd p E s.pipe) : Held wd p E s'.pipe := by
  cases hs with
  | pipe raws p' hst hc ho hk =>
    obtain ⟨w, hw, hx⟩ := hh
    exact ⟨w, by rw [(pipe_table hst hc ho h.nodup).1]; exact hw, hx⟩
  | add c p' e rest wd' k' ht ha hc he hk =>
    obtain ⟨w, hw, hx⟩ := hh
    exact ⟨w, by simp only [Inotify.addWatch_m hk]; exact hw, hx⟩
  | table wd' p' e hc =>
    have := h.held_settle hE hb hh
    unfold settle at this
    rw [hc] at this
    exact this
  | forget wd' hc =>
    have := h.held_settle hE hb hh
    unfold settle at this
    rw [hc] at this
    exact this
  | _ => exact hh

/-- At a moment when the watcher is not executing a call, what is watched has a descriptor. -/
theorem J.held {base ops : List Op} {s : LSt} (h : J base ops s) (hc : s.pipe.caller = .idle) {p : Path} {E : Event} (hE : E ≠ 0)
    (hb : Backed p E s) : ∃ wd, Held wd p E s.pipe := by
  have h0 : osOf s.log p ≠ 0 := by
    intro h0
    have := hb
    unfold Backed at this
    rw [h0] at this
    exact hE (Event.sub_zero this)
  obtain ⟨wd, h1⟩ := h.drives.agree.1 p h0
  rw [settle_idle hc] at h1
  exact ⟨wd, _, h1, rfl, (show E ⊑ osOf s.log p from hb)⟩

/-- The kernel watches the inode of `p` for everything that `E` stands for. -/
theorem J.kernel {base ops : List Op} {s : LSt} (h : J base ops s) {wd : Nat} {p : Path} {E : Event} (hE : E ≠ 0) (hb : Backed p E s)
    (hh : Held wd p E s.pipe) : ∃ kw, s.pipe.k.watches.get? wd = some kw ∧ s.pipe.k.inode p = some kw.inode ∧
      ∀ b, (E, b) ∈ Spec.Inotify.means → b ⊑ kw.mask := by
  obtain ⟨w, hw, hp, hm⟩ := h.held_settle hE hb hh
  obtain ⟨kw, hkw, hino⟩ := h.drives.reach.exact _ _ hw
  obtain ⟨w', hw', _, hmask⟩ := h.drives.reach.base.live _ _ hkw
  rw [hw] at hw'
  obtain rfl := Option.some.inj hw'
  have hacc := h.drives.reach.base.acc _ _ hw
  have h1 : (settle s.pipe).watches = s.pipe.k.watches := by unfold settle; split <;> rfl
  have h2 : (settle s.pipe).inode = s.pipe.k.inode := by unfold settle; split <;> rfl
  rw [h1] at hkw
  rw [h2, hp] at hino
  refine ⟨kw, hkw, hino, fun b hEb => ?_⟩
  have hbk : b ∈ Spec.Inotify.kernelBits := by
    have : ∀ x ∈ Spec.Inotify.means, x.2 ∈ Spec.Inotify.kernelBits := by decide
    exact this _ hEb
  rw [hmask]
  exact ((Inotify.C32_mask _ hacc).2 b hbk).2 ⟨E, hm, hEb⟩

/-! ### Events on their way through the watcher -/

/-- The event `E` for `x`. -/
def isEv (E : Event) (x : Path) (ei : EventInfo) : Bool := decide (ei.event = E) && decide (ei.path = x)

theorem sent_path {m : Inotify.Table} {r : Raw} {ei : EventInfo} (h : ei ∈ Inotify.sent m [r]) :
    ∃ w, m.get? r.wd = some w ∧ ei.path = at_ w.path r.name := by
  rw [Inotify.sent_single] at h
  unfold Inotify.transform1 at h
  split at h
  · simp at h
  · split at h
    · simp at h
    · next w hw =>
      refine ⟨w, hw, ?_⟩
      split at h
      · simp at h
      · simp only [List.mem_append, List.mem_filterMap, Option.mem_toList, List.mem_singleton] at h
        simp only [at_]
        rcases h with h | ⟨a, rfl, h⟩
        · split at h
          · cases h
          · cases h; rfl
        · simp only [id] at h
          rcases hd : Inotify.decodeSys w.mask r.mask with _ | y
          · rw [hd] at h; cases h
          · rw [hd] at h; cases h; rfl

/-- What one record gives. -/
theorem weight_ev {m : Inotify.Table} {wd : Nat} {p : Path} {E : Event} {n : Comp} (hu : Uniq m) (hacc : ∀ x ∈ m, Inotify.accepts x.2.mask = true)
    {w : Inotify.Watched} (hw : m.get? wd = some w) (hwp : w.path = p) (hE : E ⊑ w.mask) (hp : GoodPath p) (hn : n ≠ [])
    (hno : ∀ wd' w', m.get? wd' = some w' → w'.path ≠ p ++ [n]) {r : Raw} (hr : FromKernel r) :
    (outs m [r]).countP (fun o => isEv E (p ++ [n]) o.info) = if Inotify.«says» wd E n r = true then 1 else 0 := by
  have hat : at_ w.path n = p ++ [n] := by
    unfold at_ Inotify.join
    rw [if_neg hn, hwp, if_neg]
    rintro rfl
    exact hp.2 (by simp)
  by_cases hwd : r.wd = wd
  · rw [← Inotify.weight hw (hacc _ (GoMap.mem_of_get? hw)) hE hr n, hat]
    apply List.countP_congr
    intro o ho
    rw [Inotify.outs_single] at ho
    obtain ⟨ei, _, rfl⟩ := List.mem_map.1 ho
    simp [isEv, Inotify.hit, hwd]
  · rw [if_neg (by simp [Inotify.«says», hwd]), List.countP_eq_zero]
    intro o ho hev
    rw [Inotify.outs_single] at ho
    obtain ⟨ei, hei, rfl⟩ := List.mem_map.1 ho
    obtain ⟨w', hw', hpath⟩ := sent_path hei
    simp only [isEv, Bool.and_eq_true, decide_eq_true_eq] at hev
    rw [hev.2] at hpath
    unfold at_ Inotify.join at hpath
    split at hpath
    · exact hno _ _ hw' hpath.symm
    · split at hpath
      · have := congrArg List.length hpath
        simp at this
        exact hp.1 this
      · have h1 := (List.append_inj' hpath rfl).1
        exact hwd (hu _ _ _ _ hw' hw (by rw [← h1, hwp]))

theorem J.uniq {base ops : List Op} {s : LSt} (h : J base ops s) : Uniq s.pipe.k.m := by
  by_cases hc : s.pipe.caller = .idle
  · have := drives_uniq h.drives
    rwa [settle_idle hc] at this
  · obtain ⟨_, _, _, _, _, h4⟩ := h.busy hc
    exact h4

/-! ### Events on their way through the tree -/

section
variable (K : Nat) (c : Nat) (f : EventInfo → Bool)

/-- Signals for `c` that the goroutine of an event still has to make. -/
def rest : Nat × EventInfo × Sched.Disp → Nat
  | (_, ei, .start) => if f ei then K else 0
  | (_, ei, .reading d _) => if f ei then K - d.count (.user c) else 0
  | (_, _, .handing) => 0

/-- Signals for `c` that are still to be made. -/
def due (s : Sched.State Y) : Nat := (s.disp.map (rest K c f)).sum + K * s.cq.countP f

/-- No goroutine has made or is about to make too many. -/
def Fit (s : Sched.State Y) : Prop :=
  ∀ i ei d a, (i, ei, Sched.Disp.reading d a) ∈ s.disp → f ei = true → d.count (.user c) + (if a = some (.user c) then 1 else 0) ≤ K

/-- A signal for `c`. -/
def isSig (x : Key × EventInfo) : Bool := decide (x.1 = .user c) && f x.2
end

theorem due_step {K c : Nat} {f : EventInfo → Bool} {cfg : Sched.Cfg} {s s' : Sched.State Y} {l : Sched.Lab Y.Req}
    (h : Sched.Tr Y cfg s l s') (hl : Free l) (hK : ∀ ei, f ei = true → (Y.sends s.tree ei).count (.user c) = K) (hfit : Fit K c f s) :
    (sigs l).countP (isSig c f) + due K c f s' = due K c f s ∧ Fit K c f s' := by
  cases h with
  | report => exact hl.elim
  | push => exact hl.elim
  | effect => exact hl.elim
  | intEffect => exact hl.elim
  | spawn ei q hq =>
    constructor
    · simp only [sigs, due, hq, List.map_cons, List.sum_cons, List.countP_cons, rest, List.countP_nil]
      split <;> simp_all [Nat.mul_add] <;> omega
    · intro i ei' d a hm hf
      simp only [List.mem_cons, Prod.mk.injEq, reduceCtorEq, and_false, false_or] at hm
      exact hfit i ei' d a hm hf
  | rlock i ei a b hd hw hi hp =>
    constructor
    · simp [sigs, due, hd, rest]
    · intro i' ei' d' a' hm hf
      simp only [List.mem_append, List.mem_cons, Prod.mk.injEq, Sched.Disp.reading.injEq] at hm
      rcases hm with hm | ⟨_, _, rfl, rfl⟩ | hm
      · exact hfit i' ei' d' a' (by rw [hd]; simp [hm]) hf
      · simp
      · exact hfit i' ei' d' a' (by rw [hd]; simp [hm]) hf
  | pick i ei d k a b hd hk =>
    constructor
    · simp [sigs, due, hd, rest]
    · intro i' ei' d' a' hm hf
      simp only [List.mem_append, List.mem_cons, Prod.mk.injEq, Sched.Disp.reading.injEq] at hm
      rcases hm with hm | ⟨_, rfl, rfl, rfl⟩ | hm
      · exact hfit i' ei' d' a' (by rw [hd]; simp [hm]) hf
      · have := hK _ hf
        split
        · next hc =>
          cases hc
          rw [this] at hk
          omega
        · have := hfit i ei' d' none (by rw [hd]; simp) hf
          simpa using this
      · exact hfit i' ei' d' a' (by rw [hd]; simp [hm]) hf
  | send i ei d k a b hd =>
    have h1 := hfit i ei d (some k) (by rw [hd]; simp)
    constructor
    · simp only [sigs, due, hd, rest, isSig, List.map_append, List.map_cons, List.sum_append, List.sum_cons, List.countP_cons, List.countP_nil]
      by_cases hf : f ei = true
      · have h2 := h1 hf
        by_cases hk : k = .user c
        · subst hk
          simp only [if_true] at h2
          simp only [hf, if_true, List.count_cons_self, decide_true, Bool.and_self]
          omega
        · have h3 : (k :: d).count (.user c) = d.count (.user c) := List.count_cons_of_ne hk
          simp [hf, hk, h3]
      · simp [hf]
    · intro i' ei' d' a' hm hf
      simp only [List.mem_append, List.mem_cons, Prod.mk.injEq, Sched.Disp.reading.injEq] at hm
      rcases hm with hm | ⟨_, rfl, rfl, rfl⟩ | hm
      · exact hfit i' ei' d' a' (by rw [hd]; simp [hm]) hf
      · have h2 := h1 hf
        by_cases hk : k = .user c
        · subst hk
          simpa using h2
        · have h3 : (k :: d).count (.user c) = d.count (.user c) := List.count_cons_of_ne hk
          rw [h3]
          simp at h2 ⊢
          omega
      · exact hfit i' ei' d' a' (by rw [hd]; simp [hm]) hf
  | runlock i ei d a b hd hk hh =>
    constructor
    · have h0 : f ei = true → K - d.count (.user c) = 0 := by
        intro hf
        have := hk (.user c)
        rw [hK _ hf] at this
        omega
      simp only [sigs, due, hd, rest, List.map_append, List.map_cons, List.sum_append, List.sum_cons, List.countP_nil]
      split
      · next hf => rw [h0 hf]; omega
      · omega
    · intro i' ei' d' a' hm hf
      simp only [List.mem_append, List.mem_cons, Prod.mk.injEq, reduceCtorEq, and_false, false_or] at hm
      exact hfit i' ei' d' a' (by rw [hd]; rcases hm with hm | hm <;> simp [hm]) hf
  | fin i ei d a b hd hk hh =>
    constructor
    · have h0 : f ei = true → K - d.count (.user c) = 0 := by
        intro hf
        have := hk (.user c)
        rw [hK _ hf] at this
        omega
      simp only [sigs, due, hd, rest, List.map_append, List.map_cons, List.sum_append, List.sum_cons, List.countP_nil]
      split
      · next hf => rw [h0 hf]; omega
      · omega
    · intro i' ei' d' a' hm hf
      simp only [List.mem_append] at hm
      exact hfit i' ei' d' a' (by rw [hd]; rcases hm with hm | hm <;> simp [hm]) hf
  | handed i ei a b hd hc =>
    constructor
    · simp [sigs, due, hd, rest]
    · intro i' ei' d' a' hm hf
      simp only [List.mem_append] at hm
      exact hfit i' ei' d' a' (by rw [hd]; rcases hm with hm | hm <;> simp [hm]) hf
  | _ => exact ⟨by simp [sigs, due], hfit⟩

theorem J.copies {base ops : List Op} {s : LSt} (h : J base ops s) {c : Nat} (hops : ∀ op ∈ base ++ ops, NoFail c op) {x : Path}
    (hl : ∀ op ∈ ops, Leaves c x op) {E : Event} (hE : E &&& I.internal = 0) (hlen : 2 ≤ x.length) {ei : EventInfo}
    (hei : isEv E x ei = true) : (Y.sends s.sys.tree ei).count (.user c) = copies (regOf I base) c E x := by
  obtain ⟨ops₀, ops₁, rfl, h2, _⟩ := h.tree
  simp only [isEv, Bool.and_eq_true, decide_eq_true_eq] at hei
  obtain ⟨h1, h3⟩ := hei
  have := (NonRec.C01_delivery_exact factsI h2 (ei := ei) (by rw [h3]; exact hlen)
    (by rw [h1]; exact hE) (by intro h; cases h)).1 c (fun o ho => hops o (by
    simp only [List.mem_append] at ho ⊢; rcases ho with h | h; exact .inl h; exact .inr (.inl h)))
  rw [h1, h3] at this
  refine Eq.trans this (copies_congr fun q hq => ?_)
  exact leaves_reg base (fun o ho => hl o (by simp [ho])) hq

/-! ### Executions -/

theorem LRun.last {cfg : Sched.Cfg} {st : Bool} {Q : LSt → Prop} {s s' : LSt} {ops raws sg} (h : LRun cfg st Q s ops raws sg s') : Q s' := by
  cases h <;> assumption

theorem LRun.mono {cfg : Sched.Cfg} {st : Bool} {Q R : LSt → Prop} (hQR : ∀ x, Q x → R x) {s s' : LSt} {ops raws sg}
    (h : LRun cfg st Q s ops raws sg s') : LRun cfg st R s ops raws sg s' := by
  induction h with
  | refl h => exact .refl (hQR _ h)
  | step _ hs hQ ih => exact ih.step hs (hQR _ hQ)

theorem LRun.j {cfg : Sched.Cfg} {Q : LSt → Prop} {base : List Op} {s s' : LSt} {ops raws sg} (hj : J base [] s)
    (h : LRun cfg true Q s ops raws sg s') : J base ops s' := by
  induction h with
  | refl _ => exact hj
  | step _ hs _ ih => exact ih.step hs

section
variable {cfg : Sched.Cfg} {Q : LSt → Prop} {base : List Op} {s s' : LSt} {ops : List Op} {raws : List Raw} {sg : List (Key × EventInfo)}
  {c : Nat} {p x : Path} {E : Event}

theorem LRun.held (hj : J base [] s) (h : LRun cfg true Q s ops raws sg s') (hops : ∀ op ∈ base ++ ops, NoFail c op) (hpx : p <+: x)
    (hl : ∀ op ∈ ops, Leaves c x op) (hE : E &&& I.internal = 0) (hE0 : E ≠ 0) (hreg : wants (regOf I base) c E p = true) {wd : Nat}
    (hh : Held wd p E s.pipe) : Held wd p E s'.pipe := by
  induction h with
  | refl _ => exact hh
  | @step ops raws sg o r g s1 s2 h1 hs _ ih =>
    have hops' : ∀ op ∈ base ++ ops, NoFail c op := fun a ha => hops a (by
      simp only [List.mem_append] at ha ⊢; rcases ha with h | h; exact .inl h; exact .inr (.inl h))
    have hl' : ∀ op ∈ ops, Leaves c x op := fun a ha => hl a (by simp [ha])
    exact (h1.j hj).held_step hs hE0 ((h1.j hj).backed hops' hpx hl' hE hreg) (ih hops' hl')

theorem pipe_total {fo : Out → Bool} {g : Raw → Bool} {o : List Op} {r : List Raw} {sg : List (Key × EventInfo)} (hi : PInv s.pipe)
    (hs : LStep cfg true s o r sg s') (hw : ∀ r, FromKernel r → (outs s.pipe.k.m [r]).countP fo = if g r = true then 1 else 0) :
    total fo g s'.pipe = total fo g s.pipe + r.countP g := by
  cases hs with
  | pipe raws p' hst hc ho hk => exact total_step hi hst hw
  | send i o l h hc hok => exact total_step hi (.send i o l h) hw
  | add c p e rest wd k' ht ha hc he hk => exact total_step hi (.add p e wd k' hc he hk) hw
  | table wd p e hc => exact total_step hi (.table wd p e hc) hw
  | rm p rest wd w l ht hc hf hl => exact total_step hi (.rm p wd w _ hc hf hl) hw
  | forget wd hc => exact total_step hi (.forget wd hc) hw
  | _ => simp

theorem LRun.total {fo : Out → Bool} {g : Raw → Bool} (hj : J base [] s) (h : LRun cfg true Q s ops raws sg s')
    (hops : ∀ op ∈ base ++ ops, NoFail c op) (hpx : p <+: x)
    (hl : ∀ op ∈ ops, Leaves c x op) (hE : E &&& I.internal = 0) (hE0 : E ≠ 0) (hreg : wants (regOf I base) c E p = true) {wd : Nat}
    (hh : Held wd p E s.pipe)
    (hw : ∀ s : LSt, Uniq s.pipe.k.m → PInv s.pipe → Q s → Held wd p E s.pipe → ∀ r, FromKernel r →
      (outs s.pipe.k.m [r]).countP fo = if g r = true then 1 else 0) :
    total fo g s'.pipe = total fo g s.pipe + raws.countP g := by
  induction h with
  | refl _ => simp
  | @step ops raws sg o r g' s1 s2 h1 hs _ ih =>
    have hops' : ∀ op ∈ base ++ ops, NoFail c op := fun a ha => hops a (by
      simp only [List.mem_append] at ha ⊢; rcases ha with h | h; exact .inl h; exact .inr (.inl h))
    have hl' : ∀ op ∈ ops, Leaves c x op := fun a ha => hl a (by simp [ha])
    have hj1 := h1.j hj
    rw [pipe_total hj1.inv hs (hw s1 hj1.uniq hj1.inv h1.last (h1.held hj hops' hpx hl' hE hE0 hreg hh)), ih hops' hl', List.countP_append]
    omega

theorem LRun.due (hj : J base [] s) (h : LRun cfg true Q s ops raws sg s')
    (hops : ∀ op ∈ base ++ ops, NoFail c op) (hl : ∀ op ∈ ops, Leaves c x op) (hE : E &&& I.internal = 0) (hlen : 2 ≤ x.length)
    (hd : s.sys.disp = []) {K : Nat} (hK : copies (regOf I base) c E x = K) :
    sg.countP (isSig c (isEv E x)) + due K c (isEv E x) s'.sys + K * s.pipe.out.countP (fun o => isEv E x o.info) =
      due K c (isEv E x) s.sys + K * s'.pipe.out.countP (fun o => isEv E x o.info) ∧ Fit K c (isEv E x) s'.sys := by
  induction h with
  | refl _ => exact ⟨by simp, by intro i ei d a hm; rw [hd] at hm; cases hm⟩
  | @step ops raws sg o r g' s1 s2 h1 hs _ ih =>
    have hops' : ∀ op ∈ base ++ ops, NoFail c op := fun a ha => hops a (by
      simp only [List.mem_append] at ha ⊢; rcases ha with h | h; exact .inl h; exact .inr (.inl h))
    have hl' : ∀ op ∈ ops, Leaves c x op := fun a ha => hl a (by simp [ha])
    obtain ⟨ih1, ih2⟩ := ih hops' hl'
    have hj1 := h1.j hj
    rw [List.countP_append]
    cases hs with
    | go l sys' htr hfree =>
      obtain ⟨h3, h4⟩ := due_step (f := isEv E x) htr hfree (fun ei hei => (hj1.copies hops' hl' hE hlen hei).trans hK) ih2
      exact ⟨by dsimp only; omega, h4⟩
    | pipe raws p' hst hc ho hk => exact ⟨by simp only [ho, List.countP_nil]; omega, ih2⟩
    | send i o l hi hc hok =>
      refine ⟨?_, ih2⟩
      simp only [Linux.due, List.countP_append, List.countP_cons, List.countP_nil, Nat.mul_add] at ih1 ⊢
      omega
    | add c p e rest wd k' ht ha hc he hk => exact ⟨by simp only [List.countP_nil]; omega, ih2⟩
    | table wd p e hc => exact ⟨by simp only [List.countP_nil]; omega, ih2⟩
    | rm p rest wd w l ht hc hf hl => exact ⟨by simp only [List.countP_nil]; omega, ih2⟩
    | forget wd hc => exact ⟨by simp only [List.countP_nil]; omega, ih2⟩
    | plan r ops' t new hr hp ht hn => exact ⟨by simp only [List.countP_nil]; omega, ih2⟩
    | refuse c rest ht hc hf => exact ⟨by simp only [List.countP_nil]; omega, ih2⟩
    | effect i r a b t hcalls hp ht hc => exact ⟨by simp only [List.countP_nil, Linux.due] at ih1 ⊢; omega, ih2⟩
    | intEffect ei t hi hp ht hc => exact ⟨by simp only [List.countP_nil, Linux.due] at ih1 ⊢; omega, ih2⟩

theorem LRun.out (h : LRun cfg true Q s ops raws sg s') : s.pipe.out <+: s'.pipe.out := by
  induction h with
  | refl _ => exact List.prefix_rfl
  | step _ hs _ ih =>
    cases hs with
    | pipe raws p' hst hc ho hk => rw [ho]; exact ih
    | send => exact ih.trans (List.prefix_append _ _)
    | _ => exact ih
end

/-- `c` gets an event `E` for `x`. -/
def Gets (c : Nat) (E : Event) (x : Path) (y : Key × EventInfo) : Bool :=
  decide (y.1 = .user c) && decide (y.2.event = E) && decide (y.2.path = x)

/-- **C90.**  The whole program and the kernel, in any execution from the start: any number of goroutines call Watch and Stop, any
schedule of these, of the goroutines of the tree and of the watcher, any changes of the file system under which watched paths keep
their inodes and there are no hard links.  At some moment (`s`) at which no operation is under way and nothing is on its way,
channel `c` is registered for `E` on `p`, and no non-recursive Watch with `c` has failed.  From then on, as long as there is no Watch or Stop for `c` and `p` is not removed, whatever
other channels do:
* at every moment the kernel's watch `wd` is on the inode of `p` and reports every kernel event that is an `E`;
* for every entry `n` of `p`: when nothing is on its way again, `c` was signalled an event `E` for `p/n` at least as often as the
  kernel reported one, times the number of registrations of `c` that cover it; and exactly as often if `p/n` was not watched itself. -/
theorem C90_linux {cfg : Sched.Cfg} {f : Path → Option Nat} (hf : Inotify.NoLinks f) {n₀ : Nat} {ops₀ : List Op} {raws₀ : List Raw}
    {sg₀ : List (Key × EventInfo)} {s : LSt} (h0 : LRun cfg true (fun _ => True) (LSt.init f n₀) ops₀ raws₀ sg₀ s) (hplan : s.plan = none)
    (hq : s.Quiet) {c : Nat} {p : Path} (hp : GoodPath p) {E : Event} (hE : ∃ b, (E, b) ∈ Spec.Inotify.means)
    (hreg : wants (regOf I ops₀) c E p = true) (hfail : ∀ op ∈ ops₀, NoFail c op) :
    ∃ wd, ∀ (ops : List Op) (raws : List Raw) (sg : List (Key × EventInfo)) (s' : LSt),
      (LRun cfg true (fun _ => True) s ops raws sg s' → (∀ op ∈ ops, Leaves c p op) →
        ∃ kw, s'.pipe.k.watches.get? wd = some kw ∧ s'.pipe.k.inode p = some kw.inode ∧ ∀ b, (E, b) ∈ Spec.Inotify.means → b ⊑ kw.mask) ∧
      ∀ n : Comp, n ≠ [] → (∀ op ∈ ops, Leaves c (p ++ [n]) op) → s'.Quiet →
        1 ≤ copies (regOf I ops₀) c E (p ++ [n]) ∧
        (LRun cfg true (fun _ => True) s ops raws sg s' →
          copies (regOf I ops₀) c E (p ++ [n]) * raws.countP (Inotify.«says» wd E n) ≤ sg.countP (Gets c E (p ++ [n]))) ∧
        (LRun cfg true (fun s => ∀ wd w, s.pipe.k.m.get? wd = some w → w.path ≠ p ++ [n]) s ops raws sg s' →
          sg.countP (Gets c E (p ++ [n])) = copies (regOf I ops₀) c E (p ++ [n]) * raws.countP (Inotify.«says» wd E n)) := by
  have hEint : ∀ x ∈ Spec.Inotify.means, x.1 &&& I.internal = 0 ∧ x.1 ≠ 0 := by decide
  obtain ⟨b, hb⟩ := hE
  obtain ⟨hEi, hE0⟩ : E &&& I.internal = 0 ∧ E ≠ 0 := hEint _ hb
  have hj : J ops₀ [] s := (h0.j (J.init hf n₀)).rebase hplan
  have hidle : s.pipe.caller = .idle := by
    obtain ⟨_, _, _, _, h3 | ⟨r, t, h3, _⟩⟩ := hj.tree
    · exact h3.2.2.2.1
    · rw [hplan] at h3; cases h3
  obtain ⟨wd, hh⟩ := hj.held hidle hE0 (hj.backed (c := c) (x := p) (by simpa using hfail) List.prefix_rfl (by simp) hEi hreg)
  have happ : ∀ {ops : List Op} {x : Path}, (∀ op ∈ ops, Leaves c x op) → ∀ op ∈ ops₀ ++ ops, NoFail c op := by
    intro ops x hl op hop
    rcases List.mem_append.1 hop with h | h
    · exact hfail op h
    · exact (hl op h).noFail
  refine ⟨wd, fun ops raws sg s' => ⟨fun h hl => ?_, fun n hn hl hq' => ⟨?_, fun h => ?_, fun h => ?_⟩⟩⟩
  · have hops := happ hl
    exact (h.j hj).kernel hE0 ((h.j hj).backed hops List.prefix_rfl hl hEi hreg) (h.held hj hops List.prefix_rfl hl hEi hE0 hreg hh)
  · unfold copies
    rw [List.dropLast_concat, hreg]
    simp only [if_true]
    omega
  all_goals
    have hlen : 2 ≤ (p ++ [n]).length := by
      have : p.length ≠ 0 := fun h => hp.1 (List.length_eq_zero_iff.1 h)
      simp; omega
    have hpx : p <+: p ++ [n] := List.prefix_append _ _
    have hops := happ hl
    have hgets : sg.countP (Gets c E (p ++ [n])) = sg.countP (isSig c (isEv E (p ++ [n]))) := by
      apply List.countP_congr
      intro y _
      simp [Gets, isSig, isEv, Bool.and_assoc]
    have h1 := (h.due hj hops hl hEi hlen hq.2.2 rfl).1
    have hd : ∀ x : LSt, x.Quiet → due (copies (regOf I ops₀) c E (p ++ [n])) c (isEv E (p ++ [n])) x.sys = 0 := by
      rintro x ⟨_, h1, h2⟩
      simp [Linux.due, h1, h2]
    rw [hd _ hq, hd _ hq', ← hgets] at h1
    have hat : at_ p n = p ++ [n] := by
      unfold at_ Inotify.join
      rw [if_neg hn, if_neg]
      rintro rfl
      exact hp.2 (by simp)
  · have h2 := h.total (fo := Inotify.hit wd E (p ++ [n])) (g := Inotify.«says» wd E n) hj hops hpx hl hEi hE0 hreg hh (by
      rintro s hu hi _ ⟨w, hw, rfl, hE⟩ r hr
      rw [← hat]
      exact Inotify.weight hw (hi.acc _ (GoMap.mem_of_get? hw)) hE hr n)
    rw [Inotify.total_quiet hq.1, Inotify.total_quiet hq'.1] at h2
    obtain ⟨new, hnew⟩ := h.out
    rw [← hnew, List.countP_append] at h1 h2
    have h3 : new.countP (Inotify.hit wd E (p ++ [n])) ≤ new.countP (fun o => isEv E (p ++ [n]) o.info) := by
      apply List.countP_mono_left
      intro o _ ho
      simp only [Inotify.hit, isEv, Bool.and_eq_true, decide_eq_true_eq] at ho ⊢
      exact ⟨ho.1.2, ho.2⟩
    have h4 : raws.countP (Inotify.«says» wd E n) ≤ new.countP (fun o => isEv E (p ++ [n]) o.info) := by omega
    have h5 := Nat.mul_le_mul_left (copies (regOf I ops₀) c E (p ++ [n])) h4
    rw [Nat.mul_add] at h1
    omega
  · have h2 := h.total (fo := fun o => isEv E (p ++ [n]) o.info) (g := Inotify.«says» wd E n) hj hops hpx hl hEi hE0 hreg hh (by
      rintro s hu hi hno ⟨w, hw, hwp, hE⟩ r hr
      exact weight_ev hu hi.acc hw hwp hE hp hn hno hr)
    rw [Inotify.total_quiet hq.1, Inotify.total_quiet hq'.1] at h2
    rw [h2, Nat.mul_add] at h1
    omega

/-! ### The parts -/

theorem free_os {cfg : Sched.Cfg} {s s' : Sched.State Y} {l : Sched.Lab Y.Req} (h : Sched.Tr Y cfg s l s') (hl : Free l) :
    s'.os = s.os := by
  cases h <;> first | rfl | exact hl.elim

/-- The signals of an execution of `Sched`. -/
def signals (t : List (Sched.Lab Sched.Req)) : List (Key × EventInfo) := t.flatMap sigs

theorem step_weaken {b : Bool} {s s' : St} {op : Op} (h : NonRec.Step I b s op s') : NonRec.Step I false s op s' := by
  cases h with
  | watch h1 h2 h3 _ => exact .watch h1 h2 h3 (by intro h; cases h)
  | stop _ => exact .stop (by intro h; cases h)
  | internal h1 h2 _ => exact .internal h1 h2 (by intro h; cases h)
  | shuffle h => exact .shuffle h

theorem steps_snoc {b : Bool} {s t : St} {ops : List Op} {op : Op} (h : Steps I b s (ops ++ [op]) t) :
    ∃ s₁, Steps I b s ops s₁ ∧ NonRec.Step I b s₁ op t := by
  generalize ho : ops ++ [op] = l at h
  cases h with
  | nil => simp at ho
  | @snoc ops' s1 op' _ h1 h2 =>
    obtain ⟨rfl, h3⟩ := List.append_inj' ho rfl
    obtain rfl : op = op' := by simpa using h3
    exact ⟨s1, h1, h2⟩

theorem steps_nil {b : Bool} {s t : St} (h : Steps I b s [] t) : t = s := by
  generalize ho : ([] : List Op) = l at h
  cases h with
  | nil => rfl
  | snoc _ _ => simp at ho

theorem Plans.step {b : Bool} {s t : St} {r : Sched.Req} {ops : List Op} (h : Plans b s r ops t) : Y.step s r t := by
  obtain ⟨h1, op, h2, h3⟩ := h
  have key : ∃ s₁, (s₁ = s ∨ NonRec.Step I false s .shuffle s₁) ∧ NonRec.Step I false s₁ op t := by
    rcases h3 with rfl | rfl
    · obtain ⟨s1, h4, h5⟩ := steps_snoc (ops := []) h1
      exact ⟨s1, .inl (steps_nil h4), step_weaken h5⟩
    · obtain ⟨s1, h4, h5⟩ := steps_snoc (ops := [.shuffle]) h1
      obtain ⟨s2, h6, h7⟩ := steps_snoc (ops := []) h4
      obtain rfl := steps_nil h6
      exact ⟨s1, .inr (step_weaken h7), step_weaken h5⟩
  obtain ⟨s₁, h4, h5⟩ := key
  refine ⟨s₁, h4, ?_⟩
  cases r with
  | watch p isrec c e => obtain ⟨res, rfl⟩ := h2; exact ⟨res, h5⟩
  | stop c => obtain rfl := h2; exact h5
  | internal ei => obtain rfl := h2; exact h5

/-- Every execution of the whole program is, without the watcher, an execution of `Sched` with the same signals, and without the tree
one of `InotifyPipe` with the same records.  So all that is proved of these (C05, C30, C46, C68) holds of the whole program. -/
theorem C90_parts {cfg : Sched.Cfg} {st : Bool} {f : Path → Option Nat} {n : Nat} {ops raws sg} {s : LSt}
    (h : LRun cfg st (fun _ => True) (LSt.init f n) ops raws sg s) :
    (∃ t, Sched.Exec Y cfg t s.sys ∧ signals t = sg) ∧ Inotify.Runs (fun _ => True) (.init f n) raws s.pipe := by
  suffices h' : ((∃ t, Sched.Exec Y cfg t s.sys ∧ signals t = sg) ∧ s.sys.os = [] ∧ ∀ r t, s.plan = some (r, t) → Y.step s.sys.tree r t) ∧
      Inotify.Runs (fun _ => True) (.init f n) raws s.pipe from ⟨h'.1.1, h'.2⟩
  have sig1 : ∀ t l, signals (t ++ [l]) = signals t ++ sigs l := by intro t l; simp [signals]
  induction h with
  | refl _ => exact ⟨⟨⟨[], .nil, rfl⟩, rfl, by intro r t h; cases h⟩, .refl trivial⟩
  | step _ hs _ ih =>
    obtain ⟨⟨⟨t, h1, h2⟩, h3, h4⟩, h5⟩ := ih
    cases hs with
    | go l sys' htr hfree =>
      refine ⟨⟨⟨t ++ [l], h1.snoc htr, by rw [sig1, h2]⟩, ?_, ?_⟩, by simpa using h5⟩
      · exact (free_os htr hfree).trans h3
      · intro r t' hp
        simp only [free_tree htr hfree]
        exact h4 r t' hp
    | pipe raws p' hst hc ho hk => exact ⟨⟨⟨t, h1, by simpa using h2⟩, h3, h4⟩, h5.step hst trivial⟩
    | send i o l hi hc hok =>
      refine ⟨⟨⟨t ++ [.report [o.info]] ++ [.push o.info], ?_, ?_⟩, h3, h4⟩, by simpa using h5.step (.send i o l hi) trivial⟩
      · have h6 := (h1.snoc (.report [o.info] (by simpa using hok) h3)).snoc (.push o.info [] rfl hc)
        simp only [h3] at h6 ⊢
        exact h6
      · rw [sig1, sig1, h2]; simp [sigs]
    | plan r ops' t' new hr hp ht hn =>
      exact ⟨⟨⟨t, h1, by simpa using h2⟩, h3, by rintro r t ⟨⟩; exact ht.step⟩, by simpa using h5⟩
    | add c p e rest wd k' ht ha hc he hk => exact ⟨⟨⟨t, h1, by simpa using h2⟩, h3, h4⟩, by simpa using h5.step (.add p e wd k' hc he hk) trivial⟩
    | table wd p e hc => exact ⟨⟨⟨t, h1, by simpa using h2⟩, h3, h4⟩, by simpa using h5.step (.table wd p e hc) trivial⟩
    | rm p rest wd w l ht hc hf hl => exact ⟨⟨⟨t, h1, by simpa using h2⟩, h3, h4⟩, h5.step (.rm p wd w _ hc hf hl) trivial⟩
    | forget wd hc => exact ⟨⟨⟨t, h1, by simpa using h2⟩, h3, h4⟩, by simpa using h5.step (.forget wd hc) trivial⟩
    | refuse c rest ht hc hf => exact ⟨⟨⟨t, h1, by simpa using h2⟩, h3, h4⟩, by simpa using h5⟩
    | effect i r a b t' hcalls hp ht hc =>
      refine ⟨⟨⟨t ++ [.effect i r], h1.snoc (.effect i r a b t' hcalls (h4 _ _ hp) fun _ => h3), by rw [sig1, h2]; rfl⟩, h3, ?_⟩, by simpa using h5⟩
      intro r t h; cases h
    | intEffect ei t' hi hp ht hc =>
      refine ⟨⟨⟨t ++ [.intEffect (.internal ei)], h1.snoc (.intEffect ei t' hi (h4 _ _ hp) fun _ => h3), by rw [sig1, h2]; rfl⟩, h3, ?_⟩, by simpa using h5⟩
      intro r t h; cases h

/-! ### Nothing is left -/

/-- **C91.**  In any execution of the whole program, at a moment at which no operation is under way: if each channel that was passed to
Watch was stopped since, the kernel has no watch and the watcher's table is empty. -/
theorem C91_nothing_left {cfg : Sched.Cfg} {f : Path → Option Nat} (hf : Inotify.NoLinks f) {n : Nat} {ops raws sg} {s : LSt}
    (h : LRun cfg true (fun _ => True) (LSt.init f n) ops raws sg s) (hplan : s.plan = none) (hstop : ∀ c, ¬ NonRec.Pending c ops) :
    s.pipe.k.watches = [] ∧ s.pipe.k.m = [] := by
  have hj := h.j (J.init hf n)
  obtain ⟨ops₀, ops₁, h1, h2, h3 | ⟨r, t, h3, _⟩⟩ := hj.tree
  swap
  · rw [hplan] at h3; cases h3
  obtain ⟨_, rfl, h4, h5, _⟩ := h3
  rw [List.append_nil] at h1
  subst h1
  have h6 := NonRec.C13_all_stopped factsI h2 hstop
  have h7 := hj.drives
  rw [settle_idle h5, h4] at h7
  have hm : s.pipe.k.m = [] := by
    match hm : s.pipe.k.m with
    | [] => rfl
    | (wd, w) :: l =>
      have h8 := h7.agree.2 wd w (by rw [hm]; simp [GoMap.get?])
      exact absurd (h8.1.trans (h6 _).1) h8.2
  refine ⟨?_, hm⟩
  match hw : s.pipe.k.watches with
  | [] => rfl
  | (wd, w) :: l =>
    obtain ⟨w', h8, _⟩ := h7.reach.base.live wd w (by rw [hw]; simp [GoMap.get?])
    rw [hm] at h8
    cases h8

/-! ### The premises can be met -/

namespace Ex
open Inotify (Raw inCreate FromKernel)

def d : Path := [['d']]
def fs : Path → Option Nat := fun p => if p = d then some 1 else none
def cfg : Sched.Cfg := ⟨2, 2, true, false⟩
/-- `/d/f` is created. -/
def r1 : Raw := { wd := 1, mask := inCreate, name := ['f'] }
def C : Event := I.create
def W : Event := I.write
def t1 : St := (NonRec.watchOp I .ok (.dir .nil) NonRec.init d false 1 C).1
def t2 : St := (NonRec.watchOp I .ok (.dir .nil) t1 d false 2 W).1
def ei : EventInfo := { event := C, path := d ++ [['f']] }

theorem good : GoodPath d := by simp [d, GoodPath]
theorem uC : NonRec.UserEvents I C := by unfold NonRec.UserEvents; decide
theorem uW : NonRec.UserEvents I W := by unfold NonRec.UserEvents; decide
theorem noLinks : Inotify.NoLinks fs := by
  intro p q n hp hq
  unfold fs at hp hq
  split at hp
  · next h => split at hq; · next h' => rw [h, h']
              · cases hq
  · cases hp

def req1 : Sched.Req := .watch d false 1 C
def req2 : Sched.Req := .watch d false 2 W
def op1 : Op := .watch d false 1 C true
def op2 : Op := .watch d false 2 W true

theorem step1 : NonRec.Step I true NonRec.init op1 t1 :=
  NonRec.Step.watch (O := .ok) good uC (by simp [DirTree.Named, Entries.Named]) (fun _ _ => rfl)
theorem step2 : NonRec.Step I true t1 op2 t2 :=
  NonRec.Step.watch (O := .ok) good uW (by simp [DirTree.Named, Entries.Named]) (fun _ _ => rfl)

/-- Channel 1 watches `/d` for Create; both calls of the user have returned. -/
def s1 : LSt :=
  { sys := { Sched.State.init Y with tree := t1, next := 1 },
    pipe := { Inotify.PSt.init fs 2 with k := (Inotify.watch false { inode := fs } d C).1 },
    log := [(.watch d C, true)] }

theorem run1 : LRun cfg true (fun _ => True) (LSt.init fs 2) [op1] [] [] s1 := by
  have h := LRun.refl (cfg := cfg) (stable := true) (I := fun _ => True) (s := LSt.init fs 2) trivial
  have h := h.step (.go _ _ (.call (Y := Y) req1 (show GoodPath d ∧ NonRec.UserEvents I C from ⟨good, uC⟩) trivial) trivial) trivial
  have h := h.step (.go _ _ (.lock 0 req1 [] [] rfl (by rintro ⟨_, _, _, _, h⟩; cases h)
    (by rintro ⟨_, _, h | h⟩ <;> cases h <;> contradiction) (by rintro ⟨_, h | h⟩ <;> cases h)) trivial) trivial
  have h := h.step (.plan req1 [op1] t1 [(.watch d C, true)] (.inl ⟨0, .head _⟩) rfl ⟨NonRec.Steps.nil.snoc step1, op1, ⟨_, rfl⟩, .inl rfl⟩ rfl) trivial
  have h := h.step (.add (.watch d C) d C [] 1 _ rfl (.inl rfl) rfl (by decide) rfl) trivial
  have h := h.step (.table 1 d C rfl) trivial
  have h := h.step (.effect 0 req1 [] [] t1 rfl rfl rfl rfl) trivial
  have h := h.step (.go _ _ (.unlock 0 req1 [] [] rfl) trivial) trivial
  have h := h.step (.go _ _ (.ret 0 req1 [] [] rfl) trivial) trivial
  exact h

/-- Meanwhile channel 2 watches `/d` for Write: the file is created, read and looked up while the call runs. -/
theorem run2 : ∃ s', LRun cfg true (fun s => ∀ wd w, s.pipe.k.m.get? wd = some w → w.path ≠ d ++ [['f']]) s1 [op2] [r1]
    [(.user 1, ei)] s' ∧ s'.Quiet := by
  have f1 : FromKernel r1 := ⟨8, false, by decide, by decide⟩
  have m1 : ∀ {s : LSt}, s.pipe.k.m = [(1, ⟨d, C⟩)] → ∀ wd w, s.pipe.k.m.get? wd = some w → w.path ≠ d ++ [['f']] := by
    intro s hs wd w h
    rw [hs] at h
    have := GoMap.mem_of_get? h
    simp only [List.mem_singleton, Prod.mk.injEq] at this
    rw [this.2]; decide
  have m2 : ∀ {s : LSt}, s.pipe.k.m = [(1, ⟨d, C ||| W⟩)] → ∀ wd w, s.pipe.k.m.get? wd = some w → w.path ≠ d ++ [['f']] := by
    intro s hs wd w h
    rw [hs] at h
    have := GoMap.mem_of_get? h
    simp only [List.mem_singleton, Prod.mk.injEq] at this
    rw [this.2]; decide
  have same : ∀ {a b : Inotify.PSt}, Inotify.NoLinks a.k.inode → b.k.inode = a.k.inode → Keeps a b := by
    intro a b h1 h2; exact ⟨by rw [h2]; exact h1, fun _ _ _ => by rw [h2]⟩
  have h := LRun.refl (cfg := cfg) (stable := true) (I := fun s => ∀ wd w, s.pipe.k.m.get? wd = some w → w.path ≠ d ++ [['f']]) (s := s1) (m1 rfl)
  have h := h.step (.go _ _ (.call (Y := Y) req2 (show GoodPath d ∧ NonRec.UserEvents I W from ⟨good, uW⟩) trivial) trivial) (m1 rfl)
  have h := h.step (.go _ _ (.lock 1 req2 [] [] rfl (by rintro ⟨_, _, _, _, h⟩; cases h)
    (by rintro ⟨_, _, h | h⟩ <;> cases h <;> contradiction) (by rintro ⟨_, h | h⟩ <;> cases h)) trivial) (m1 rfl)
  have h := h.step (.plan req2 [op2] t2 [(.rewatch d C (C ||| W), true)] (.inl ⟨1, .head _⟩) rfl
    ⟨NonRec.Steps.nil.snoc step2, op2, ⟨_, rfl⟩, .inl rfl⟩ rfl) (m1 rfl)
  have h := h.step (.add (.rewatch d C (C ||| W)) d (C ||| W) [] 1 _ rfl (.inr ⟨_, rfl⟩) rfl (by decide) rfl) (m1 rfl)
  have h := h.step (.pipe _ _ (.change r1 f1) rfl rfl (fun _ => same noLinks rfl)) (m1 rfl)
  have h := h.step (.pipe _ _ (.read 1 rfl) rfl rfl (fun _ => same noLinks rfl)) (m1 rfl)
  have h := h.step (.pipe _ _ (.hand 0 [r1] rfl rfl) rfl rfl (fun _ => same noLinks rfl)) (m1 rfl)
  have h := h.step (.pipe _ _ (.transform 0 [r1] rfl) rfl rfl (fun _ => same noLinks rfl)) (m1 rfl)
  have h := h.step (.send 0 ⟨r1, ei⟩ [] (by decide) (by decide) (by simp [ei, d, GoodPath])) (m1 rfl)
  have h := h.step (.pipe _ _ (.next 0 rfl) rfl rfl (fun _ => same noLinks rfl)) (m1 rfl)
  have h := h.step (.go _ _ (.spawn ei [] rfl) trivial) (m1 rfl)
  have h := h.step (.table 1 d (C ||| W) rfl) (m2 rfl)
  have h := h.step (.effect 1 req2 [] [] t2 rfl rfl rfl rfl) (m2 rfl)
  have h := h.step (.go _ _ (.unlock 1 req2 [] [] rfl) trivial) (m2 rfl)
  have h := h.step (.go _ _ (.rlock 2 ei [] [] rfl (by rintro ⟨_, _, h | h⟩ <;> cases h <;> contradiction)
    (by rintro ⟨_, h | h⟩ <;> cases h)
    (by rintro _ (⟨_, _, h⟩ | ⟨_, h⟩) <;> cases h <;> contradiction)) trivial) (m2 rfl)
  have h := h.step (.go _ _ (.pick 2 ei [] (.user 1) [] [] rfl (by decide)) trivial) (m2 rfl)
  have h := h.step (.go _ _ (.send 2 ei [] (.user 1) [] [] rfl) trivial) (m2 rfl)
  have hs : NonRec.sends I t2.root ei = [.user 1] := by decide
  have h := h.step (.go _ _ (.fin 2 ei [.user 1] [] [] rfl (by intro k; exact Nat.le_of_eq (congrArg (List.count k) hs)) (by decide)) trivial) (m2 rfl)
  exact ⟨_, h, ⟨rfl, rfl, by decide⟩, rfl, rfl⟩

/-- The theorem gives the one signal. -/
example : ∃ s' wd, LRun cfg true (fun _ => True) s1 [op2] [r1] [(.user 1, ei)] s' ∧
    [(Key.user 1, ei)].countP (Gets 1 C (d ++ [['f']])) =
      copies (regOf I [op1]) 1 C (d ++ [['f']]) * [r1].countP (Inotify.«says» wd C ['f']) := by
  obtain ⟨s', h, hq⟩ := run2
  obtain ⟨wd, h1⟩ := C90_linux noLinks run1 rfl ⟨⟨rfl, rfl, by decide⟩, rfl, rfl⟩ (c := 1) (p := d) good (E := C) ⟨Inotify.inCreate, by decide⟩ (by decide)
    (by simp [op1, NoFail])
  have h2 := (h1 [op2] [r1] [(.user 1, ei)] s').2 ['f'] (by decide) (by simp [op2, Leaves]) hq
  exact ⟨s', wd, h.mono fun _ _ => trivial, h2.2.2 h⟩

theorem step3 : NonRec.Step I true t1 (.stop 1) (NonRec.stop I .ok t1 1) := NonRec.Step.stop (fun _ => rfl)

/-- The only channel is stopped; there was a kernel watch before, and there is none after. -/
example : s1.pipe.k.watches ≠ [] ∧ ∃ s', LRun cfg true (fun _ => True) (LSt.init fs 2) [op1, .stop 1] [{ wd := 1, mask := Inotify.inIgnored }] [] s' ∧
    s'.plan = none ∧ s'.pipe.k.watches = [] ∧ s'.pipe.k.m = [] := by
  refine ⟨by decide, ?_⟩
  have h := run1
  have h := h.step (.go _ _ (.call (Y := Y) (Sched.Req.stop 1) trivial trivial) trivial) trivial
  have h := h.step (.go _ _ (.lock (Y := Y) 1 (Sched.Req.stop 1) [] [] rfl (by rintro ⟨_, _, _, _, h⟩; cases h)
    (by rintro ⟨_, _, h | h⟩ <;> cases h <;> contradiction) (by rintro ⟨_, h | h⟩ <;> cases h)) trivial) trivial
  have h := h.step (.plan (.stop 1) [.stop 1] (NonRec.stop I .ok t1 1) [(.unwatch d, true)] (.inl ⟨1, .head _⟩) rfl
    ⟨NonRec.Steps.nil.snoc step3, .stop 1, rfl, .inl rfl⟩ rfl) trivial
  have h := h.step (.rm d [] 1 ⟨d, C⟩ [{ wd := 1, mask := Inotify.inIgnored }] rfl rfl rfl (.inr rfl)) trivial
  have h := h.step (.forget 1 rfl) trivial
  have h := h.step (.effect 1 (.stop 1) [] [] _ rfl rfl rfl rfl) trivial
  refine ⟨_, h, rfl, C91_nothing_left noLinks h rfl ?_⟩
  rintro c ⟨a, b, p, isrec, e, res, he, hb⟩
  match a with
  | [] => simp [op1] at he; obtain ⟨⟨_, _, rfl, _⟩, rfl⟩ := he; simp at hb
  | [_] => simp at he
  | _ :: _ :: a => simp at he

end Ex

end Linux
end Verif
