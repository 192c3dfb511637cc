/-
C93: the whole program on Linux, for directories below a recursive watch and for watched paths themselves.
-/
import Verif.PropsLinux
import Verif.PropsScan2

namespace Verif
namespace NonRec
open GoMap Spec

variable {P : Platform}

/-! ### Internal sets only grow, but for Stop and removals -/

/-- The internal set of `w'` has all of that of `w`. -/
def RecSub (w w' : WP) : Prop := ∀ v, w.get? .recCh = some v → ∃ v', w'.get? .recCh = some v' ∧ v ⊑ v'

theorem RecSub.refl (w : WP) : RecSub w w := fun v hv => ⟨v, hv, Event.Sub.refl _⟩

theorem RecSub.trans {a b c : WP} (h : RecSub a b) (h' : RecSub b c) : RecSub a c := by
  intro v hv
  obtain ⟨v', h1, h2⟩ := h v hv
  obtain ⟨v'', h3, h4⟩ := h' v' h1
  exact ⟨v'', h3, h2.trans h4⟩

theorem RecSub.add (w : WP) {k : Key} (hk : k ≠ .nil) (e : Event) : RecSub w (w.add P k e).1 := by
  intro v hv
  rw [WP.get?_add P w hk]
  simp only [reduceCtorEq, if_false]
  split
  · next h =>
    subst h
    exact ⟨_, rfl, by rw [val_of_some hv]; exact Event.sub_or_left _ _⟩
  · exact ⟨v, hv, Event.Sub.refl _⟩

theorem RecSub.watchAdd (w : WP) (c : Nat) (e : Event) : RecSub w (watchAdd P w c e) := by
  unfold NonRec.watchAdd
  split
  · exact (RecSub.add _ (by simp) _).trans (RecSub.add _ (by simp) _)
  · exact RecSub.add _ (by simp) _

theorem addDir_recSub {O : Oracle} {e : Event} (he : P.recursive ⊑ e) {dt : DirTree} (hd : dt.Named) {nd : Node}
    {n : Path} (hn : [] ∉ n) (hok : nd.OK (NR P) noR n) (s : World) (r : Path) :
    RecSub (watchAt nd r) (watchAt (dt.addDir (recFunc P O e) s nd).2.1 r) :=
  (DirTree.addDir_rel (nr_nil P) (fun s n w hw => recFunc_nr he hw) (Rel := RecSub) RecSub.refl (fun _ _ _ h1 h2 => h1.trans h2)
    (fun s n w => by rw [recFunc_snd]; exact RecSub.add _ (by simp) _) hn dt hd (s := s) hok r).1

theorem trav_recSub {O : Oracle} {e : Event} {skip : Bool} {nd : Node} {n : Path} (hok : nd.OK (NR P) noR n)
    (s : World) (r : Path) :
    RecSub (watchAt nd r) (watchAt (nd.trav skip (fun s _ n w => recFunc P O e s n w) s []).2 r) := by
  intro v hv
  have h1 := (trav_rec (P := P) (O := O) (e := e) (skip := skip) hok s r).1
  have hf : nd.find r ≠ none := find_of_recAt (nd := nd) (q := r) hv
  rw [if_neg hf] at h1
  exact ⟨_, h1, by rw [val_of_some hv]; exact Event.sub_or_left _ _⟩

theorem watchAt_update_sub {nd : Node} {p : Path} (hg : nd.get? p ≠ none) {w : WP} (hw : RecSub (watchAt nd p) w) (q : Path) :
    RecSub (watchAt nd q) (watchAt (nd.update p (Node.setWatch w)) q) := by
  rw [watchAt_setWatch hg]
  split
  · next h => subst h; exact hw
  · exact RecSub.refl _

theorem watchAt_put_sub {nd c nd' : Node} {p : Path} (hg : nd.get? p = some c) (h : ∀ r, RecSub (watchAt c r) (watchAt nd' r)) (q : Path) :
    RecSub (watchAt nd q) (watchAt (nd.update p (fun _ => nd')) q) := by
  by_cases hq : p <+: q
  · obtain ⟨r, rfl⟩ := hq
    rw [watchAt_put (by rw [hg]; simp), watchAt_get hg]
    exact h r
  · rw [watchAt_put_other _ _ hq]; exact RecSub.refl _

/-- A Watch, whatever comes of it. -/
theorem watchOp_recSub (hP : P.Facts) (O : Oracle) {s : St} (hs : Shape P s.root) {p : Path} (hp : GoodPath p) (isrec : Bool)
    {dt : DirTree} (hd : dt.Named) (c : Nat) (e : Event) (q : Path) :
    RecSub (watchAt s.root q) (watchAt (watchOp P O dt s p isrec c e).1.root q) := by
  cases isrec with
  | false =>
    intro v hv
    exact ⟨v, (plain_rec O s dt p c e q).trans hv, Event.Sub.refl _⟩
  | true =>
    rw [← watchAt_add s.root p q]
    have hg := Node.add_get_ne_none s.root p
    have h3 := hs.add hp
    unfold watchOp NonRec.watchrec
    simp only [if_true]
    split
    · exact watchAt_update_sub hg ((RecSub.watchAdd _ _ _).trans (RecSub.add _ (by simp) _)) q
    split
    · exact RecSub.refl _
    obtain ⟨nd, hnd⟩ := Option.ne_none_iff_exists'.1 hg
    simp only [hnd]
    have hndok : nd.OK (NR P) noR p := by simpa using h3.ok.get hp.2 hnd
    generalize hr : (if _ = (0 : Event) then _ else _ : World × Node × Bool) = r
    have hsub : ∀ x, RecSub (watchAt nd x) (watchAt r.2.1 x) := by
      intro x
      subst hr
      split
      · exact addDir_recSub (Event.sub_or_right _ _) hd hp.2 hndok _ x
      · exact trav_recSub hndok _ x
    have h4 := watchAt_put_sub hnd hsub
    split
    · exact (h4 q).trans (watchAt_update_sub (get_put_ne hg _) (RecSub.watchAdd _ _ _) q)
    · exact h4 q

/-- The handling of an event other than the removal of the directory or of one above. -/
theorem internal_recSub (O : Oracle) {s : St} (h : Good P s) {dt : DirTree} (hd : dt.Named) {ei : EventInfo}
    (hp : GoodPath ei.path) {q : Path} (hq : ei.event = P.remove → ¬ ei.path <+: q) :
    RecSub (watchAt s.root q) (watchAt (internal P O dt s ei).root q) := by
  unfold internal
  split
  · next hev =>
    split
    · exact RecSub.refl _
    · dsimp only
      cases hdel : s.root.del ei.path with
      | none => exact RecSub.refl _
      | some r =>
        simp only [Option.getD_some]
        rw [h.del_watchAt hdel, if_neg (hq hev)]
        exact RecSub.refl _
  · dsimp only
    split
    · exact RecSub.refl _
    · next hpick =>
      have hg := Node.add_get_ne_none s.root ei.path
      obtain ⟨nd, hnd⟩ := Option.ne_none_iff_exists'.1 hg
      simp only [hnd]
      rw [← watchAt_add s.root ei.path q]
      have hset := pickSet_ok h.shape.ok hpick
      have hndok : nd.OK (NR P) noR ei.path := by simpa using (h.shape.add hp).ok.get hp.2 hnd
      exact watchAt_put_sub hnd (addDir_recSub (rec_of_set hset) hd hp.2 hndok _) q

/-! ### A channel with a recursive watch, and a directory below it -/

/-- The events `E` of channel `c` on `p` reach all directories from `p` to `q`. -/
def Spans (c : Nat) (p q : Path) (E : Event) (s : St) : Prop :=
  (∃ v, entry s.root c p = some v ∧ E ⊑ v) ∧ ∀ a, p <+: a → a <+: q → ∃ v, recAt s.root a = some v ∧ E ⊑ v

/-- The OS watches `q` for them. -/
theorem Spans.os {c : Nat} {p q : Path} {E : Event} {s : St} (hpq : p <+: q) (hE : E &&& P.internal = 0) (hg : Good P s)
    (h : Spans c p q E s) : E ⊑ osOf s.world.log q := by
  obtain ⟨v, hv, hs⟩ := h.2 q hpq List.prefix_rfl
  have h1 := hg.rec_os hv
  have h2 : P.internal = P.recursive ||| P.omitted := rfl
  generalize osOf s.world.log q = x at *
  clear hv hg h
  ebits

/-- Operations that are not of `c` and do not remove a directory from `p` to `q`. -/
theorem Spans.step (hP : P.Facts) {c : Nat} {p q : Path} {E : Event} (hE : UserEvents P E) {s s' : St} (hg : Good P s) {op : Op}
    (hst : Step P true s op s')
    (hop : match op with
      | .watch _ _ d _ _ => d ≠ c
      | .stop d => d ≠ c
      | .internal ei => ei.event = P.remove → ¬ ei.path <+: q
      | .shuffle => True)
    (hpq : p <+: q) (h : Spans c p q E s) : Spans c p q E s' := by
  have grow : (∀ a, a <+: q → RecSub (watchAt s.root a) (watchAt s'.root a)) → entry s'.root c p = entry s.root c p → Spans c p q E s' := by
    intro h1 h2
    refine ⟨by rw [h2]; exact h.1, fun a h3 h4 => ?_⟩
    obtain ⟨v, hv, hs⟩ := h.2 a h3 h4
    obtain ⟨v', hv', hs'⟩ := h1 a h4 v hv
    exact ⟨v', hv', hs.trans hs'⟩
  cases hst with
  | @watch x isrec d e O dt hp he hd hO =>
    refine grow (fun a _ => watchOp_recSub hP O hg.shape hp isrec hd d e a) ?_
    rw [(watchOp_effect hP O hg.shape hp isrec d he hd).2, if_neg]
    rintro ⟨h1, _⟩
    exact hop h1.symm
  | @stop d O hO =>
    have hdc : c ≠ d := fun hx => hop hx.symm
    have hsh := hg.shape
    obtain ⟨v, hv, hsv⟩ := h.1
    refine ⟨⟨v, by rw [(stop_effect hP O hsh d).2, if_neg hdc]; exact hv, hsv⟩, ?_⟩
    have : ∀ m a, a.length = m → p <+: a → a <+: q → ∃ v, recAt (NonRec.stop P O s d).root a = some v ∧ E ⊑ v := by
      intro m
      obtain ⟨u, hu, hsu⟩ := h.2 p List.prefix_rfl hpq
      have hbase := stop_keep hsh hP O hdc hE hv hsv hu hsu
      induction m with
      | zero =>
        intro a ha h1 _
        rw [List.length_eq_zero_iff.1 ha] at h1 ⊢
        exact (List.prefix_nil.1 h1) ▸ hbase
      | succ m ih =>
        intro a ha h1 h2
        rcases path_cases a with rfl | ⟨r, b, rfl⟩
        · simp at ha
        · rcases List.prefix_concat_iff.1 h1 with h3 | h3
          · rw [← h3]; exact hbase
          · obtain ⟨v', hv', hsv'⟩ := ih r (by simpa using ha) h3 ((List.prefix_append _ _).trans h2)
            obtain ⟨u', hu', _⟩ := h.2 _ h1 h2
            obtain ⟨v'', hv'', hvv⟩ := stop_mono hsh hP O d hv' hu'
            exact ⟨v'', hv'', hsv'.trans hvv⟩
    exact fun a h1 h2 => this _ a rfl h1 h2
  | @internal ei O dt hp hd hO =>
    refine grow (fun a ha => internal_recSub O hg hd hp fun he hx => hop he (hx.trans ha)) ?_
    rw [(internal_effect (P := P) O hg.shape hp hd).2, if_neg]
    rintro ⟨h1, h2⟩
    exact hop h1 (h2.trans hpq)
  | shuffle hsh =>
    refine grow (fun a _ => ?_) (hsh.get p _)
    intro v hv
    exact ⟨v, by rw [hsh.get]; exact hv, Event.Sub.refl _⟩

end NonRec

namespace Linux
open Inotify (PSt PStep Raw Out PInv outs total FromKernel at_ Held total_step)
open NonRec (Op Steps Hist NoFail regOf Spans UserEvents GoodPath)
open Spec (wants wantsBelow copies Reg)

/-! ### In the program -/

theorem Leaves.up {c : Nat} {q x : Path} (h : q <+: x) {op : Op} (hl : Leaves c x op) : Leaves c q op := by
  cases op with
  | internal ei => exact fun he hx => hl he (hx.trans h)
  | _ => exact hl

theorem Spans.steps {c : Nat} {p q : Path} {E : Event} (hE : UserEvents I E) (hpq : p <+: q) {s t : St} {ops base : List Op}
    (hb : Hist I true base s) (h : Steps I true s ops t) (hl : ∀ op ∈ ops, Leaves c q op) (hs : Spans c p q E s) : Spans c p q E t := by
  induction h with
  | nil => exact hs
  | @snoc ops s₁ op s₂ h1 h2 ih =>
    refine NonRec.Spans.step factsI hE (NonRec.Hist.good factsI (hist_append hb h1)) h2 ?_ hpq (ih fun o ho => hl o (by simp [ho]))
    have := hl op (by simp)
    cases op <;> exact this

/-- Also in the middle of operations. -/
theorem spans_amid {ops base : List Op} {s t : St} (h : Hist I true base s) (h' : Steps I true s ops t)
    {c : Nat} {p q : Path} (hpq : p <+: q) (hl : ∀ op ∈ ops, Leaves c q op) {E : Event} (hE : UserEvents I E) (hs : Spans c p q E s)
    {l : Log} (h1 : s.world.log <:+ l) (h2 : l <:+ t.world.log) : E ⊑ osOf l q := by
  induction h' with
  | nil =>
    rw [Amid.same ⟨h1, h2⟩]
    exact hs.os hpq hE.2 (NonRec.Hist.good factsI h)
  | @snoc ops'' s₃ op s₄ h3 h4 ih =>
    have hl3 : ∀ op ∈ ops'', Leaves c q op := fun o ho => hl o (by simp [ho])
    have hh3 := hist_append h h3
    have hst := NonRec.Step.steady factsI (NonRec.Hist.good factsI hh3) h4
    rcases amid_split ⟨h1, h2⟩ hst.1 with hl' | hl'
    · exact ih hl3 hl'.2
    · refine Event.Sub.trans ?_ (hst.2 l hl' q).1
      have h5 := (Spans.steps hE hpq h h3 hl3 hs).os hpq hE.2 (NonRec.Hist.good factsI hh3)
      have h6 := (Spans.steps hE hpq h (h3.snoc h4) hl hs).os hpq hE.2 (NonRec.Hist.good factsI (hist_append h (h3.snoc h4)))
      generalize osOf s₃.world.log q = a at *
      generalize osOf s₄.world.log q = b at *
      clear hst ih hl h4 h3 h hE hs
      ebits

/-- The tree, and the tree that the operation under way leads to. -/
def Carries (c : Nat) (p q : Path) (E : Event) (s : LSt) : Prop :=
  Spans c p q E s.sys.tree ∧ ∀ r t, s.plan = some (r, t) → ∃ ops, Steps I true s.sys.tree ops t ∧ ∀ op ∈ ops, Leaves c q op

theorem Carries.step {cfg : Sched.Cfg} {base ops o : List Op} {s s' : LSt} {r : List Raw} {g : List (Key × EventInfo)} (hj : J base ops s)
    (hs : LStep cfg true s o r g s') {c : Nat} {p q : Path} (hpq : p <+: q) {E : Event} (hE : UserEvents I E)
    (hl : ∀ op ∈ o, Leaves c q op) (h : Carries c p q E s) : Carries c p q E s' := by
  obtain ⟨ops₀, _, _, hh, _⟩ := hj.tree
  cases hs with
  | go l sys' htr hfree =>
    refine ⟨?_, ?_⟩ <;> simp only [free_tree htr hfree]
    · exact h.1
    · exact h.2
  | plan r ops t new hr hp ht hn =>
    refine ⟨h.1, fun r' t' he => ?_⟩
    cases he
    exact ⟨_, ht.1, hl⟩
  | effect i r a b t hcalls hp ht hc =>
    obtain ⟨ops, h1, h2⟩ := h.2 _ _ hp
    exact ⟨Spans.steps hE hpq hh h1 h2 h.1, by intro _ _ he; cases he⟩
  | intEffect ei t hi hp ht hc =>
    obtain ⟨ops, h1, h2⟩ := h.2 _ _ hp
    exact ⟨Spans.steps hE hpq hh h1 h2 h.1, by intro _ _ he; cases he⟩
  | _ => exact h

theorem Carries.backed {base ops : List Op} {s : LSt} (hj : J base ops s) {c : Nat} {p q : Path} (hpq : p <+: q) {E : Event}
    (hE : UserEvents I E) (h : Carries c p q E s) : Backed q E s := by
  obtain ⟨ops₀, ops₁, rfl, h2, h3⟩ := hj.tree
  unfold Backed
  rcases h3 with ⟨_, rfl, h5, _⟩ | ⟨r, t, hp, _, h5, h6⟩
  · rw [h5]
    exact h.1.os hpq hE.2 (NonRec.Hist.good factsI h2)
  · obtain ⟨ops', h4, h7⟩ := h.2 _ _ hp
    exact spans_amid h2 h4 hpq h7 hE h.1 h5 ⟨_, h6⟩

section
variable {cfg : Sched.Cfg} {Q : LSt → Prop} {base : List Op} {s s' : LSt} {ops : List Op} {raws : List Raw} {sg : List (Key × EventInfo)}
  {c : Nat} {p q x : Path} {E : Event}

theorem LRun.carries (hj : J base [] s) (h : LRun cfg true Q s ops raws sg s') (hpq : p <+: q) (hE : UserEvents I E)
    (hl : ∀ op ∈ ops, Leaves c q op) (hc : Carries c p q E s) : Carries c p q E s' := by
  induction h with
  | refl _ => exact hc
  | step h1 hs _ ih => exact (ih fun o ho => hl o (by simp [ho])).step (h1.j hj) hs hpq hE fun o ho => hl o (by simp [ho])

/-- As long as there are only operations as in `L`, `q` has an OS watch with `E`. -/
def Stays (cfg : Sched.Cfg) (L : Op → Prop) (q : Path) (E : Event) (s : LSt) : Prop :=
  ∀ ops raws sg s', LRun cfg true (fun _ => True) s ops raws sg s' → (∀ op ∈ ops, L op) → Backed q E s'

theorem LRun.held' {L : Op → Prop} (hj : J base [] s) (h : LRun cfg true Q s ops raws sg s') (hl : ∀ op ∈ ops, L op) (hE0 : E ≠ 0)
    (hb : Stays cfg L q E s) {wd : Nat} (hh : Held wd q E s.pipe) : Held wd q E s'.pipe := by
  induction h with
  | refl _ => exact hh
  | @step ops raws sg o r g s1 s2 h1 hs _ ih =>
    have hl' : ∀ op ∈ ops, L op := fun a ha => hl a (by simp [ha])
    exact (h1.j hj).held_step hs hE0 (hb _ _ _ _ (h1.mono fun _ _ => trivial) hl') (ih hl')

theorem LRun.total' {L : Op → Prop} {fo : Out → Bool} {g : Raw → Bool} (hj : J base [] s) (h : LRun cfg true Q s ops raws sg s')
    (hl : ∀ op ∈ ops, L op) (hE0 : E ≠ 0) (hb : Stays cfg L q E s) {wd : Nat} (hh : Held wd q E s.pipe)
    (hw : ∀ s : LSt, Uniq s.pipe.k.m → PInv s.pipe → Q s → Held wd q E s.pipe → ∀ r, FromKernel r →
      (outs s.pipe.k.m [r]).countP fo = if g r = true then 1 else 0) :
    Inotify.total fo g s'.pipe = Inotify.total fo g s.pipe + raws.countP g := by
  induction h with
  | refl _ => simp
  | @step ops raws sg o r g' s1 s2 h1 hs _ ih =>
    have hl' : ∀ op ∈ ops, L op := fun a ha => hl a (by simp [ha])
    have hj1 := h1.j hj
    rw [pipe_total hj1.inv hs (hw s1 hj1.uniq hj1.inv h1.last (h1.held' hj hl' hE0 hb hh)), ih hl', List.countP_append]
    omega

end

/-- Nothing else that is watched gives events for `q/n`, or for `q` itself if `n` is empty: `q/n`, or the directory of `q`, is not
watched itself. -/
def Sole (q : Path) (n : Comp) (s : LSt) : Prop :=
  ∀ wd w, s.pipe.k.m.get? wd = some w → w.path ≠ if n = [] then q.dropLast else q ++ [n]

theorem at_good {q : Path} (hq : GoodPath q) (n : Comp) : at_ q n = if n = [] then q else q ++ [n] := by
  unfold at_ Inotify.join
  split
  · rfl
  · rw [if_neg]
    rintro rfl
    exact hq.2 (by simp)

/-- What one record gives. -/
theorem weight_sole {m : Inotify.Table} {wd : Nat} {q : Path} {E : Event} {n : Comp} (hu : Uniq m) (hacc : ∀ x ∈ m, Inotify.accepts x.2.mask = true)
    {w : Inotify.Watched} (hw : m.get? wd = some w) (hwp : w.path = q) (hE : E ⊑ w.mask) (hq : GoodPath q) (hlen : 2 ≤ (at_ q n).length)
    (hno : ∀ wd' w', m.get? wd' = some w' → w'.path ≠ if n = [] then q.dropLast else q ++ [n]) {r : Raw} (hr : FromKernel r) :
    (outs m [r]).countP (fun o => isEv E (at_ q n) o.info) = if Inotify.«says» wd E n r = true then 1 else 0 := by
  by_cases hn : n = []
  swap
  · rw [if_neg hn] at hno
    rw [at_good hq, if_neg hn]
    exact weight_ev hu hacc hw hwp hE hq hn hno hr
  rw [if_pos hn] at hno
  by_cases hwd : r.wd = wd
  · rw [← Inotify.weight hw (hacc _ (GoMap.mem_of_get? hw)) hE hr n, hwp]
    apply List.countP_congr
    intro o ho
    rw [Inotify.outs_single] at ho
    obtain ⟨ei, _, rfl⟩ := List.mem_map.1 ho
    simp [isEv, Inotify.hit, hwd]
  · rw [if_neg (by simp [Inotify.«says», hwd]), List.countP_eq_zero]
    intro o ho hev
    rw [Inotify.outs_single] at ho
    obtain ⟨ei, hei, rfl⟩ := List.mem_map.1 ho
    obtain ⟨w', hw', hpath⟩ := sent_path hei
    simp only [isEv, Bool.and_eq_true, decide_eq_true_eq] at hev
    rw [hev.2] at hpath
    rw [at_good hq, if_pos hn] at hpath hlen
    unfold at_ Inotify.join at hpath
    split at hpath
    · exact hwd (hu _ _ _ _ hw' hw (by rw [← hpath, hwp]))
    · split at hpath
      · rw [hpath] at hlen; simp at hlen
      · exact hno _ _ hw' (by rw [hpath, List.dropLast_concat])

/-- Delivery, for a path that stays watched. -/
theorem deliver {cfg : Sched.Cfg} {base : List Op} {s : LSt} (hj : J base [] s) (hidle : s.pipe.caller = .idle) (hq : s.Quiet) {c : Nat}
    {q : Path} (hgood : GoodPath q) {E : Event} (hE : UserEvents I E) (hfail : ∀ op ∈ base, NoFail c op)
    (hb : Stays cfg (Leaves c q) q E s) :
    ∃ wd, ∀ (ops : List Op) (raws : List Raw) (sg : List (Key × EventInfo)) (s' : LSt),
      (LRun cfg true (fun _ => True) s ops raws sg s' → (∀ op ∈ ops, Leaves c q op) →
        ∃ kw, s'.pipe.k.watches.get? wd = some kw ∧ s'.pipe.k.inode q = some kw.inode ∧ ∀ b, (E, b) ∈ Spec.Inotify.means → b ⊑ kw.mask) ∧
      ∀ n : Comp, 2 ≤ (at_ q n).length → (∀ op ∈ ops, Leaves c (at_ q n) op) → s'.Quiet →
        (LRun cfg true (fun _ => True) s ops raws sg s' →
          copies (regOf I base) c E (at_ q n) * raws.countP (Inotify.«says» wd E n) ≤ sg.countP (Gets c E (at_ q n))) ∧
        (LRun cfg true (Sole q n) s ops raws sg s' →
          sg.countP (Gets c E (at_ q n)) = copies (regOf I base) c E (at_ q n) * raws.countP (Inotify.«says» wd E n)) := by
  obtain ⟨wd, hh⟩ := hj.held hidle hE.1 (hb _ _ _ _ (.refl trivial) (by simp))
  have happ : ∀ {ops : List Op} {x : Path}, (∀ op ∈ ops, Leaves c x op) → ∀ op ∈ base ++ ops, NoFail c op := by
    intro ops x hl op hop
    rcases List.mem_append.1 hop with h | h
    · exact hfail op h
    · exact (hl op h).noFail
  refine ⟨wd, fun ops raws sg s' => ⟨fun h hl => ?_, fun n hlen hl hq' => ⟨fun h => ?_, fun h => ?_⟩⟩⟩
  · exact (h.j hj).kernel hE.1 (hb _ _ _ _ h hl) (h.held' hj hl hE.1 hb hh)
  all_goals
    have hpx : q <+: at_ q n := by
      rw [at_good hgood]
      split
      · exact List.prefix_rfl
      · exact List.prefix_append _ _
    have hlq : ∀ op ∈ ops, Leaves c q op := fun o ho => (hl o ho).up hpx
    have hops := happ hl
    have hgets : sg.countP (Gets c E (at_ q n)) = sg.countP (isSig c (isEv E (at_ q n))) := by
      apply List.countP_congr
      intro y _
      simp [Gets, isSig, isEv, Bool.and_assoc]
    have h1 := (h.due hj hops hl hE.2 hlen hq.2.2 rfl).1
    have hd : ∀ x : LSt, x.Quiet → due (copies (regOf I base) c E (at_ q n)) c (isEv E (at_ q n)) x.sys = 0 := by
      rintro x ⟨_, h1, h2⟩
      simp [Linux.due, h1, h2]
    rw [hd _ hq, hd _ hq', ← hgets] at h1
  · have h2 := h.total' (fo := Inotify.hit wd E (at_ q n)) (g := Inotify.«says» wd E n) hj hlq hE.1 hb hh (by
      rintro s hu hi _ ⟨w, hw, rfl, hE⟩ r hr
      exact Inotify.weight hw (hi.acc _ (GoMap.mem_of_get? hw)) hE hr n)
    rw [Inotify.total_quiet hq.1, Inotify.total_quiet hq'.1] at h2
    obtain ⟨new, hnew⟩ := h.out
    rw [← hnew, List.countP_append] at h1 h2
    have h3 : new.countP (Inotify.hit wd E (at_ q n)) ≤ new.countP (fun o => isEv E (at_ q n) o.info) := by
      apply List.countP_mono_left
      intro o _ ho
      simp only [Inotify.hit, isEv, Bool.and_eq_true, decide_eq_true_eq] at ho ⊢
      exact ⟨ho.1.2, ho.2⟩
    have h4 : raws.countP (Inotify.«says» wd E n) ≤ new.countP (fun o => isEv E (at_ q n) o.info) := by omega
    have h5 := Nat.mul_le_mul_left (copies (regOf I base) c E (at_ q n)) h4
    rw [Nat.mul_add] at h1
    omega
  · have h2 := h.total' (fo := fun o => isEv E (at_ q n) o.info) (g := Inotify.«says» wd E n) hj hlq hE.1 hb hh (by
      rintro s hu hi hno ⟨w, hw, hwp, hE⟩ r hr
      exact weight_sole hu hi.acc hw hwp hE hgood hlen hno hr)
    rw [Inotify.total_quiet hq.1, Inotify.total_quiet hq'.1] at h2
    rw [h2, Nat.mul_add] at h1
    omega

theorem J.idle {base ops : List Op} {s : LSt} (h : J base ops s) (hp : s.plan = none) : s.pipe.caller = .idle := by
  obtain ⟨_, _, _, _, h3 | ⟨r, t, h3, _⟩⟩ := h.tree
  · exact h3.2.2.2.1
  · rw [hp] at h3; cases h3

theorem means_user {E : Event} (hE : ∃ b, (E, b) ∈ Spec.Inotify.means) : UserEvents I E := by
  have : ∀ x ∈ Spec.Inotify.means, x.1 ≠ 0 ∧ x.1 &&& I.internal = 0 := by decide
  obtain ⟨b, hb⟩ := hE
  exact this _ hb

/-- A registration counts for the path itself and for its entries. -/
theorem copies_pos {r : Reg} {c : Nat} {E : Event} {q : Path} (n : Comp) (hq : GoodPath q) (h : wants r c E q = true) : 1 ≤ copies r c E (at_ q n) := by
  unfold copies
  rw [at_good hq]
  by_cases hn : n = []
  · rw [if_pos hn, h]; simp only [if_true]; omega
  · rw [if_neg hn, List.dropLast_concat, h]; simp only [if_true]; omega

/-- A recursive one counts for everything below. -/
theorem copies_below {r : Reg} {c : Nat} {E : Event} {p q : Path} (n : Comp) (hq : GoodPath q) (hpq : p <+: q) (h : wantsBelow r c E p = true) :
    1 ≤ copies r c E (at_ q n) := by
  have hw : wants r c E p = true := by
    unfold wantsBelow at h
    unfold wants
    rcases hx : r c p with _ | ⟨ev, fl⟩
    · rw [hx] at h; cases h
    · rw [hx] at h; simp at h ⊢; exact h.2
  by_cases hpe : p = q
  · subst hpe; exact copies_pos n hq hw
  -- `p` is above `x`, which is the directory in which the event is
  have key : ∀ x : Path, p <+: x → 1 ≤ (List.range x.length).countP (fun i => wantsBelow r c E (x.take i)) + if wants r c E x then 1 else 0 := by
    intro x hx
    by_cases he : p = x
    · subst he; rw [hw]; simp
    · have hlt : p.length < x.length := Nat.lt_of_le_of_ne hx.length_le fun hl => he (hx.eq_of_length hl)
      have : 0 < (List.range x.length).countP (fun i => wantsBelow r c E (x.take i)) := by
        rw [List.countP_pos_iff]
        exact ⟨p.length, List.mem_range.2 hlt, by rw [← List.prefix_iff_eq_take.1 hx]; exact h⟩
      omega
  unfold copies
  rw [at_good hq]
  split
  · have hp' : p <+: q.dropLast := by
      obtain ⟨l, rfl⟩ := hpq
      rcases List.eq_nil_or_concat l with rfl | ⟨l', b, rfl⟩
      · simp at hpe
      · rw [List.concat_eq_append, ← List.append_assoc, List.dropLast_concat]; exact List.prefix_append _ _
    have := key _ hp'
    omega
  · rw [List.dropLast_concat]
    have := key _ hpq
    omega

/-- **C93.**  As C90, for a recursive watch: channel `c` is registered for `E` on `p` recursively, and the directories from `p` down
to `q` were found by scans (their internal sets have `E`; by C92 this is so for every directory once the creation events have been
handled, by `C93_found` for what the scan of Watch finds).  From then on, as long as there is no Watch or Stop for `c` and none of these
directories is removed, whatever other channels do, including recursive watches above, below and elsewhere, and their Stop:
* at every moment the kernel's watch `wd` is on the inode of `q` and reports every kernel event that is an `E`;
* for every entry `n` of `q`, and for `q` itself (`n` empty): when nothing is on its way again, `c` was signalled the event at least as
  often as the kernel reported it, times the number of registrations of `c` that cover it, of which there is at least one; and
  exactly as often if nothing else that is watched gives events for the path. -/
theorem C93_linux_recursive {cfg : Sched.Cfg} {f : Path → Option Nat} (hf : Inotify.NoLinks f) {n₀ : Nat} {ops₀ : List Op} {raws₀ : List Raw}
    {sg₀ : List (Key × EventInfo)} {s : LSt} (h0 : LRun cfg true (fun _ => True) (LSt.init f n₀) ops₀ raws₀ sg₀ s) (hplan : s.plan = none)
    (hq : s.Quiet) {c : Nat} {p q : Path} (hgood : GoodPath q) (hpq : p <+: q) {E : Event} (hE : ∃ b, (E, b) ∈ Spec.Inotify.means)
    (hreg : wantsBelow (regOf I ops₀) c E p = true) (hfail : ∀ op ∈ ops₀, NoFail c op)
    (hfound : ∀ a, p <+: a → a <+: q → ∃ v, NonRec.recAt s.sys.tree.root a = some v ∧ E ⊑ v) :
    ∃ wd, ∀ (ops : List Op) (raws : List Raw) (sg : List (Key × EventInfo)) (s' : LSt),
      (LRun cfg true (fun _ => True) s ops raws sg s' → (∀ op ∈ ops, Leaves c q op) →
        ∃ kw, s'.pipe.k.watches.get? wd = some kw ∧ s'.pipe.k.inode q = some kw.inode ∧ ∀ b, (E, b) ∈ Spec.Inotify.means → b ⊑ kw.mask) ∧
      ∀ n : Comp, 2 ≤ (at_ q n).length → (∀ op ∈ ops, Leaves c (at_ q n) op) → s'.Quiet →
        1 ≤ copies (regOf I ops₀) c E (at_ q n) ∧
        (LRun cfg true (fun _ => True) s ops raws sg s' →
          copies (regOf I ops₀) c E (at_ q n) * raws.countP (Inotify.«says» wd E n) ≤ sg.countP (Gets c E (at_ q n))) ∧
        (LRun cfg true (Sole q n) s ops raws sg s' →
          sg.countP (Gets c E (at_ q n)) = copies (regOf I ops₀) c E (at_ q n) * raws.countP (Inotify.«says» wd E n)) := by
  have hU := means_user hE
  have hj : J ops₀ [] s := (h0.j (J.init hf n₀)).rebase hplan
  have hent : ∃ v, NonRec.entry s.sys.tree.root c p = some v ∧ E ⊑ v := by
    obtain ⟨_, _, he, hh, _⟩ := hj.tree
    obtain ⟨rfl, rfl⟩ := List.append_eq_nil_iff.1 he.symm
    rw [List.append_nil] at hh
    unfold wantsBelow at hreg
    rcases hx : regOf I ops₀ c p with _ | ⟨ev, fl⟩
    · rw [hx] at hreg; cases hreg
    · rw [hx] at hreg
      refine ⟨ev ||| (if fl then I.recursive else 0), ?_, ?_⟩
      · rw [(NonRec.Hist.refines factsI hh hfail).ent, hx]; rfl
      · simp at hreg
        exact hreg.2.trans (Event.sub_or_left _ _)
  have hcar : Carries c p q E s := ⟨⟨hent, hfound⟩, by intro r t he; rw [hplan] at he; cases he⟩
  obtain ⟨wd, hd⟩ := deliver (cfg := cfg) hj (hj.idle hplan) hq hgood hU hfail
    (fun _ _ _ _ h hl => (h.carries hj hpq hU hl hcar).backed (h.j hj) hpq hU)
  exact ⟨wd, fun ops raws sg s' => ⟨(hd ops raws sg s').1, fun n hlen hl hq' =>
    ⟨copies_below n hgood hpq hreg, (hd ops raws sg s').2 n hlen hl hq'⟩⟩⟩

/-- What the scan of a first recursive Watch of `p` finds meets the premise of C93. -/
theorem C93_found {s : St} {ops : List Op} (h : Hist I true ops s) {p : Path} (hp : GoodPath p) {c : Nat} {e : Event} (he : UserEvents I e)
    {dt : DirTree} (hd : dt.Named) (hres : (NonRec.watchOp I .ok dt s p true c e).2 = true) (hno : NonRec.recAt s.root p = none)
    {r : Path} (hr : r ∈ dt.dirs) {a : Path} (ha : p <+: a) (har : a <+: p ++ r) :
    ∃ v, NonRec.recAt (NonRec.watchOp I .ok dt s p true c e).1.root a = some v ∧ e ⊑ v := by
  have hg := NonRec.Hist.good factsI h
  have hga := Node.add_get_ne_none s.root p
  have hno' : NonRec.recAt (s.root.add p) p = none := by rw [NonRec.recAt_add]; exact hno
  have hR := NonRec.watchrec_rec factsI .ok (s := { s with root := s.root.add p }) (hg.shape.add hp) hp hga c
    (NonRec.recSet_of factsI he.1 he.2) hd (by unfold NonRec.watchOp at hres; simpa using hres)
  rcases hR with ⟨⟨v, hv, _⟩, _⟩ | ⟨_, hR⟩ | ⟨⟨v, hv⟩, _⟩
  · exact absurd hv (by simp only [hno']; simp)
  · obtain ⟨b, rfl⟩ := ha
    have hb : b <+: r := (List.prefix_append_right_inj p).1 har
    have h1 := hR.inside (p ++ b) ⟨b, dt.dirs_prefix hr hb, rfl⟩
    refine ⟨_, by unfold NonRec.watchOp; simpa using h1, ?_⟩
    unfold NonRec.rset
    clear h1 hR hres hno' hno
    generalize (NonRec.recAt _ _).getD 0 = x
    ebits
  · exact absurd hv (by simp only [hno']; simp)

/-- **C94.**  As C90, for events of the watched path itself, such as those of a watched file. -/
theorem C94_linux_itself {cfg : Sched.Cfg} {f : Path → Option Nat} (hf : Inotify.NoLinks f) {n₀ : Nat} {ops₀ : List Op} {raws₀ : List Raw}
    {sg₀ : List (Key × EventInfo)} {s : LSt} (h0 : LRun cfg true (fun _ => True) (LSt.init f n₀) ops₀ raws₀ sg₀ s) (hplan : s.plan = none)
    (hq : s.Quiet) {c : Nat} {p : Path} (hp : GoodPath p) (hlen : 2 ≤ p.length) {E : Event} (hE : ∃ b, (E, b) ∈ Spec.Inotify.means)
    (hreg : wants (regOf I ops₀) c E p = true) (hfail : ∀ op ∈ ops₀, NoFail c op) :
    ∃ wd, ∀ (ops : List Op) (raws : List Raw) (sg : List (Key × EventInfo)) (s' : LSt), (∀ op ∈ ops, Leaves c p op) →
      (LRun cfg true (fun _ => True) s ops raws sg s' →
        ∃ kw, s'.pipe.k.watches.get? wd = some kw ∧ s'.pipe.k.inode p = some kw.inode ∧ ∀ b, (E, b) ∈ Spec.Inotify.means → b ⊑ kw.mask) ∧
      (s'.Quiet →
        1 ≤ copies (regOf I ops₀) c E p ∧
        (LRun cfg true (fun _ => True) s ops raws sg s' →
          copies (regOf I ops₀) c E p * raws.countP (Inotify.«says» wd E []) ≤ sg.countP (Gets c E p)) ∧
        (LRun cfg true (fun s => ∀ wd w, s.pipe.k.m.get? wd = some w → w.path ≠ p.dropLast) s ops raws sg s' →
          sg.countP (Gets c E p) = copies (regOf I ops₀) c E p * raws.countP (Inotify.«says» wd E []))) := by
  have hU := means_user hE
  have hj : J ops₀ [] s := (h0.j (J.init hf n₀)).rebase hplan
  obtain ⟨wd, hd⟩ := deliver (cfg := cfg) hj (hj.idle hplan) hq hp hU hfail
    (fun _ _ _ _ h hl => (h.j hj).backed (fun op hop => by
      rcases List.mem_append.1 hop with h | h
      · exact hfail op h
      · exact (hl op h).noFail) List.prefix_rfl hl hU.2 hreg)
  refine ⟨wd, fun ops raws sg s' hl => ⟨fun h => (hd ops raws sg s').1 h hl, fun hq' => ?_⟩⟩
  have h1 := copies_pos (r := regOf I ops₀) (c := c) (E := E) [] hp hreg
  exact ⟨h1, (hd ops raws sg s').2 [] hlen hl hq'⟩

/-! ### The premises can be met -/

namespace Ex2
open Inotify (Raw inModify FromKernel)

def d : Path := [['d']]
def ds : Path := [['d'], ['s']]
def fs : Path → Option Nat := fun p => if p = d then some 1 else if p = ds then some 2 else none
def cfg : Sched.Cfg := ⟨2, 2, true, false⟩
/-- `/d/s/f` is written. -/
def r1 : Raw := { wd := 2, mask := inModify, name := ['f'] }
def W : Event := I.write
def R : Event := I.rename
/-- What the tree asks of the watcher. -/
def A : Event := W ||| I.create
def B : Event := A ||| R
def dt : DirTree := .dir (.cons ['s'] true (.dir .nil) .nil)
def t1 : St := (NonRec.watchOp I .ok dt NonRec.init d true 1 W).1
def t2 : St := (NonRec.watchOp I .ok (.dir .nil) t1 ds true 2 R).1
def ei : EventInfo := { event := W, path := ds ++ [['f']] }

theorem goodD : GoodPath d := by simp [d, GoodPath]
theorem goodS : GoodPath ds := by simp [ds, GoodPath]
theorem uW : UserEvents I W := by unfold UserEvents; decide
theorem uR : UserEvents I R := by unfold UserEvents; decide
theorem noLinks : Inotify.NoLinks fs := by
  intro p q n hp hq
  unfold fs at hp hq
  split at hp
  · next h =>
    split at hq
    · next h' => rw [h, h']
    · split at hq
      · rw [← hp] at hq; cases hq
      · cases hq
  · split at hp
    · next h =>
      split at hq
      · rw [← hp] at hq; cases hq
      · split at hq
        · next h' => rw [h, h']
        · cases hq
    · cases hp

def req1 : Sched.Req := .watch d true 1 W
def req2 : Sched.Req := .watch ds true 2 R
def op1 : Op := .watch d true 1 W true
def op2 : Op := .watch ds true 2 R true

theorem step1 : NonRec.Step I true NonRec.init op1 t1 :=
  NonRec.Step.watch (O := .ok) (dt := dt) goodD uW (by simp [dt, DirTree.Named, Entries.Named]) (fun _ _ => rfl)
theorem step2 : NonRec.Step I true t1 op2 t2 :=
  NonRec.Step.watch (O := .ok) (dt := .dir .nil) goodS uR (by simp [DirTree.Named, Entries.Named]) (fun _ _ => rfl)

/-- Channel 1 watches `/d/...` for Write; the call has returned. -/
def s1 : LSt :=
  { sys := { Sched.State.init Y with tree := t1, next := 1 },
    pipe := { Inotify.PSt.init fs 2 with k := (Inotify.watch false (Inotify.watch false { inode := fs } d A).1 ds A).1 },
    log := [(.watch ds A, true), (.watch d A, true)] }

theorem run1 : LRun cfg true (fun _ => True) (LSt.init fs 2) [op1] [] [] s1 := by
  have h := LRun.refl (cfg := cfg) (stable := true) (I := fun _ => True) (s := LSt.init fs 2) trivial
  have h := h.step (.go _ _ (.call (Y := Y) req1 (show GoodPath d ∧ UserEvents I W from ⟨goodD, uW⟩) trivial) trivial) trivial
  have h := h.step (.go _ _ (.lock 0 req1 [] [] rfl (by rintro ⟨_, _, _, _, h⟩; cases h)
    (by rintro ⟨_, _, h | h⟩ <;> cases h <;> contradiction) (by rintro ⟨_, h | h⟩ <;> cases h)) trivial) trivial
  have h := h.step (.plan req1 [op1] t1 [(.watch ds A, true), (.watch d A, true)] (.inl ⟨0, .head _⟩) rfl
    ⟨NonRec.Steps.nil.snoc step1, op1, ⟨_, rfl⟩, .inl rfl⟩ rfl) trivial
  have h := h.step (.add (.watch d A) d A _ 1 _ rfl (.inl rfl) rfl (by decide) rfl) trivial
  have h := h.step (.table 1 d A rfl) trivial
  have h := h.step (.add (.watch ds A) ds A [] 2 _ rfl (.inl rfl) rfl (by decide) rfl) trivial
  have h := h.step (.table 2 ds A rfl) trivial
  have h := h.step (.effect 0 req1 [] [] t1 rfl rfl rfl rfl) trivial
  have h := h.step (.go _ _ (.unlock 0 req1 [] [] rfl) trivial) trivial
  have h := h.step (.go _ _ (.ret 0 req1 [] [] rfl) trivial) trivial
  exact h

/-- Meanwhile channel 2 watches `/d/s/...` for Rename: the file is written, and the record read and looked up, while the call runs. -/
theorem run2 : ∃ s', LRun cfg true (Sole ds ['f']) s1 [op2] [r1] [(.user 1, ei)] s' ∧ s'.Quiet := by
  have f1 : FromKernel r1 := ⟨1, false, by decide, by decide⟩
  have m1 : ∀ {s : LSt}, s.pipe.k.m = s1.pipe.k.m → Sole ds ['f'] s := by
    intro s hs wd w h
    rw [hs] at h
    have hm := GoMap.mem_of_get? h
    have : ∀ x ∈ s1.pipe.k.m, x.2.path ≠ if ['f'] = [] then ds.dropLast else ds ++ [['f']] := by decide
    exact this _ hm
  have m2 : ∀ {s : LSt}, s.pipe.k.m = s1.pipe.k.m.set 2 ⟨ds, B⟩ → Sole ds ['f'] s := by
    intro s hs wd w h
    rw [hs] at h
    have hm := GoMap.mem_of_get? h
    have : ∀ x ∈ s1.pipe.k.m.set 2 ⟨ds, B⟩, x.2.path ≠ if ['f'] = [] then ds.dropLast else ds ++ [['f']] := by decide
    exact this _ hm
  have same : ∀ {a b : Inotify.PSt}, Inotify.NoLinks a.k.inode → b.k.inode = a.k.inode → Keeps a b := by
    intro a b h1 h2; exact ⟨by rw [h2]; exact h1, fun _ _ _ => by rw [h2]⟩
  have h := LRun.refl (cfg := cfg) (stable := true) (I := Sole ds ['f']) (s := s1) (m1 rfl)
  have h := h.step (.go _ _ (.call (Y := Y) req2 (show GoodPath ds ∧ UserEvents I R from ⟨goodS, uR⟩) trivial) trivial) (m1 rfl)
  have h := h.step (.go _ _ (.lock 1 req2 [] [] rfl (by rintro ⟨_, _, _, _, h⟩; cases h)
    (by rintro ⟨_, _, h | h⟩ <;> cases h <;> contradiction) (by rintro ⟨_, h | h⟩ <;> cases h)) trivial) (m1 rfl)
  have h := h.step (.plan req2 [op2] t2 [(.rewatch ds A B, true)] (.inl ⟨1, .head _⟩) rfl
    ⟨NonRec.Steps.nil.snoc step2, op2, ⟨_, rfl⟩, .inl rfl⟩ rfl) (m1 rfl)
  have h := h.step (.add (.rewatch ds A B) ds B [] 2 _ rfl (.inr ⟨_, rfl⟩) rfl (by decide) rfl) (m1 rfl)
  have h := h.step (.pipe _ _ (.change r1 f1) rfl rfl (fun _ => same noLinks rfl)) (m1 rfl)
  have h := h.step (.pipe _ _ (.read 1 rfl) rfl rfl (fun _ => same noLinks rfl)) (m1 rfl)
  have h := h.step (.pipe _ _ (.hand 0 [r1] rfl rfl) rfl rfl (fun _ => same noLinks rfl)) (m1 rfl)
  have h := h.step (.pipe _ _ (.transform 0 [r1] rfl) rfl rfl (fun _ => same noLinks rfl)) (m1 rfl)
  have h := h.step (.send 0 ⟨r1, ei⟩ [] (by decide) (by decide) (by simp [ei, ds, GoodPath])) (m1 rfl)
  have h := h.step (.pipe _ _ (.next 0 rfl) rfl rfl (fun _ => same noLinks rfl)) (m1 rfl)
  have h := h.step (.go _ _ (.spawn ei [] rfl) trivial) (m1 rfl)
  have h := h.step (.table 2 ds B rfl) (m2 rfl)
  have h := h.step (.effect 1 req2 [] [] t2 rfl rfl rfl rfl) (m2 rfl)
  have h := h.step (.go _ _ (.unlock 1 req2 [] [] rfl) trivial) (m2 rfl)
  have h := h.step (.go _ _ (.rlock 2 ei [] [] rfl (by rintro ⟨_, _, h | h⟩ <;> cases h <;> contradiction)
    (by rintro ⟨_, h | h⟩ <;> cases h)
    (by rintro _ (⟨_, _, h⟩ | ⟨_, h⟩) <;> cases h <;> contradiction)) trivial) (m2 rfl)
  have h := h.step (.go _ _ (.pick 2 ei [] (.user 1) [] [] rfl (by decide)) trivial) (m2 rfl)
  have h := h.step (.go _ _ (.send 2 ei [] (.user 1) [] [] rfl) trivial) (m2 rfl)
  have hs : NonRec.sends I t2.root ei = [.user 1] := by decide
  have h := h.step (.go _ _ (.fin 2 ei [.user 1] [] [] rfl (by intro k; exact Nat.le_of_eq (congrArg (List.count k) hs)) (by decide)) trivial) (m2 rfl)
  exact ⟨_, h, ⟨rfl, rfl, by decide⟩, rfl, rfl⟩

/-- The theorem gives the one signal. -/
example : ∃ s' wd, LRun cfg true (fun _ => True) s1 [op2] [r1] [(.user 1, ei)] s' ∧
    [(Key.user 1, ei)].countP (Gets 1 W (ds ++ [['f']])) =
      copies (regOf I [op1]) 1 W (ds ++ [['f']]) * [r1].countP (Inotify.«says» wd W ['f']) := by
  obtain ⟨s', h, hq⟩ := run2
  obtain ⟨wd, h1⟩ := C93_linux_recursive noLinks run1 rfl ⟨⟨rfl, rfl, by decide⟩, rfl, rfl⟩ (c := 1) (p := d) (q := ds) goodS ⟨[['s']], rfl⟩ (E := W)
    ⟨inModify, by decide⟩ (by decide) (by simp [op1, NoFail])
    (fun a ha h2 => C93_found (ops := []) .nil goodD uW (by simp [dt, DirTree.Named, Entries.Named]) rfl rfl (r := [['s']]) (by decide) ha h2)
  have h2 := (h1 [op2] [r1] [(.user 1, ei)] s').2 ['f'] (by decide) (by simp [op2, Leaves]) hq
  exact ⟨s', wd, h.mono fun _ _ => trivial, h2.2.2 h⟩

end Ex2

namespace Ex3
open Inotify (Raw inModify FromKernel)
open Ex2 (cfg W uW)

/-- A file. -/
def x : Path := [['d'], ['x']]
def fs : Path → Option Nat := fun p => if p = x then some 1 else none
/-- It is written. -/
def r1 : Raw := { wd := 1, mask := inModify }
def t1 : St := (NonRec.watchOp I .ok .err NonRec.init x false 1 W).1
def ei : EventInfo := { event := W, path := x }

theorem good : GoodPath x := by simp [x, GoodPath]
theorem noLinks : Inotify.NoLinks fs := by
  intro p q n hp hq
  unfold fs at hp hq
  split at hp
  · next h => split at hq; · next h' => rw [h, h']
              · cases hq
  · cases hp

def req1 : Sched.Req := .watch x false 1 W
def op1 : Op := .watch x false 1 W true

theorem step1 : NonRec.Step I true NonRec.init op1 t1 :=
  NonRec.Step.watch (O := .ok) (dt := .err) good uW (by simp [DirTree.Named]) (fun _ _ => rfl)

def s1 : LSt :=
  { sys := { Sched.State.init Y with tree := t1, next := 1 },
    pipe := { Inotify.PSt.init fs 2 with k := (Inotify.watch false { inode := fs } x W).1 },
    log := [(.watch x W, true)] }

theorem run1 : LRun cfg true (fun _ => True) (LSt.init fs 2) [op1] [] [] s1 := by
  have h := LRun.refl (cfg := cfg) (stable := true) (I := fun _ => True) (s := LSt.init fs 2) trivial
  have h := h.step (.go _ _ (.call (Y := Y) req1 (show GoodPath x ∧ UserEvents I W from ⟨good, uW⟩) trivial) trivial) trivial
  have h := h.step (.go _ _ (.lock 0 req1 [] [] rfl (by rintro ⟨_, _, _, _, h⟩; cases h)
    (by rintro ⟨_, _, h | h⟩ <;> cases h <;> contradiction) (by rintro ⟨_, h | h⟩ <;> cases h)) trivial) trivial
  have h := h.step (.plan req1 [op1] t1 [(.watch x W, true)] (.inl ⟨0, .head _⟩) rfl ⟨NonRec.Steps.nil.snoc step1, op1, ⟨_, rfl⟩, .inl rfl⟩ rfl) trivial
  have h := h.step (.add (.watch x W) x W [] 1 _ rfl (.inl rfl) rfl (by decide) rfl) trivial
  have h := h.step (.table 1 x W rfl) trivial
  have h := h.step (.effect 0 req1 [] [] t1 rfl rfl rfl rfl) trivial
  have h := h.step (.go _ _ (.unlock 0 req1 [] [] rfl) trivial) trivial
  have h := h.step (.go _ _ (.ret 0 req1 [] [] rfl) trivial) trivial
  exact h

theorem run2 : ∃ s', LRun cfg true (fun s => ∀ wd w, s.pipe.k.m.get? wd = some w → w.path ≠ x.dropLast) s1 [] [r1] [(.user 1, ei)] s' ∧ s'.Quiet := by
  have f1 : FromKernel r1 := ⟨1, false, by decide, by decide⟩
  have m1 : ∀ {s : LSt}, s.pipe.k.m = s1.pipe.k.m → ∀ wd w, s.pipe.k.m.get? wd = some w → w.path ≠ x.dropLast := by
    intro s hs wd w h
    rw [hs] at h
    have hm := GoMap.mem_of_get? h
    have : ∀ y ∈ s1.pipe.k.m, y.2.path ≠ x.dropLast := by decide
    exact this _ hm
  have same : ∀ {a b : Inotify.PSt}, Inotify.NoLinks a.k.inode → b.k.inode = a.k.inode → Keeps a b := by
    intro a b h1 h2; exact ⟨by rw [h2]; exact h1, fun _ _ _ => by rw [h2]⟩
  have h := LRun.refl (cfg := cfg) (stable := true) (I := fun s => ∀ wd w, s.pipe.k.m.get? wd = some w → w.path ≠ x.dropLast) (s := s1) (m1 rfl)
  have h := h.step (.pipe _ _ (.change r1 f1) rfl rfl (fun _ => same noLinks rfl)) (m1 rfl)
  have h := h.step (.pipe _ _ (.read 1 rfl) rfl rfl (fun _ => same noLinks rfl)) (m1 rfl)
  have h := h.step (.pipe _ _ (.hand 0 [r1] rfl rfl) rfl rfl (fun _ => same noLinks rfl)) (m1 rfl)
  have h := h.step (.pipe _ _ (.transform 0 [r1] rfl) rfl rfl (fun _ => same noLinks rfl)) (m1 rfl)
  have h := h.step (.send 0 ⟨r1, ei⟩ [] (by decide) (by decide) (by simp [ei, x, GoodPath])) (m1 rfl)
  have h := h.step (.pipe _ _ (.next 0 rfl) rfl rfl (fun _ => same noLinks rfl)) (m1 rfl)
  have h := h.step (.go _ _ (.spawn ei [] rfl) trivial) (m1 rfl)
  have h := h.step (.go _ _ (.rlock 1 ei [] [] rfl (by rintro ⟨_, _, h | h⟩ <;> cases h)
    (by rintro ⟨_, h | h⟩ <;> cases h)
    (by rintro _ (⟨_, _, h⟩ | ⟨_, h⟩) <;> cases h)) trivial) (m1 rfl)
  have h := h.step (.go _ _ (.pick 1 ei [] (.user 1) [] [] rfl (by decide)) trivial) (m1 rfl)
  have h := h.step (.go _ _ (.send 1 ei [] (.user 1) [] [] rfl) trivial) (m1 rfl)
  have hs : NonRec.sends I t1.root ei = [.user 1] := by decide
  have h := h.step (.go _ _ (.fin 1 ei [.user 1] [] [] rfl (by intro k; exact Nat.le_of_eq (congrArg (List.count k) hs)) (by decide)) trivial) (m1 rfl)
  exact ⟨_, h, ⟨rfl, rfl, by decide⟩, rfl, rfl⟩

example : ∃ s' wd, LRun cfg true (fun _ => True) s1 [] [r1] [(.user 1, ei)] s' ∧
    [(Key.user 1, ei)].countP (Gets 1 W x) = copies (regOf I [op1]) 1 W x * [r1].countP (Inotify.«says» wd W []) := by
  obtain ⟨s', h, hq⟩ := run2
  obtain ⟨wd, h1⟩ := C94_linux_itself noLinks run1 rfl ⟨⟨rfl, rfl, by decide⟩, rfl, rfl⟩ (c := 1) (p := x) good (by decide) (E := W)
    ⟨inModify, by decide⟩ (by decide) (by simp [op1, NoFail])
  have h2 := (h1 [] [r1] [(.user 1, ei)] s' (by simp)).2 hq
  exact ⟨s', wd, h.mono fun _ _ => trivial, h2.2.2 h⟩

end Ex3

end Linux
end Verif
