/-
Linux: directories that come and go below a recursive Watch (C73).
-/
import Verif.PropsInotify4
import Verif.PropsNonRec3

namespace Verif
namespace Inotify
open Spec.Inotify

theorem Answered.inode {k k' : St} {l : Log} (hb : Reach false k) (h : Answered k l k') : Reach false k' ∧ k'.inode = k.inode := by
  induction h with
  | nil => exact ⟨hb, rfl⟩
  | @cons l k' c ok k'' _ hs ih =>
    obtain ⟨hr, hi⟩ := ih
    cases hs with
    | watch fail h =>
      refine ⟨(fst_eq h) ▸ .step hr (.watch fail _ _), ?_⟩
      rw [← hi]
      cases ok with
      | false => rw [watch_err h]
      | true =>
        obtain ⟨ino, wd, n, _, _, _, _, _, rfl, _⟩ := watch_ok hr.base h
        rfl
    | rewatch fail h =>
      refine ⟨(fst_eq h) ▸ .step hr (.watch fail _ _), ?_⟩
      rw [← hi]
      cases ok with
      | false => rw [watch_err h]
      | true =>
        obtain ⟨ino, wd, n, _, _, _, _, _, rfl, _⟩ := watch_ok hr.base h
        rfl
    | unwatch h =>
      refine ⟨(fst_eq h) ▸ .step hr (.unwatch _), ?_⟩
      rw [← hi]
      cases ok with
      | false => rw [(unwatch_err hr.base h).1]
      | true =>
        obtain ⟨wd, w, _, _, rfl⟩ := unwatch_ok hr.base h
        rfl

/-- The paths handed to the kernel by successful calls. -/
def made : Log → List Path
  | [] => []
  | (.watch q _, true) :: l => q :: made l
  | (.rewatch q _ _, true) :: l => q :: made l
  | _ :: l => made l

/-- A change of what the calls asked for a path, other than to nothing, is due to a call for it. -/
theorem made_of_os {l l₀ : Log} {p : Path} (h0 : osOf (l ++ l₀) p ≠ 0) (h : osOf (l ++ l₀) p ≠ osOf l₀ p) : p ∈ made l := by
  induction l with
  | nil => exact absurd rfl h
  | cons x l ih =>
    obtain ⟨c, ok⟩ := x
    cases c with
    | watch q e =>
      cases ok with
      | false => exact ih h0 h
      | true =>
        by_cases hq : q = p
        · subst hq; exact List.mem_cons_self
        · simp only [List.cons_append, osOf, if_neg hq] at h0 h
          exact List.mem_cons_of_mem _ (ih h0 h)
    | rewatch q old e =>
      cases ok with
      | false => exact ih h0 h
      | true =>
        by_cases hq : q = p
        · subst hq; exact List.mem_cons_self
        · simp only [List.cons_append, osOf, if_neg hq] at h0 h
          exact List.mem_cons_of_mem _ (ih h0 h)
    | unwatch q =>
      cases ok with
      | false => exact ih h0 h
      | true =>
        by_cases hq : q = p
        · subst hq; simp [osOf] at h0
        · simp only [List.cons_append, osOf, if_neg hq] at h0 h
          exact ih h0 h
    | _ => exact ih h0 h

/-- When the calls `l` are answered with nothing else happening, and none of them is for another name of the inode of `p`. -/
theorem Feeds.answered {p : Path} {l₀ : Log} {k k' : St} {g : Bool} (hF : Feeds p l₀ k g) {l : Log} (ha : Answered k l k')
    (hd : ∀ q ∈ made l, q ≠ p → k.inode q ≠ k.inode p) : Feeds p (l ++ l₀) k' (g || decide (p ∈ made l)) := by
  induction ha with
  | nil => simpa [made] using hF
  | @cons l k' c ok k'' ha hs ih =>
    have hi := (ha.inode hF.reach).2
    cases hs with
    | @watch _ q e _ fail h =>
      cases ok with
      | false =>
        have := Feeds.watch fail (ih hd) h
        exact this
      | true =>
        have hF' := Feeds.watch fail (ih (fun q' hq' => hd q' (List.mem_cons_of_mem _ hq'))) h
        have hq := hd q List.mem_cons_self
        rw [hi] at hF'
        by_cases hqp : q = p
        · subst hqp; simpa [made] using hF'
        · simpa [made, hqp, hq hqp, Ne.symm hqp] using hF'
    | @rewatch _ q old e _ fail h =>
      cases ok with
      | false =>
        have := Feeds.rewatch (old := old) fail (ih hd) h
        exact this
      | true =>
        have hF' := Feeds.rewatch (old := old) fail (ih (fun q' hq' => hd q' (List.mem_cons_of_mem _ hq'))) h
        have hq := hd q List.mem_cons_self
        rw [hi] at hF'
        by_cases hqp : q = p
        · subst hqp; simpa [made] using hF'
        · simpa [made, hqp, hq hqp, Ne.symm hqp] using hF'
    | @unwatch _ q _ h =>
      have := Feeds.unwatch (ih (by cases ok <;> exact hd)) h
      cases ok <;> exact this

open NonRec Verif.Spec in
/-- What a channel asked for recursively is part of a recursive registration. -/
theorem reg_of_asked (P : Platform) (ops : List Op) (c : Nat) (q : Path) (h : asked P ops c q ≠ 0) :
    ∃ ev, regOf P ops c q = some (ev, true) ∧ asked P ops c q ⊑ ev := by
  have key : ∀ (ops : List Op) (G : Nat → Path → Event) (r : Reg),
      (∀ c q, G c q ≠ 0 → ∃ ev, r c q = some (ev, true) ∧ G c q ⊑ ev) →
      ∀ c q, ops.foldl (askedStep P) G c q ≠ 0 → ∃ ev, ops.foldl (regStep P) r c q = some (ev, true) ∧ ops.foldl (askedStep P) G c q ⊑ ev := by
    intro ops
    induction ops with
    | nil => intro G r h; exact h
    | cons op ops ih =>
      intro G r h
      refine ih _ _ ?_
      intro c q
      cases op with
      | watch p isrec d e res =>
        cases res with
        | false => cases isrec <;> exact h c q
        | true =>
          simp only [regStep, if_true, Reg.watch]
          cases isrec with
          | true =>
            simp only [askedStep]
            by_cases hcq : c = d ∧ q = p
            · obtain ⟨rfl, rfl⟩ := hcq
              simp only [and_self, if_true]
              intro _
              by_cases h0 : G c q = 0
              · rw [h0]
                cases r c q with
                | none => exact ⟨e, rfl, by simp [Event.Sub.refl]⟩
                | some x => exact ⟨_, by simp; rfl, by simp [Event.sub_or_right]⟩
              · obtain ⟨ev, h1, h2⟩ := h c q h0
                rw [h1]
                refine ⟨ev ||| e, by simp, ?_⟩
                intro i hi
                have h3 := h2 i
                simp only [BitVec.getLsbD_or, Bool.or_eq_true] at hi ⊢
                rcases hi with hi | hi
                · exact Or.inl (h3 hi)
                · exact Or.inr hi
            · simp only [if_neg hcq]; exact h c q
          | false =>
            simp only [askedStep]
            by_cases hcq : c = d ∧ q = p
            · obtain ⟨rfl, rfl⟩ := hcq
              simp only [and_self, if_true]
              intro h0
              obtain ⟨ev, h1, h2⟩ := h c q h0
              rw [h1]
              exact ⟨ev ||| e, by simp, h2.trans (Event.sub_or_left _ _)⟩
            · simp only [if_neg hcq]; exact h c q
      | stop d =>
        simp only [askedStep, regStep, Reg.stop]
        split
        · intro h0; exact absurd rfl h0
        · exact h c q
      | internal ei =>
        simp only [askedStep, regStep]
        by_cases hr : ei.event = P.remove
        · simp only [hr, true_and, if_true, Reg.remove]
          split
          · intro h0; exact absurd rfl h0
          · exact h c q
        · simp only [hr, false_and, if_false]; exact h c q
      | shuffle => exact h c q
  exact key ops _ _ (fun c q h => absurd rfl h) c q h

open NonRec Verif.Spec in
theorem copies_of_asked {ops : List Op} {c : Nat} {q r : Path} {E : Event} (h : E ⊑ asked Platform.inotify ops c q) (h0 : E ≠ 0)
    (n : Comp) : 1 ≤ copies (regOf Platform.inotify ops) c E (q ++ r ++ [n]) := by
  have hne : asked Platform.inotify ops c q ≠ 0 := by
    intro hz; rw [hz] at h; exact h0 (Event.sub_zero h)
  obtain ⟨ev, h1, h2⟩ := reg_of_asked _ _ _ _ hne
  have h3 := h.trans h2
  unfold copies
  rw [List.dropLast_concat]
  cases r with
  | nil =>
    have : wants (regOf Platform.inotify ops) c E (q ++ []) = true := by
      rw [List.append_nil]; unfold wants; rw [h1]; simpa using h3
    rw [this]; simp only [if_true]; omega
  | cons x r =>
    have : 0 < (List.range (q ++ x :: r).length).countP (fun i => wantsBelow (regOf Platform.inotify ops) c E ((q ++ x :: r).take i)) := by
      rw [List.countP_pos_iff]
      refine ⟨q.length, by simp, ?_⟩
      rw [List.take_left' rfl]
      unfold wantsBelow; rw [h1]; simpa using h3
    omega

open NonRec Verif.Spec in
/-- **C73, Linux: directories below a recursive Watch are heard.**  Any history of calls, and of directories that come and go, every creation and removal of
which is reported and handled; any changes of the file system otherwise.  If the existing directory `q/r` still leads to the inode it led to when its set was last handed to the
kernel, what the channel asked for with recursive Watches on `q` is reported for the entries of `q/r` and sent to the channel.
Missing for the full claim: removals that are not reported, and renamed directories (C73_silent_refuted, C73_rename_refuted). -/
theorem C73_covered_partial {ops : List Op} {t : Verif.St} {D : Path → Prop} (h : DHist Platform.inotify ops t D)
    {c : Nat} (hops : ∀ op ∈ ops, NoFail c op) {k : St} {q r : Path} (hD : D (q ++ r)) (hp : GoodPath (q ++ r))
    (hk : Feeds (q ++ r) t.world.log k true) {E b : Event} (hEb : (E, b) ∈ means) (hE : E ⊑ asked Platform.inotify ops c q) :
    Heard ops t k c (q ++ r) E b := by
  have hE0 : E ≠ 0 := by
    have : ∀ x ∈ means, x.1 ≠ 0 := by decide
    exact this _ hEb
  have hne : asked Platform.inotify ops c q ≠ 0 := by
    intro hz; rw [hz] at hE; exact hE0 (Event.sub_zero hE)
  have hcov := C44_coverage Platform.inotify_wf.facts h hne hD
  exact heard_of_os h.hist hops hp hk hEb ((hE.trans (Event.sub_or_left _ _)).trans hcov) (copies_of_asked hE hE0)

open NonRec Verif.Spec in
/-- **C73, Linux: a new directory below a recursive Watch is heard.**  Any history as above.  A directory appears, with everything the listing shows below it, and its
creation is handled; the watcher answers the calls.  Then every directory of the listing is heard: what the channel asked for with recursive Watches on a directory above is
reported for its entries and sent to the channel.  The directory has no second name. -/
theorem C73_new_partial {ops : List Op} {t : Verif.St} {D : Path → Prop} (h : DHist Platform.inotify ops t D)
    {c : Nat} (hops : ∀ op ∈ ops, NoFail c op) {ei : EventInfo} {dt : DirTree} (hev : ei.event ≠ Platform.inotify.remove) (hp : GoodPath ei.path)
    (hnew : ¬ D ei.path) (hpar : D ei.path.dropLast) (hdt : dt.Named) (hne : dt.NoErr)
    {k k' : St} {l : Log} (hl : (internal Platform.inotify .ok dt t ei).world.log = l ++ t.world.log) (ha : Answered k l k')
    {q r : Path} (hr : ∃ r' ∈ dt.dirs, q ++ r = ei.path ++ r') (hgood : GoodPath (q ++ r)) {g : Bool} (hk : Feeds (q ++ r) t.world.log k g)
    (hone : ∀ x, k.inode x = k.inode (q ++ r) → x = q ++ r)
    {E b : Event} (hEb : (E, b) ∈ means) (hE : E ⊑ asked Platform.inotify ops c q) :
    Heard (ops ++ [.internal ei]) (internal Platform.inotify .ok dt t ei) k' c (q ++ r) E b := by
  have hP := Platform.inotify_wf.facts
  have hstep : DStep Platform.inotify t D (.internal ei) (internal Platform.inotify .ok dt t ei) (fun q => D q ∨ ∃ r ∈ dt.dirs, q = ei.path ++ r) :=
    DStep.mkdir hev hp hnew hpar hdt hne
  have h' := h.snoc hstep
  have hops' : ∀ op ∈ ops ++ [.internal ei], NoFail c op := by
    intro op hop
    rcases List.mem_append.1 hop with h1 | h1
    · exact hops op h1
    · rw [List.mem_singleton.1 h1]; trivial
  obtain ⟨r', hr', hqr⟩ := hr
  have hD' : (fun q => D q ∨ ∃ r ∈ dt.dirs, q = ei.path ++ r) (q ++ r) := Or.inr ⟨r', hr', hqr⟩
  have hask : asked Platform.inotify (ops ++ [.internal ei]) c q = asked Platform.inotify ops c q := by
    unfold asked
    rw [List.foldl_append]
    simp [askedStep, hev]
  have hE0 : E ≠ 0 := by
    have : ∀ x ∈ means, x.1 ≠ 0 := by decide
    exact this _ hEb
  have hcov : E ⊑ osOf (internal Platform.inotify .ok dt t ei).world.log (q ++ r) := by
    have hne' : asked Platform.inotify (ops ++ [.internal ei]) c q ≠ 0 := by
      intro hz; rw [← hask, hz] at hE; exact hE0 (Event.sub_zero hE)
    have := C44_coverage hP h' hne' hD'
    rw [hask] at this
    exact (hE.trans (Event.sub_or_left _ _)).trans this
  have hold : osOf t.world.log (q ++ r) = 0 := by
    refine (C11_os_mirror hP h.hist (q ++ r)).2.2 ?_
    have : t.root.find (q ++ r) = none := by
      cases hf : t.root.find (q ++ r) with
      | none => rfl
      | some x =>
        exfalso
        have := (h.cov hP).own (q ++ r) (by rw [hf]; simp)
        rw [hqr] at this
        exact hnew ((h.cov hP).pre _ _ this)
    simp [watchAt, this]
  have hnz : osOf (internal Platform.inotify .ok dt t ei).world.log (q ++ r) ≠ 0 := by
    intro hz; rw [hz] at hcov; exact hE0 (Event.sub_zero hcov)
  have hmade : q ++ r ∈ made l := by
    rw [hl] at hnz
    exact made_of_os hnz (by rw [hold]; exact hnz)
  have hF := hk.answered ha (fun x _ hx he => hx (hone x he))
  rw [← hl] at hF
  simp only [hmade, decide_true, Bool.or_true] at hF
  exact C73_covered_partial h' hops' hD' hgood hF hEb (by rw [hask]; exact hE)

namespace GoneEx
open NonRec

abbrev A : Path := [['a']]
abbrev B : Path := [['a'], ['b']]
abbrev C : Path := [['a'], ['c']]
abbrev list : DirTree := .dir (.cons ['b'] true (.dir .nil) .nil)

/-- `/a` with inode 1 and `/a/b` with inode 2; without `/a/b`; with a new `/a/b`; with `/a/b` renamed to `/a/c`; with a new `/a/b` beside it. -/
def f0 : Path → Option Nat := fun p => if p = A then some 1 else if p = B then some 2 else none
def f1 : Path → Option Nat := fun p => if p = A then some 1 else none
def f2 : Path → Option Nat := fun p => if p = A then some 1 else if p = B then some 3 else none
def f3 : Path → Option Nat := fun p => if p = A then some 1 else if p = C then some 2 else none
def f4 : Path → Option Nat := fun p => if p = A then some 1 else if p = C then some 2 else if p = B then some 3 else none

/-- The creation of a directory `n` in `/a`, as the kernel reports it through descriptor `wd`. -/
def mk (wd : Nat) (bit : Event) (n : Comp) : Raw := { wd := wd, mask := bit ||| 0x40000000, name := n }

theorem fs (k : St) (f : Path → Option Nat) (keep : List Nat) (h1 : ∀ n ∈ keep, ∃ p, f p = some n) (h2 : ∀ p n, f p = some n → n ∈ keep) :
    FsStep k { k with inode := f, watches := k.watches.filter (fun p => decide (p.2.inode ∈ keep)) } :=
  FsStep.mk k f (fun n => decide (n ∈ keep)) (fun n => by simp only [decide_eq_true_eq]; exact ⟨h1 n, fun ⟨p, hp⟩ => h2 p n hp⟩)

abbrev I : Platform := Platform.inotify
abbrev empty : DirTree := .dir .nil

/-- `/a` is watched recursively for Write. -/
def t1 : Verif.St := (watchOp I .ok list NonRec.init A true 1 write).1
def ops1 : List Op := [.watch A true 1 write true]
def k0 : St := (Inotify.watch false (Inotify.watch false { inode := f0 } A (create ||| write)).1 B (create ||| write)).1
/-- `/a/b` is removed, and created again. -/
def k1 : St := { k0 with inode := f1, watches := k0.watches.filter (fun p => decide (p.2.inode ∈ [1])) }
def k2 : St := { k1 with inode := f2, watches := k1.watches.filter (fun p => decide (p.2.inode ∈ [1, 3])) }
def made2 : EventInfo := { event := create, path := B, isDir := some true }

theorem hist1 : Hist I true ops1 t1 :=
  .snoc .nil (.watch (O := .ok) (dt := list) (isrec := true) (c := 1) (by simp [GoodPath]) (by unfold UserEvents; decide)
    (by simp [list, DirTree.Named, Entries.Named]) (fun _ _ => rfl))

theorem log1 : t1.world.log = [(.watch B (create ||| write), true), (.watch A (create ||| write), true)] := by decide

theorem ans0 : Answered { inode := f0 } t1.world.log k0 := by
  rw [log1]
  refine .cons (.cons .nil (.watch (s' := (Inotify.watch false { inode := f0 } A (create ||| write)).1) false (Prod.ext rfl ?_))) (.watch false (Prod.ext rfl ?_))
  · decide
  · decide

end GoneEx

open GoneEx in
/-- **C73 is false of a removal that the channel did not ask to be told about.**  `/a` is watched recursively for Write; `/a` and `/a/b` are watched by the kernel, for nothing
that tells of the removal of `/a/b`.  `/a/b` is removed, and created again.  The kernel reports the creation and it is handled, but no call is made: the tree
takes the new directory for the old one, and the kernel does not watch it. -/
theorem C73_silent_refuted :
    NonRec.Hist I true ops1 t1 ∧ Answered { inode := f0 } t1.world.log k0 ∧ NonRec.asked I ops1 1 A = write ∧ InForce A (create ||| write) k0 ∧ InForce B (create ||| write) k0 ∧
    (∀ x ∈ k0.watches, x.2.mask &&& (inDelete ||| inDeleteSelf) = 0) ∧ FsStep k0 k1 ∧ k1.inode B = none ∧ FsStep k1 k2 ∧ k2.inode B = some 3 ∧
    k2.watches = [(1, ⟨1, encode (create ||| write), A⟩)] ∧ inCreate ⊑ encode (create ||| write) ∧ sent k2.m [mk 1 inCreate ['b']] = [made2] ∧
    NonRec.toInternal I t1.root made2 = true ∧ (NonRec.internal I .ok empty t1 made2).world.log = t1.world.log := by
  refine ⟨hist1, ans0, by decide, ⟨1, ⟨1, encode (create ||| write), A⟩, by decide, by decide, by decide⟩, ⟨2, ⟨2, encode (create ||| write), B⟩, by decide, by decide, by decide⟩,
    by decide, fs k0 f1 [1] ?_ ?_, by decide, fs k1 f2 [1, 3] ?_ ?_, by decide, by decide, by decide, by decide, by decide, by decide⟩
  · simp only [List.mem_singleton, forall_eq]; exact ⟨A, by decide⟩
  · intro p n h
    unfold f1 at h
    split at h
    · simp_all
    · cases h
  · simp only [List.mem_cons, List.not_mem_nil, or_false, forall_eq_or_imp, forall_eq]; exact ⟨⟨A, by decide⟩, ⟨B, by decide⟩⟩
  · intro p n h
    unfold f2 at h
    split at h
    · simp_all
    · split at h
      · simp_all
      · cases h

namespace GoneEx
open NonRec

abbrev all : Event := create ||| remove ||| write ||| rename

/-- `/a` is watched recursively for all events. -/
def u1 : Verif.St := (watchOp I .ok list NonRec.init A true 1 all).1
def opsR : List Op := [.watch A true 1 all true]
def j0 : St := (Inotify.watch false (Inotify.watch false { inode := f0 } A all).1 B all).1
/-- `/a/b` is renamed to `/a/c`. -/
def j1 : St := { j0 with inode := f3, watches := j0.watches.filter (fun p => decide (p.2.inode ∈ [1, 2])) }
def left : EventInfo := { event := rename, path := B, isDir := some true }
def came : EventInfo := { event := create, path := C, isDir := some true }
/-- The creation of `/a/c` is handled. -/
def u2 : Verif.St := internal I .ok empty u1 came
def j2 : St := (Inotify.watch false j1 C all).1
/-- A new `/a/b` is made. -/
def j3 : St := { j2 with inode := f4, watches := j2.watches.filter (fun p => decide (p.2.inode ∈ [1, 2, 3])) }

theorem histR : Hist I true opsR u1 :=
  .snoc .nil (.watch (O := .ok) (dt := list) (isrec := true) (c := 1) (by simp [GoodPath]) (by unfold UserEvents; decide)
    (by simp [list, DirTree.Named, Entries.Named]) (fun _ _ => rfl))

theorem logR : u1.world.log = [(.watch B all, true), (.watch A all, true)] := by decide

theorem ansR : Answered { inode := f0 } u1.world.log j0 := by
  rw [logR]
  refine .cons (.cons .nil (.watch (s' := (Inotify.watch false { inode := f0 } A all).1) false (Prod.ext rfl ?_))) (.watch false (Prod.ext rfl ?_))
  · decide
  · decide

end GoneEx

open GoneEx in
/-- **C73 is false of a directory whose name was used before by a directory that was renamed**, whatever was asked for.  `/a` is watched recursively for all events.  `/a/b` is renamed to `/a/c`;
the kernel reports both names and both events are dispatched; the first is not followed up, the second makes the watcher watch `/a/c`.  A new directory `/a/b` is made, which is
reported and handled, but no call is made, and the kernel does not watch it. -/
theorem C73_rename_refuted :
    NonRec.Hist I true opsR u1 ∧ Answered { inode := f0 } u1.world.log j0 ∧ NonRec.asked I opsR 1 A = all ∧ InForce A all j0 ∧ InForce B all j0 ∧
    FsStep j0 j1 ∧ j1.inode B = none ∧ j1.inode C = some 2 ∧
    sent j1.m [mk 1 inMovedFrom ['b']] = [left] ∧ NonRec.toInternal I u1.root left = false ∧
    sent j1.m [mk 1 inMovedTo ['c']] = [came] ∧ NonRec.toInternal I u1.root came = true ∧
    u2.world.log = [(.watch C all, true)] ++ u1.world.log ∧ Answered j1 [(.watch C all, true)] j2 ∧
    FsStep j2 j3 ∧ j3.inode B = some 3 ∧ sent j3.m [mk 1 inCreate ['b']] = [made2] ∧ NonRec.toInternal I u2.root made2 = true ∧
    (NonRec.internal I .ok empty u2 made2).world.log = u2.world.log ∧ ∀ x ∈ j3.watches, x.2.inode ≠ 3 := by
  refine ⟨histR, ansR, by decide, ⟨1, ⟨1, encode all, A⟩, by decide, by decide, by decide⟩, ⟨2, ⟨2, encode all, B⟩, by decide, by decide, by decide⟩,
    fs j0 f3 [1, 2] ?_ ?_, by decide, by decide, by decide, by decide, by decide, by decide, by decide, .cons .nil (.watch false (Prod.ext rfl (by decide))),
    fs j2 f4 [1, 2, 3] ?_ ?_, by decide, by decide, by decide, by decide, by decide⟩
  · simp only [List.mem_cons, List.not_mem_nil, or_false, forall_eq_or_imp, forall_eq]; exact ⟨⟨A, by decide⟩, ⟨C, by decide⟩⟩
  · intro p n h
    unfold f3 at h
    split at h
    · simp_all
    · split at h
      · simp_all
      · cases h
  · simp only [List.mem_cons, List.not_mem_nil, or_false, forall_eq_or_imp, forall_eq]; exact ⟨⟨A, by decide⟩, ⟨C, by decide⟩, ⟨B, by decide⟩⟩
  · intro p n h
    unfold f4 at h
    split at h
    · simp_all
    · split at h
      · simp_all
      · split at h
        · simp_all
        · cases h

namespace GoneEx
open NonRec

/-- The directories that exist before `/a/c` is made. -/
def D1 : Path → Prop := fun q => q <+: B

theorem dhist1 : DHist I ops1 t1 D1 := by
  refine DHist.snoc (s := NonRec.init) (D := D1) (ops := []) (DHist.nil (by simp [D1]) ?_) ?_
  · rintro x y ⟨z, h⟩; exact ⟨y ++ z, by rw [← h, List.append_assoc]⟩
  · refine DStep.watchRec (P := I) (s := NonRec.init) (D := D1) (p := A) (c := 1) (e := write) (dt := list) (by simp [GoodPath]) (by unfold UserEvents; decide) (by simp [list, DirTree.Named, Entries.Named]) (by simp [list, DirTree.NoErr, Entries.NoErr])
      (by simp [D1]) ?_
    intro r
    simp only [list, DirTree.dirs, Entries.dirs, D1]
    rcases r with _ | ⟨x, _ | ⟨y, r⟩⟩ <;> simp

/-- The file system with `/a/c` beside `/a/b`. -/
def f5 : Path → Option Nat := fun p => if p = A then some 1 else if p = B then some 2 else if p = C then some 3 else none
def k5 : St := { k0 with inode := f5, watches := k0.watches.filter (fun p => decide (p.2.inode ∈ [1, 2, 3])) }

theorem feeds0 : Feeds C t1.world.log k0 true := by
  have := (Feeds.init (p := C) f0 true).answered ans0 (by rw [log1]; decide)
  rw [List.append_nil] at this
  simpa using this

theorem feeds5 : Feeds C t1.world.log k5 false := by
  refine Feeds.fs feeds0 (fs k0 f5 [1, 2, 3] ?_ ?_)
  · simp only [List.mem_cons, List.not_mem_nil, or_false, forall_eq_or_imp, forall_eq]; exact ⟨⟨A, by decide⟩, ⟨B, by decide⟩, ⟨C, by decide⟩⟩
  · intro p n h
    unfold f5 at h
    split at h
    · simp_all
    · split at h
      · simp_all
      · split at h
        · simp_all
        · cases h

end GoneEx

open GoneEx NonRec in
/-- The hypotheses of C73_new_partial (and so those of C73_covered_partial) are met: `/a/c` is made below the recursive Watch of `/a`. -/
example : Heard (ops1 ++ [.internal came]) (internal I .ok empty t1 came) (Inotify.watch false k5 C (create ||| write)).1 1 (A ++ [['c']]) write inModify := by
  refine C73_new_partial (l := [(.watch C (create ||| write), true)]) dhist1 (by simp [ops1, NoFail]) (by decide) (by simp [GoodPath, came]) (by simp [D1, came]) (by simp [D1, came])
    (by simp [empty, DirTree.Named, Entries.Named]) (by simp [empty, DirTree.NoErr, Entries.NoErr]) (by decide) (.cons .nil (.watch false (Prod.ext rfl (by decide))))
    ⟨[], by decide, by decide⟩ (by simp [GoodPath]) feeds5 ?_ (by decide) (by decide)
  intro x hx
  have h1 : k5.inode (A ++ [['c']]) = some 3 := by decide
  rw [h1] at hx
  change f5 x = some 3 at hx
  unfold f5 at hx
  split at hx
  · simp at hx
  · split at hx
    · simp at hx
    · split at hx
      · assumption
      · cases hx

end Inotify
end Verif
