/-
Linux: one file or directory under several names, by hard links or bind mounts (C103).
-/
import Verif.PropsInotify2
import Verif.PropsNonRec

namespace Verif
namespace Inotify

/-! ### The specification -/

/-- Under which name and for which events the inode `ino` is watched, if the last successful call decides (log: newest first).  `f` tells where paths lead. -/
def holder (f : Path → Option Nat) : Log → Nat → Option (Path × Event)
  | [], _ => none
  | (.watch p e, true) :: l, ino => if f p = some ino then some (p, e) else holder f l ino
  | (.rewatch p _ e, true) :: l, ino => if f p = some ino then some (p, e) else holder f l ino
  | (.unwatch p, true) :: l, ino => if (holder f l ino).map Prod.fst = some p then none else holder f l ino
  | _ :: l, ino => holder f l ino

/-- The calls of the log with the recorded outcomes lead to the state `s`, in a file system that stays as it is, where any number of paths may lead to
one inode. -/
inductive LinkRuns (f : Path → Option Nat) : Log → St → Prop
  | init : LinkRuns f [] { inode := f }
  | call {l s c ok s'} : LinkRuns f l s → Serves s c ok s' → LinkRuns f ((c, ok) :: l) s'
  | reorder {l s s'} : LinkRuns f l s → Reorder s s' → LinkRuns f l s'

/-! ### Proof -/

variable {f : Path → Option Nat} {l : Log} {s s' : St}

theorem LinkRuns.reach (h : LinkRuns f l s) : Reach true s := by
  induction h with
  | init => exact .init f
  | call _ hs ih =>
    cases hs with
    | watch fail h => exact (fst_eq h) ▸ .step ih (.watch fail _ _)
    | rewatch fail h => exact (fst_eq h) ▸ .step ih (.watch fail _ _)
    | unwatch h => exact (fst_eq h) ▸ .step ih (.unwatch _)
  | reorder _ hr ih => exact .step ih (.reorder hr)

theorem LinkRuns.inode (h : LinkRuns f l s) : s.inode = f := by
  induction h with
  | init => rfl
  | call _ hs ih =>
    cases hs with
    | watch fail h => rw [← fst_eq h, watch_inode, ih]
    | rewatch fail h => rw [← fst_eq h, watch_inode, ih]
    | unwatch h => rw [← fst_eq h, unwatch_inode, ih]
  | reorder _ hr ih => obtain ⟨m', hp⟩ := hr; exact ih

/-- The tables agree with the specification. -/
def LinkHeld (h : Nat → Option (Path × Event)) (s : St) : Prop :=
  ∀ ino p e, h ino = some (p, e) ↔ ∃ wd k, s.watches.get? wd = some k ∧ k.inode = ino ∧ s.m.get? wd = some ⟨p, e⟩

theorem held_watch {fail : Bool} {p : Path} {e : Event} {h : Nat → Option (Path × Event)} (hb : Base s) (hb' : Base s') (hi : s.inode = f)
    (hh : LinkHeld h s) (hw : watch fail s p e = (s', true)) : LinkHeld (fun ino => if f p = some ino then some (p, e) else h ino) s' := by
  obtain ⟨i, wd, n, h1, _, _, _, _, h2, h3⟩ := watch_ok hb hw
  rw [hi] at h1
  subst h2
  intro ino q e'
  simp only [h1, Option.some.injEq]
  by_cases hino : i = ino
  · subst hino
    simp only [if_true, Option.some.injEq, Prod.mk.injEq]
    constructor
    · rintro ⟨rfl, rfl⟩
      exact ⟨wd, ⟨i, encode e, p⟩, by rw [GoMap.get?_set, if_pos rfl], rfl, by rw [GoMap.get?_set, if_pos rfl]⟩
    · rintro ⟨wd', k, k1, k2, k3⟩
      have := hb'.uniq wd' wd k ⟨i, encode e, p⟩ k1 (by simp only; rw [GoMap.get?_set, if_pos rfl]) k2
      subst this
      rw [GoMap.get?_set, if_pos rfl] at k3
      simp only [Option.some.injEq, Watched.mk.injEq] at k3
      exact k3
  · simp only [if_neg hino]
    rw [hh ino q e']
    have hne : ∀ wd' k, s.watches.get? wd' = some k → k.inode = ino → wd ≠ wd' := by
      rintro wd' k k1 k2 rfl
      rcases h3 with ⟨k', k3, k4⟩ | ⟨h4, _⟩
      · rw [k1] at k3
        cases k3
        exact hino (k4.symm.trans k2)
      · have := hb.fresh _ _ k1
        omega
    constructor
    · rintro ⟨wd', k, k1, k2, k3⟩
      have := hne wd' k k1 k2
      exact ⟨wd', k, by rw [GoMap.get?_set, if_neg this]; exact k1, k2, by rw [GoMap.get?_set, if_neg this]; exact k3⟩
    · rintro ⟨wd', k, k1, k2, k3⟩
      have : wd ≠ wd' := by
        rintro rfl
        rw [GoMap.get?_set, if_pos rfl] at k1
        cases k1
        exact hino k2
      rw [GoMap.get?_set, if_neg this] at k1 k3
      exact ⟨wd', k, k1, k2, k3⟩

theorem held_unwatch {p : Path} {h : Nat → Option (Path × Event)} (hb : Base s) (hx : Exact s)
    (hh : LinkHeld h s) (hw : unwatch s p = (s', true)) : LinkHeld (fun ino => if (h ino).map Prod.fst = some p then none else h ino) s' := by
  obtain ⟨wd, w, h1, h2, h3⟩ := unwatch_ok hb hw
  subst h3
  obtain ⟨k, k1, k2⟩ := hx _ _ h1
  rw [h2] at k2
  intro ino q e
  simp only
  split
  · next hq =>
    obtain ⟨⟨q', e'⟩, g1, g2⟩ := Option.map_eq_some_iff.1 hq
    simp only at g2
    subst g2
    obtain ⟨wd', k', g3, g4, g5⟩ := (hh _ _ _).1 g1
    obtain ⟨k'', g6, g7⟩ := hx _ _ g5
    rw [g3] at g6
    cases g6
    simp only at g7
    rw [k2] at g7
    have := hb.uniq wd wd' k k' k1 g3 (Option.some.inj g7)
    subst this
    constructor
    · intro h; cases h
    · rintro ⟨wd2, k2', i1, i2, i3⟩
      rw [GoMap.get?_del] at i1
      split at i1
      · cases i1
      · next hne =>
        exact absurd (hb.uniq wd wd2 k k2' k1 i1 ((Option.some.inj g7).trans (g4.trans i2.symm))) hne
  · next hq =>
    rw [hh ino q e]
    constructor
    · rintro ⟨wd', k', i1, i2, i3⟩
      have : wd ≠ wd' := by
        rintro rfl
        rw [h1] at i3
        cases i3
        apply hq
        rw [(hh ino q e).2 ⟨wd, k', i1, i2, h1⟩]
        exact congrArg some h2
      exact ⟨wd', k', by rw [GoMap.get?_del, if_neg this]; exact i1, i2, by rw [GoMap.get?_del, if_neg this]; exact i3⟩
    · rintro ⟨wd', k', i1, i2, i3⟩
      rw [GoMap.get?_del] at i1 i3
      split at i1
      · cases i1
      · next hne => rw [if_neg hne] at i3; exact ⟨wd', k', i1, i2, i3⟩

theorem LinkRuns.held (h : LinkRuns f l s) : LinkHeld (holder f l) s := by
  induction h with
  | init =>
    intro ino p e
    constructor
    · intro h; cases h
    · rintro ⟨wd, k, h, _⟩; cases h
  | @call l s c ok s' h hs ih =>
    have hb := h.reach.base
    have hb' := (h.call hs).reach.base
    cases hs with
    | watch fail hw =>
      cases ok with
      | true => exact held_watch hb hb' h.inode ih hw
      | false => rw [watch_err hw]; exact ih
    | rewatch fail hw =>
      cases ok with
      | true => exact held_watch hb hb' h.inode ih hw
      | false => rw [watch_err hw]; exact ih
    | unwatch hw =>
      cases ok with
      | true => exact held_unwatch hb h.reach.exact ih hw
      | false => rw [(unwatch_err hb hw).1]; exact ih
  | @reorder l s s' h hr ih =>
    obtain ⟨m', hp⟩ := hr
    have hg := get?_perm h.reach.base.mnodup hp
    intro ino p e
    simp only [hg]
    exact ih ino p e

/-- **C103 (partial).**  In a file system where any number of paths lead to one inode, by hard links or bind mounts, and which stays as it is, after any calls of
the watcher: for every inode, the last successful call for any of its names decides.
* If that was a Watch or Rewatch of `p` for `e`, the kernel has exactly one watch on the inode; it asks for `e`, and whatever it reports is reported to the tree
  with path `p` or of an entry in `p`, never with another name.
* If there was none, or it was undone by Unwatch of the same name, the kernel has no watch on the inode.
* Unwatch succeeds exactly for the names that were the last ones.
Missing: channels that watch under another name are told nothing (`C103_refuted`). -/
theorem C103_last_name_partial (h : LinkRuns f l s) :
    (∀ ino p e, holder f l ino = some (p, e) → f p = some ino ∧ ∃ wd k, s.watches.get? wd = some k ∧ k.inode = ino ∧ k.mask = encode e ∧
      (∀ wd' k', s.watches.get? wd' = some k' → k'.inode = ino → wd' = wd) ∧
      ∀ r, r.wd = wd → ∀ ei ∈ sent s.m [r], ei.path = if r.name = [] then p else join p r.name) ∧
    (∀ ino, holder f l ino = none → ∀ wd k, s.watches.get? wd = some k → k.inode ≠ ino) ∧
    ∀ p, (unwatch s p).2 = true ↔ ∃ ino e, holder f l ino = some (p, e) := by
  have hb := h.reach.base
  have hx := h.reach.exact
  refine ⟨fun ino p e hh => ?_, fun ino hh wd k hk hi => ?_, fun p => ⟨fun hu => ?_, ?_⟩⟩
  · obtain ⟨wd, k, k1, k2, k3⟩ := (h.held ino p e).1 hh
    obtain ⟨k', k4, k5⟩ := hx _ _ k3
    rw [k1] at k4
    cases k4
    obtain ⟨w, k6, _, k7⟩ := hb.live _ _ k1
    rw [k3] at k6
    cases k6
    refine ⟨by rw [← h.inode]; simpa [k2] using k5, wd, k, k1, k2, k7, fun wd' k' g1 g2 => hb.uniq _ _ _ _ g1 k1 (g2.trans k2.symm), ?_⟩
    rintro r rfl ei hei
    rw [sent_single] at hei
    unfold transform1 at hei
    split at hei
    · cases hei
    rw [k3] at hei
    simp only at hei
    split at hei
    · cases hei
    · rcases List.mem_append.1 hei with hei | hei
      · simp only at hei
        split at hei
        · cases hei
        · rw [List.mem_singleton.1 hei]; rfl
      · simp only [List.filterMap_cons, List.filterMap_nil] at hei
        rcases hd : decodeSys e r.mask with _ | v
        · simp [hd] at hei
        · simp only [hd, Option.map_some, id] at hei
          rw [List.mem_singleton.1 hei]; rfl
  · obtain ⟨w, k1, _⟩ := hb.live _ _ hk
    have := (h.held ino w.path w.mask).2 ⟨wd, k, hk, hi, k1⟩
    rw [hh] at this
    cases this
  · obtain ⟨wd, w, k1, k2, _⟩ := unwatch_ok (s' := (unwatch s p).1) hb (Prod.ext rfl hu)
    obtain ⟨k, k3, k4⟩ := hx _ _ k1
    exact ⟨k.inode, w.mask, (h.held _ _ _).2 ⟨wd, k, k3, rfl, by rw [k1, ← k2]⟩⟩
  · rintro ⟨ino, e, hh⟩
    obtain ⟨wd, k, k1, k2, k3⟩ := (h.held ino p e).1 hh
    cases hu : (unwatch s p).2 with
    | true => rfl
    | false => exact absurd rfl ((unwatch_err (s' := (unwatch s p).1) hb (Prod.ext rfl hu)).2 _ _ k3)

/-! ### One of the names is forgotten -/

namespace LinkEx
open NonRec (Op UserEvents GoodPath Hist)
open NonRec.Ex (I)

def pf : Path := [['d'], ['f']]
def pg : Path := [['d'], ['g']]
/-- `/d/f` and `/d/g` are one file (hard links) or one directory (a bind mount). -/
def links : Path → Option Nat := fun p => if p = pf ∨ p = pg then some 7 else none
/-- Create and Write. -/
def W : Event := 0x500000
def t1 : Verif.St := (NonRec.watchOp I .ok .err NonRec.init pf false 1 W).1
def t2 : Verif.St := (NonRec.watchOp I .ok .err t1 pg false 2 W).1
def ops : List Op := [.watch pf false 1 W true, .watch pg false 2 W true]

theorem step1 : NonRec.Step I true NonRec.init (.watch pf false 1 W true) t1 :=
  NonRec.Step.watch (P := I) (O := .ok) (dt := .err) (s := NonRec.init) (p := pf) (isrec := false) (c := 1) (e := W)
    (by unfold GoodPath; decide) (by unfold UserEvents; decide) (by simp [DirTree.Named]) (fun _ _ => rfl)
theorem step2 : NonRec.Step I true t1 (.watch pg false 2 W true) t2 :=
  NonRec.Step.watch (P := I) (O := .ok) (dt := .err) (s := t1) (p := pg) (isrec := false) (c := 2) (e := W)
    (by unfold GoodPath; decide) (by unfold UserEvents; decide) (by simp [DirTree.Named]) (fun _ _ => rfl)
theorem hist : Hist I true ops t2 := (NonRec.Steps.nil.snoc step1).snoc step2

def k1 : St := (watch false { inode := links } pf W).1
def k2 : St := (watch false k1 pg W).1

theorem runs : LinkRuns links t2.world.log k2 := by
  have h : t2.world.log = [(.watch pg W, true), (.watch pf W, true)] := by decide
  rw [h]
  exact .call (.call .init (.watch (s' := k1) false (Prod.ext rfl (by decide)))) (.watch false (Prod.ext rfl (by decide)))

/-- A write, as the kernel reports it. -/
def r : Raw := { wd := 1, mask := inModify }
/-- An entry `x` is created, as the kernel reports it. -/
def r' : Raw := { wd := 1, mask := inCreate, name := ['x'] }
end LinkEx

/-- The premises of `C103_last_name_partial` are met; the second name holds the file. -/
example : LinkRuns LinkEx.links LinkEx.t2.world.log LinkEx.k2 ∧ holder LinkEx.links LinkEx.t2.world.log 7 = some (LinkEx.pg, LinkEx.W) ∧
    (unwatch LinkEx.k2 LinkEx.pf).2 = false := ⟨LinkEx.runs, by decide, by decide⟩

/-- **C103 is false of the code.**  `/d/f` and `/d/g` are one file.  Channel 1 watches `/d/f` for Write, channel 2 `/d/g`; both Watch
calls succeed and both channels are registered.  The kernel has a watch on the file that asks for writes, but when it reports one, it is sent to channel 2 only. -/
theorem C103_refuted : ¬ ∀ (ops : List NonRec.Op) (t : Verif.St) (f : Path → Option Nat) (k : St) (c : Nat) (p : Path) (E b : Event) (wd : Nat) (kw : KWatch) (r : Raw),
    NonRec.Hist Platform.inotify true ops t → LinkRuns f t.world.log k → (∀ op ∈ ops, NonRec.NoPlainFail op) → (E, b) ∈ Spec.Inotify.means →
    Spec.wants (NonRec.regOf Platform.inotify ops) c E p = true →
    k.watches.get? wd = some kw → f p = some kw.inode → b ⊑ kw.mask → r.wd = wd → r.name = [] → r.mask = b →
    ∃ ei ∈ sent k.m [r], .user c ∈ NonRec.sends Platform.inotify t.root ei := by
  intro h
  obtain ⟨ei, h1, h2⟩ := h LinkEx.ops LinkEx.t2 LinkEx.links LinkEx.k2 1 LinkEx.pf 0x400000 inModify 1 ⟨7, encode LinkEx.W, LinkEx.pg⟩ LinkEx.r LinkEx.hist LinkEx.runs
    (by simp [LinkEx.ops, NonRec.NoPlainFail]) (by decide) (by decide) (by decide) (by decide) (by decide) rfl rfl rfl
  revert h2
  revert ei
  decide

/-- **C36 is false with bind mounts.**  The directory `/d/f` is also found at `/d/g`.  Channel 1 watches `/d/f` for Create, then channel 2 `/d/g`.  The kernel's watch
on the directory asks for IN_CREATE, but when `x` is created in it channel 1 is sent nothing. -/
theorem C36_refuted : ¬ ∀ (ops : List NonRec.Op) (t : Verif.St) (f : Path → Option Nat) (k : St) (c : Nat) (p : Path) (E b : Event) (wd : Nat) (kw : KWatch) (r : Raw),
    NonRec.Hist Platform.inotify true ops t → LinkRuns f t.world.log k → (∀ op ∈ ops, NonRec.NoPlainFail op) → (E, b) ∈ Spec.Inotify.means →
    Spec.wants (NonRec.regOf Platform.inotify ops) c E p = true →
    k.watches.get? wd = some kw → f p = some kw.inode → b ⊑ kw.mask → r.wd = wd → r.name ≠ [] → r.mask = b →
    ∃ ei ∈ sent k.m [r], .user c ∈ NonRec.sends Platform.inotify t.root ei := by
  intro h
  obtain ⟨ei, h1, h2⟩ := h LinkEx.ops LinkEx.t2 LinkEx.links LinkEx.k2 1 LinkEx.pf 0x100000 inCreate 1 ⟨7, encode LinkEx.W, LinkEx.pg⟩ LinkEx.r' LinkEx.hist LinkEx.runs
    (by simp [LinkEx.ops, NonRec.NoPlainFail]) (by decide) (by decide) (by decide) (by decide) (by decide) rfl (by decide) rfl
  revert h2
  revert ei
  decide

end Inotify
end Verif
