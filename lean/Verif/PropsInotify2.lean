/-
The inotify watcher and the kernel's watches (C35), and Linux end to end (C36).
-/
import Verif.PropsInotify
import Verif.PropsNonRec

namespace Verif
namespace Inotify
open Spec.Inotify

/-- One step of a history of the watcher: a call, a change of the file system, a change of map order.
In a `stable` history a path in the table goes on leading to the same inode. -/
inductive Step (stable : Bool) : St → St → Prop
  | watch {s} (fail : Bool) (p : Path) (e : Event) : Step stable s (watch fail s p e).1
  | unwatch {s} (p : Path) : Step stable s (unwatch s p).1
  | fs {s s'} : FsStep s s' → (stable = true → ∀ wd w, s.m.get? wd = some w → s'.inode w.path = s.inode w.path) →
      Step stable s s'
  | reorder {s s'} : Reorder s s' → Step stable s s'

/-- States reached from a fresh watcher on any file system. -/
inductive Reach (stable : Bool) : St → Prop
  | init (f : Path → Option Nat) : Reach stable { inode := f }
  | step {s s'} : Reach stable s → Step stable s s' → Reach stable s'

/-- What holds in every history. -/
structure Base (s : St) : Prop where
  wnodup : s.watches.Nodup
  mnodup : s.m.Nodup
  fresh : ∀ wd k, s.watches.get? wd = some k → wd < s.next
  mfresh : ∀ wd w, s.m.get? wd = some w → wd < s.next
  uniq : ∀ wd wd' k k', s.watches.get? wd = some k → s.watches.get? wd' = some k' → k.inode = k'.inode → wd = wd'
  live : ∀ wd k, s.watches.get? wd = some k → ∃ w, s.m.get? wd = some w ∧ w.path = k.madeFor ∧ k.mask = encode w.mask
  acc : ∀ wd w, s.m.get? wd = some w → accepts w.mask = true

/-- What holds in addition in stable histories: the table has no stale entries. -/
def Exact (s : St) : Prop := ∀ wd w, s.m.get? wd = some w →
  ∃ k, s.watches.get? wd = some k ∧ s.inode w.path = some k.inode

theorem wdOf_some {ws : GoMap Nat KWatch} (hn : ws.Nodup) {ino wd : Nat} (h : wdOf ws ino = some wd) :
    ∃ k, ws.get? wd = some k ∧ k.inode = ino := by
  unfold wdOf at h
  split at h
  · next p hp =>
    obtain rfl := Option.some.inj h
    have h1 := List.find?_some hp
    have h2 := List.mem_of_find?_eq_some hp
    exact ⟨p.2, GoMap.get?_of_mem hn h2, by simpa using h1⟩
  · cases h

theorem wdOf_none {ws : GoMap Nat KWatch} {ino : Nat} (h : wdOf ws ino = none) {wd : Nat} {k : KWatch}
    (hk : ws.get? wd = some k) : k.inode ≠ ino := by
  unfold wdOf at h
  split at h
  · cases h
  · next hp =>
    have := List.find?_eq_none.1 hp _ (GoMap.mem_of_get? hk)
    simpa using this

/-- What a successful `watch` does. -/
theorem watch_ok {fail : Bool} {s s' : St} {p : Path} {e : Event} (hb : Base s) (h : watch fail s p e = (s', true)) :
    ∃ ino wd n, s.inode p = some ino ∧ accepts e = true ∧ encode e ≠ 0 ∧ wd < n ∧ s.next ≤ n ∧
      s' = { inode := s.inode, watches := s.watches.set wd ⟨ino, encode e, p⟩, next := n, m := s.m.set wd ⟨p, e⟩ } ∧
      ((∃ k, s.watches.get? wd = some k ∧ k.inode = ino) ∨
       (wd = s.next ∧ ∀ wd' k, s.watches.get? wd' = some k → k.inode ≠ ino)) := by
  unfold watch at h
  by_cases ha : accepts e = false
  · rw [if_pos ha] at h; cases h
  rw [if_neg ha] at h
  by_cases hf : fail = true
  · rw [if_pos hf] at h; cases h
  rw [if_neg hf] at h
  unfold addWatch at h
  by_cases h0 : encode e &&& inAllEvents = 0
  · rw [if_pos h0] at h; cases h
  rw [if_neg h0] at h
  have hne : encode e ≠ 0 := by
    intro hz; rw [hz] at h0; exact h0 (by simp)
  rcases hi : s.inode p with _ | ino
  · rw [hi] at h; cases h
  · rw [hi] at h
    simp only at h
    rcases hw : wdOf s.watches ino with _ | wd
    · rw [hw] at h
      simp only [Prod.mk.injEq, and_true] at h
      exact ⟨ino, s.next, s.next + 1, rfl, by simpa using ha, hne, by omega, by omega, h.symm,
        Or.inr ⟨rfl, fun wd' k hk => wdOf_none hw hk⟩⟩
    · rw [hw] at h
      simp only [Prod.mk.injEq, and_true] at h
      obtain ⟨k, hk, hki⟩ := wdOf_some hb.wnodup hw
      exact ⟨ino, wd, s.next, rfl, by simpa using ha, hne, hb.fresh _ _ hk, Nat.le_refl _, h.symm, Or.inl ⟨k, hk, hki⟩⟩

/-- A `watch` that fails changes nothing. -/
theorem watch_err {fail : Bool} {s s' : St} {p : Path} {e : Event} (h : watch fail s p e = (s', false)) : s' = s := by
  unfold watch at h
  split at h
  · exact (Prod.mk.inj h).1.symm
  split at h
  · exact (Prod.mk.inj h).1.symm
  split at h
  · exact (Prod.mk.inj h).1.symm
  · cases h

/-- What a successful `unwatch` does. -/
theorem unwatch_ok {s s' : St} {p : Path} (hb : Base s) (h : unwatch s p = (s', true)) :
    ∃ wd w, s.m.get? wd = some w ∧ w.path = p ∧
      s' = { s with watches := s.watches.del wd, m := s.m.del wd } := by
  unfold unwatch at h
  split at h
  · cases h
  · next wd w hp =>
    have h1 := List.find?_some hp
    have h2 := List.mem_of_find?_eq_some hp
    exact ⟨wd, w, GoMap.get?_of_mem hb.mnodup h2, by simpa using h1, (Prod.mk.inj h).1.symm⟩

/-- `unwatch` fails iff the path is not in the table, and then changes nothing. -/
theorem unwatch_err {s s' : St} {p : Path} (hb : Base s) (h : unwatch s p = (s', false)) :
    s' = s ∧ ∀ wd w, s.m.get? wd = some w → w.path ≠ p := by
  unfold unwatch at h
  split at h
  · next hp =>
    refine ⟨(Prod.mk.inj h).1.symm, fun wd w hw => ?_⟩
    simpa using List.find?_eq_none.1 hp _ (GoMap.mem_of_get? hw)
  · cases h

theorem get?_perm {m m' : Table} (hn : m.Nodup) (hp : m'.Perm m) (wd : Nat) : m'.get? wd = m.get? wd := by
  have hn' : m'.Nodup := (List.Perm.nodup_iff (hp.map Prod.fst)).2 hn
  rcases h : m.get? wd with _ | w
  · rw [GoMap.get?_eq_none_iff] at h ⊢
    intro hm; exact h ((hp.map Prod.fst).mem_iff.1 hm)
  · exact GoMap.get?_of_mem hn' (hp.mem_iff.2 (GoMap.mem_of_get? h))

theorem get?_filter {ws : GoMap Nat KWatch} (hn : ws.Nodup) (f : Nat × KWatch → Bool) (wd : Nat) (k : KWatch) :
    GoMap.get? (ws.filter f) wd = some k ↔ ws.get? wd = some k ∧ f (wd, k) = true := by
  have hn' : GoMap.Nodup (ws.filter f) := List.Nodup.sublist (List.filter_sublist.map Prod.fst) hn
  rw [← GoMap.mem_iff_get? hn', ← GoMap.mem_iff_get? hn, List.mem_filter]

theorem Base.init (f : Path → Option Nat) : Base { inode := f } where
  wnodup := GoMap.nodup_nil
  mnodup := GoMap.nodup_nil
  fresh := by intro wd k h; cases h
  mfresh := by intro wd k h; cases h
  uniq := by intro wd wd' k k' h; cases h
  live := by intro wd k h; cases h
  acc := by intro wd k h; cases h

theorem Base.watch {fail : Bool} {s s' : St} {p : Path} {e : Event} (hb : Base s) (h : watch fail s p e = (s', true)) :
    Base s' := by
  obtain ⟨ino, wd, n, hi, ha, hne, hwn, hn, rfl, hwd⟩ := watch_ok hb h
  refine ⟨hb.wnodup.set _ _, hb.mnodup.set _ _, ?_, ?_, ?_, ?_, ?_⟩
  · intro wd' k hk
    simp only [GoMap.get?_set] at hk
    split at hk
    · next heq => subst heq; exact hwn
    · exact Nat.lt_of_lt_of_le (hb.fresh _ _ hk) hn
  · intro wd' k hk
    simp only [GoMap.get?_set] at hk
    split at hk
    · next heq => subst heq; exact hwn
    · exact Nat.lt_of_lt_of_le (hb.mfresh _ _ hk) hn
  · intro a b k k' hk hk' hino
    simp only [GoMap.get?_set] at hk hk'
    have key : ∀ b k', s.watches.get? b = some k' → k'.inode = ino → b = wd := by
      intro b k' hb' he
      rcases hwd with ⟨k0, h0, h0i⟩ | ⟨_, hno⟩
      · exact hb.uniq _ _ _ _ hb' h0 (he.trans h0i.symm)
      · exact absurd he (hno _ _ hb')
    split at hk
    · next heq =>
      subst heq
      obtain rfl := Option.some.inj hk
      split at hk'
      · next heq => exact heq
      · exact (key _ _ hk' hino.symm).symm
    · split at hk'
      · next heq =>
        subst heq
        obtain rfl := Option.some.inj hk'
        exact key _ _ hk hino
      · exact hb.uniq _ _ _ _ hk hk' hino
  · intro wd' k hk
    simp only [GoMap.get?_set] at hk ⊢
    split at hk
    · next heq =>
      obtain rfl := Option.some.inj hk
      exact ⟨⟨p, e⟩, by rw [if_pos heq], rfl, rfl⟩
    · next hne =>
      rw [if_neg hne]; exact hb.live _ _ hk
  · intro wd' w hw
    simp only [GoMap.get?_set] at hw
    split at hw
    · obtain rfl := Option.some.inj hw; exact ha
    · exact hb.acc _ _ hw

theorem Base.del {s : St} (hb : Base s) (wd : Nat) : Base { s with watches := s.watches.del wd, m := s.m.del wd } := by
  have hd : ∀ {ν : Type} {m : GoMap Nat ν} {wd' : Nat} {v : ν}, (m.del wd).get? wd' = some v → wd ≠ wd' ∧ m.get? wd' = some v := by
    intro ν m wd' v h
    rw [GoMap.get?_del] at h
    split at h
    · cases h
    · next hne => exact ⟨hne, h⟩
  refine ⟨hb.wnodup.del _, hb.mnodup.del _, ?_, ?_, ?_, ?_, ?_⟩
  · intro wd' k hk; exact hb.fresh _ _ (hd hk).2
  · intro wd' k hk; exact hb.mfresh _ _ (hd hk).2
  · intro a b k k' hk hk' hi; exact hb.uniq _ _ _ _ (hd hk).2 (hd hk').2 hi
  · intro wd' k hk
    obtain ⟨hne, hk'⟩ := hd hk
    obtain ⟨w, h1, h2⟩ := hb.live _ _ hk'
    exact ⟨w, by simp only [GoMap.get?_del]; rw [if_neg hne]; exact h1, h2⟩
  · intro wd' w hw; exact hb.acc _ _ (hd hw).2

theorem Base.step {stable : Bool} {s s' : St} (hb : Base s) (h : Step stable s s') : Base s' := by
  cases h with
  | watch fail p e =>
    rcases hw : Inotify.watch fail s p e with ⟨s', ok⟩
    cases ok with
    | true => exact hb.watch hw
    | false => obtain rfl := watch_err hw; exact hb
  | unwatch p =>
    rcases hw : Inotify.unwatch s p with ⟨s', ok⟩
    cases ok with
    | true =>
      obtain ⟨wd, w, _, _, rfl⟩ := unwatch_ok hb hw
      exact hb.del wd
    | false => obtain ⟨rfl, _⟩ := unwatch_err hb hw; exact hb
  | fs hf _ =>
    obtain ⟨f, keep, hkeep⟩ := hf
    refine ⟨List.Nodup.sublist (List.filter_sublist.map Prod.fst) hb.wnodup, hb.mnodup, ?_, hb.mfresh, ?_, ?_, hb.acc⟩
    · intro wd k hk; exact hb.fresh _ _ ((get?_filter hb.wnodup _ _ _).1 hk).1
    · intro a b k k' hk hk' hi
      exact hb.uniq _ _ _ _ ((get?_filter hb.wnodup _ _ _).1 hk).1 ((get?_filter hb.wnodup _ _ _).1 hk').1 hi
    · intro wd k hk; exact hb.live _ _ ((get?_filter hb.wnodup _ _ _).1 hk).1
  | reorder hr =>
    obtain ⟨m', hp⟩ := hr
    have hg := get?_perm hb.mnodup hp
    refine ⟨hb.wnodup, (List.Perm.nodup_iff (hp.map Prod.fst)).2 hb.mnodup, hb.fresh, ?_, hb.uniq, ?_, ?_⟩
    · intro wd w hw; exact hb.mfresh wd w (by rw [← hg]; exact hw)
    · intro wd k hk; simp only [hg]; exact hb.live _ _ hk
    · intro wd w hw; exact hb.acc wd w (by rw [← hg]; exact hw)

theorem Reach.base {stable : Bool} {s : St} (h : Reach stable s) : Base s := by
  induction h with
  | init f => exact Base.init f
  | step _ hs ih => exact ih.step hs

theorem Exact.step {s s' : St} (hb : Base s) (hx : Exact s) (h : Step true s s') : Exact s' := by
  cases h with
  | watch fail p e =>
    rcases hw : Inotify.watch fail s p e with ⟨s', ok⟩
    cases ok with
    | false => obtain rfl := watch_err hw; exact hx
    | true =>
      obtain ⟨ino, wd, n, hi, ha, hne, hwn, hn, rfl, hwd⟩ := watch_ok hb hw
      intro wd' w hw
      simp only [GoMap.get?_set] at hw ⊢
      split at hw
      · next heq =>
        obtain rfl := Option.some.inj hw
        exact ⟨_, by rw [if_pos heq], hi⟩
      · next hne =>
        rw [if_neg hne]
        exact hx _ _ hw
  | unwatch p =>
    rcases hw : Inotify.unwatch s p with ⟨s', ok⟩
    cases ok with
    | false => obtain ⟨rfl, _⟩ := unwatch_err hb hw; exact hx
    | true =>
      obtain ⟨wd, w, _, _, rfl⟩ := unwatch_ok hb hw
      intro wd' w hw
      simp only [GoMap.get?_del] at hw ⊢
      split at hw
      · cases hw
      · next hne => rw [if_neg hne]; exact hx _ _ hw
  | fs hf hst =>
    obtain ⟨f, keep, hkeep⟩ := hf
    intro wd w hw
    obtain ⟨k, hk, hi⟩ := hx _ _ hw
    have hsame := hst rfl wd w hw
    refine ⟨k, ?_, hsame.trans hi⟩
    refine (get?_filter hb.wnodup _ _ _).2 ⟨hk, (hkeep _).2 ⟨w.path, hsame.trans hi⟩⟩
  | reorder hr =>
    obtain ⟨m', hp⟩ := hr
    intro wd w hw
    exact hx wd w (by rw [← get?_perm hb.mnodup hp]; exact hw)

theorem Reach.exact {s : St} (h : Reach true s) : Exact s := by
  induction h with
  | init f => intro wd w hw; cases hw
  | step hr hs ih => exact ih.step hr.base hs

/-! ### C35 -/

/-- **C35, other paths.**  In every history: a successful Unwatch(path) leaves the kernel watches made for
other paths as they are, mask included; an unsuccessful one changes nothing. -/
theorem C35_others {stable : Bool} {s : St} (h : Reach stable s) (p : Path) :
    ((unwatch s p).2 = false → (unwatch s p).1 = s) ∧
    ∀ wd k, s.watches.get? wd = some k → k.madeFor ≠ p → (unwatch s p).1.watches.get? wd = some k := by
  rcases hu : unwatch s p with ⟨s', ok⟩
  cases ok with
  | false =>
    obtain ⟨rfl, _⟩ := unwatch_err h.base hu
    exact ⟨fun _ => rfl, fun wd k hk _ => hk⟩
  | true =>
    obtain ⟨wd, w, hw, rfl, rfl⟩ := unwatch_ok h.base hu
    refine ⟨fun h => (by cases h), fun wd' k hk hne => ?_⟩
    simp only [GoMap.get?_del]
    rw [if_neg]
    · exact hk
    · rintro rfl
      obtain ⟨w', hw', hp, _⟩ := h.base.live _ _ hk
      rw [hw] at hw'
      obtain rfl := Option.some.inj hw'
      exact hne hp.symm

/-- **C35.**  If every watched path went on leading to the same inode: after a successful Unwatch(path) the
kernel has no watch made for the path, the table has no entry for it, and a notification of its former
descriptor produces nothing.  Missing for the full claim: paths that were deleted and re-created, or moved,
while they were watched; `C35_refuted` shows that it fails then. -/
theorem C35_unwatch_partial {s : St} (h : Reach true s) {p : Path} (hu : (unwatch s p).2 = true) :
    (∀ wd k, (unwatch s p).1.watches.get? wd = some k → k.madeFor ≠ p) ∧
    (∀ wd w, (unwatch s p).1.m.get? wd = some w → w.path ≠ p) ∧
    (∀ wd k, s.watches.get? wd = some k → k.madeFor = p → ∀ r : Raw, r.wd = wd → sent (unwatch s p).1.m [r] = []) := by
  rcases hun : unwatch s p with ⟨s', ok⟩
  rw [hun] at hu
  obtain rfl : ok = true := hu
  obtain ⟨wd, w, hw, rfl, rfl⟩ := unwatch_ok h.base hun
  have huniq : ∀ wd' w', s.m.get? wd' = some w' → w'.path = w.path → wd' = wd := by
    intro wd' w' hw' hp
    obtain ⟨k, hk, hi⟩ := h.exact _ _ hw
    obtain ⟨k', hk', hi'⟩ := h.exact _ _ hw'
    rw [hp, hi] at hi'
    exact (h.base.uniq _ _ _ _ hk hk' (Option.some.inj hi')).symm
  have hwl : ∀ wd' k, s.watches.get? wd' = some k → k.madeFor = w.path → wd' = wd := by
    intro wd' k hk hf
    obtain ⟨w', hw', hp, _⟩ := h.base.live _ _ hk
    exact huniq wd' w' hw' (hp.trans hf)
  refine ⟨?_, ?_, ?_⟩
  · intro wd' k hk hf
    simp only [GoMap.get?_del] at hk
    split at hk
    · cases hk
    · next hne => exact hne (hwl _ _ hk hf).symm
  · intro wd' w' hw' hf
    simp only [GoMap.get?_del] at hw'
    split at hw'
    · cases hw'
    · next hne => exact hne (huniq _ _ hw' hf).symm
  · intro wd' k hk hf r hr
    apply C33_nothing
    refine Or.inr (Or.inr ?_)
    simp only [GoMap.get?_del]
    rw [if_pos (hr.trans (hwl _ _ hk hf)).symm]

namespace Ex
/-- The path `/f`. -/
def f : Path := [['f']]
/-- A file system where `/f` leads to one inode. -/
def fs (n : Nat) : Path → Option Nat := fun p => if p = f then some n else none

/-- `/f` is watched, deleted and re-created, and watched again (as by Watch with more events). -/
def t0 : St := { inode := fs 1 }
def t1 : St := (watch false t0 f create).1
def t2 : St := { t1 with inode := fs 2, watches := t1.watches.filter (fun p => p.2.inode == 2) }
def t3 : St := (watch false t2 f (create ||| write)).1

theorem reach1 {b : Bool} : Reach b t1 := .step (.init (fs 1)) (.watch false f create)
theorem reach3 : Reach false t3 := by
  refine .step (.step reach1 (.fs (s' := t2) ?_ (by intro h; cases h))) (.watch false f (create ||| write))
  refine FsStep.mk t1 (fs 2) (fun n => n == 2) fun ino => ?_
  constructor
  · intro h; exact ⟨f, by simp at h; subst h; decide⟩
  · rintro ⟨p, hp⟩
    unfold fs at hp
    split at hp
    · obtain rfl := Option.some.inj hp; rfl
    · cases hp
end Ex

/-- **C35 is false.**  `/f` is watched, deleted and re-created, and watched again.  Then Unwatch succeeds,
but (for this map order) it only drops the stale table entry: the kernel goes on watching the file. -/
theorem C35_refuted : ¬ ∀ s, Reach false s → ∀ p, (unwatch s p).2 = true →
    ∀ wd k, (unwatch s p).1.watches.get? wd = some k → k.madeFor ≠ p := by
  intro h
  exact h Ex.t3 Ex.reach3 Ex.f (by decide) 2 ⟨2, 0x182, Ex.f⟩ (by decide) rfl

/-- A stable history in which Unwatch succeeds. -/
example : Reach true Ex.t1 ∧ (unwatch Ex.t1 Ex.f).2 = true ∧ Ex.t1.watches ≠ [] ∧
    (unwatch Ex.t1 Ex.f).1.watches = [] := ⟨Ex.reach1, by decide, by decide, by decide⟩

/-! ### Linux end to end -/

/-- No two paths lead to the same inode. -/
def NoLinks (f : Path → Option Nat) : Prop := ∀ p q ino, f p = some ino → f q = some ino → p = q

/-- How the watcher answers a call of a tree. -/
inductive Serves : St → Verif.Call → Bool → St → Prop
  | watch {s s' p e ok} (fail : Bool) : watch fail s p e = (s', ok) → Serves s (.watch p e) ok s'
  | rewatch {s s' p old e ok} (fail : Bool) : watch fail s p e = (s', ok) → Serves s (.rewatch p old e) ok s'
  | unwatch {s s' p ok} : unwatch s p = (s', ok) → Serves s (.unwatch p) ok s'

/-- `Drives l s`: starting with a fresh watcher, the calls of the log (newest first) with the recorded
outcomes lead to the watcher state `s`, while the file system changes; watched paths keep their inodes and
there are no hard links. -/
inductive Drives : Log → St → Prop
  | init (f : Path → Option Nat) : NoLinks f → Drives [] { inode := f }
  | call {l s c ok s'} : Drives l s → Serves s c ok s' → Drives ((c, ok) :: l) s'
  | fs {l s s'} : Drives l s → FsStep s s' → NoLinks s'.inode →
      (∀ wd w, s.m.get? wd = some w → s'.inode w.path = s.inode w.path) → Drives l s'
  | reorder {l s s'} : Drives l s → Reorder s s' → Drives l s'

theorem fst_eq {α β : Type} {a : α × β} {x : α} {y : β} (h : a = (x, y)) : a.1 = x := by rw [h]

theorem Drives.reach {l : Log} {s : St} (h : Drives l s) : Reach true s := by
  induction h with
  | init f _ => exact .init f
  | call _ hs ih =>
    cases hs with
    | watch fail h => exact (fst_eq h) ▸ .step ih (.watch fail _ _)
    | rewatch fail h => exact (fst_eq h) ▸ .step ih (.watch fail _ _)
    | unwatch h => exact (fst_eq h) ▸ .step ih (.unwatch _)
  | fs _ hf _ hst ih => exact .step ih (.fs hf fun _ => hst)
  | reorder _ hr ih => exact .step ih (.reorder hr)

theorem watch_inode {fail : Bool} {s : St} {p : Path} {e : Event} : (watch fail s p e).1.inode = s.inode := by
  unfold watch
  split
  · rfl
  split
  · rfl
  unfold addWatch
  split
  · rfl
  · next wd s' heq =>
    split at heq
    · cases heq
    split at heq
    · cases heq
    split at heq <;> (obtain ⟨_, rfl⟩ := Prod.mk.inj (Option.some.inj heq); rfl)

theorem unwatch_inode {s : St} {p : Path} : (unwatch s p).1.inode = s.inode := by
  unfold unwatch
  split <;> rfl

theorem Drives.noLinks {l : Log} {s : St} (h : Drives l s) : NoLinks s.inode := by
  induction h with
  | init f h => exact h
  | call _ hs ih =>
    cases hs with
    | watch fail h => rw [← fst_eq h, watch_inode]; exact ih
    | rewatch fail h => rw [← fst_eq h, watch_inode]; exact ih
    | unwatch h => rw [← fst_eq h, unwatch_inode]; exact ih
  | fs _ _ h _ _ => exact h
  | reorder _ hr ih => obtain ⟨m', hp⟩ := hr; exact ih

/-- The table and the tree's idea of what is watched agree. -/
def Agree (os : Path → Event) (s : St) : Prop :=
  (∀ p, os p ≠ 0 → ∃ wd, s.m.get? wd = some ⟨p, os p⟩) ∧
  (∀ wd w, s.m.get? wd = some w → w.mask = os w.path ∧ w.mask ≠ 0)

theorem encode_zero : encode 0 = 0 := by decide

theorem agree_watch {fail : Bool} {os : Path → Event} {s s' : St} {p : Path} {e : Event} (hr : Reach true s)
    (hl : NoLinks s.inode) (ha : Agree os s) (h : watch fail s p e = (s', true)) :
    Agree (fun q => if p = q then e else os q) s' := by
  obtain ⟨ino, wd, n, hi, hacc, hne, hwn, hn, rfl, hwd⟩ := watch_ok hr.base h
  have he : e ≠ 0 := by rintro rfl; exact hne encode_zero
  -- the descriptor was not used for another path
  have hold : ∀ w, s.m.get? wd = some w → w.path = p := by
    intro w hw
    obtain ⟨k, hk, hki⟩ := hr.exact _ _ hw
    rcases hwd with ⟨k0, h0, h0i⟩ | ⟨hnext, _⟩
    · rw [hk] at h0
      obtain rfl := Option.some.inj h0
      rw [h0i] at hki
      exact hl _ _ _ hki hi
    · have := hr.base.mfresh _ _ hw; omega
  -- and the path had no other descriptor
  have hother : ∀ wd' w, s.m.get? wd' = some w → w.path = p → wd' = wd := by
    intro wd' w hw hp
    obtain ⟨k, hk, hki⟩ := hr.exact _ _ hw
    rw [hp, hi] at hki
    rcases hwd with ⟨k0, h0, h0i⟩ | ⟨_, hno⟩
    · exact hr.base.uniq _ _ _ _ hk h0 ((Option.some.inj hki).symm.trans h0i.symm)
    · exact absurd (Option.some.inj hki).symm (hno _ _ hk)
  constructor
  · intro q hq
    by_cases hpq : p = q
    · subst hpq
      exact ⟨wd, by simp only [GoMap.get?_set, if_true]⟩
    · simp only [hpq, if_false] at hq ⊢
      obtain ⟨wd', hw'⟩ := ha.1 q hq
      refine ⟨wd', ?_⟩
      simp only [GoMap.get?_set]
      rw [if_neg]
      · exact hw'
      · rintro rfl
        exact hpq (hold _ hw').symm
  · intro wd' w hw
    simp only [GoMap.get?_set] at hw
    split at hw
    · obtain rfl := Option.some.inj hw
      exact ⟨by simp only [if_true], he⟩
    · next hne =>
      have hp : p ≠ w.path := fun hp => hne (hother _ _ hw hp.symm).symm
      simp only [hp, if_false]
      exact ha.2 _ _ hw

theorem agree_unwatch {os : Path → Event} {s s' : St} {p : Path} (hr : Reach true s)
    (ha : Agree os s) (h : unwatch s p = (s', true)) : Agree (fun q => if p = q then 0 else os q) s' := by
  have hu := C35_unwatch_partial hr (p := p) (by rw [h])
  rw [h] at hu
  obtain ⟨wd, w, hw, rfl, rfl⟩ := unwatch_ok hr.base h
  constructor
  · intro q hq
    by_cases hpq : w.path = q
    · simp only [hpq, if_true] at hq; exact absurd rfl hq
    · simp only [hpq, if_false] at hq ⊢
      obtain ⟨wd', hw'⟩ := ha.1 q hq
      refine ⟨wd', ?_⟩
      simp only [GoMap.get?_del]
      rw [if_neg]
      · exact hw'
      · rintro rfl
        rw [hw] at hw'
        obtain rfl := Option.some.inj hw'
        exact hpq rfl
  · intro wd' w' hw'
    have hp := hu.2.1 _ _ hw'
    simp only [GoMap.get?_del] at hw'
    split at hw'
    · cases hw'
    · simp only [Ne.symm hp, if_false]
      exact ha.2 _ _ hw'

theorem Drives.agree {l : Log} {s : St} (h : Drives l s) : Agree (osOf l) s := by
  induction h with
  | init f _ => exact ⟨fun p hp => absurd rfl hp, fun wd w hw => by cases hw⟩
  | @call l s c ok s' hd hs ih =>
    cases hs with
    | watch fail h =>
      cases ok with
      | false => obtain rfl := watch_err h; exact ih
      | true => exact agree_watch hd.reach hd.noLinks ih h
    | rewatch fail h =>
      cases ok with
      | false => obtain rfl := watch_err h; exact ih
      | true => exact agree_watch hd.reach hd.noLinks ih h
    | unwatch h =>
      cases ok with
      | false => obtain ⟨rfl, _⟩ := unwatch_err hd.reach.base h; exact ih
      | true => exact agree_unwatch hd.reach ih h
  | @fs l s s' hd hf _ _ ih => obtain ⟨f, keep, hkeep⟩ := hf; exact ih
  | @reorder l s s' hd hr ih =>
    obtain ⟨m', hp⟩ := hr
    have hg := get?_perm hd.reach.base.mnodup hp
    exact ⟨fun p hp => by simp only [hg]; exact ih.1 p hp, fun wd w hw => ih.2 wd w (by rw [← hg]; exact hw)⟩

open NonRec Verif.Spec in
/-- **C36.**  On Linux, for every history in which the calls whose failure is ignored succeed, no
non-recursive Watch with `c` failed, watched paths kept their inodes and there are no hard links.  Channel `c` is
registered on directory `p` for event `E`, which is one of the kernel's twelve events or a portable event, and
`b` is a kernel event that is an `E`.  Then the kernel has a watch on the inode of `p` that asks for `b`;
when it reports `b` for an entry `n`, exactly one event with `E` is handed to dispatch, its path is `p/n`,
and dispatch sends it to `c` once for every registration of `c` that covers it (at least once).
Missing for the full claim: histories outside these conditions. -/
theorem C36_linux_partial {ops : List Op} {t : Verif.St} (ht : Hist Platform.inotify true ops t)
    {c : Nat} (hops : ∀ op ∈ ops, NoFail c op) {k : St} (hk : Drives t.world.log k) {p : Path} (hp : GoodPath p)
    {E b : Event} (hEb : (E, b) ∈ means) (hreg : wants (regOf Platform.inotify ops) c E p = true) :
    ∃ wd kw, k.watches.get? wd = some kw ∧ k.inode p = some kw.inode ∧ kw.madeFor = p ∧ b ⊑ kw.mask ∧
      ∀ (n : Comp) (d : Bool) (r : Raw), n ≠ [] → r.wd = wd → r.name = n →
        r.mask = b ||| (if d then 0x40000000 else 0) →
        ∃ ei, (sent k.m [r]).filter (fun x => decide (x.event = E)) = [ei] ∧ ei.event = E ∧ ei.path = p ++ [n] ∧
          ei.isDir = some d ∧
          (sends Platform.inotify t.root ei).count (.user c) = copies (regOf Platform.inotify ops) c E (p ++ [n]) ∧
          1 ≤ (sends Platform.inotify t.root ei).count (.user c) := by
  have hP := Platform.inotify_wf.facts
  have hbk : b ∈ kernelBits := by
    have : ∀ x ∈ means, x.2 ∈ kernelBits := by decide
    exact this _ hEb
  have hEint : ∀ x ∈ means, x.1 &&& Platform.inotify.internal = 0 ∧ x.1 ≠ 0 := by decide
  obtain ⟨hEi, hE0⟩ := hEint _ hEb
  have href := Hist.refines hP ht hops
  -- the tree watches `E` on `p`
  obtain ⟨ev, fl, hrc, hsub⟩ : ∃ ev fl, regOf Platform.inotify ops c p = some (ev, fl) ∧ E ⊑ ev := by
    unfold wants at hreg
    rcases hx : regOf Platform.inotify ops c p with _ | ⟨ev, fl⟩
    · rw [hx] at hreg; cases hreg
    · rw [hx] at hreg; exact ⟨ev, fl, rfl, by simpa using hreg⟩
  have hos : E ⊑ osOf t.world.log p := by
    intro i hi
    refine ((C11_os_mirror hP ht p).1 i).2 ⟨?_, Or.inl ⟨c, ev ||| (if fl then Platform.inotify.recursive else 0), ?_, ?_⟩⟩
    · have := congrArg (fun v => BitVec.getLsbD v i) hEi
      simp only [BitVec.getLsbD_and] at this
      have hi' : BitVec.getLsbD E i = true := hi
      rw [hi'] at this
      simpa using this
    · rw [href.ent, hrc]; rfl
    · rw [BitVec.getLsbD_or, hsub i hi]; rfl
  have hos0 : osOf t.world.log p ≠ 0 := by
    intro h0; rw [h0] at hos; exact hE0 (Event.sub_zero hos)
  obtain ⟨wd, hwd⟩ := hk.agree.1 p hos0
  obtain ⟨kw, hkw, hino⟩ := hk.reach.exact _ _ hwd
  obtain ⟨w', hw', hpath, hmask⟩ := hk.reach.base.live _ _ hkw
  rw [hwd] at hw'
  obtain rfl := Option.some.inj hw'
  have hacc : accepts (osOf t.world.log p) = true := hk.reach.base.acc _ _ hwd
  refine ⟨wd, kw, hkw, hino, hpath.symm, ?_, ?_⟩
  · rw [hmask]
    exact ((C32_mask _ hacc).2 b hbk).2 ⟨E, hos, hEb⟩
  · intro n d r hn hrwd hrn hrm
    subst hrwd
    obtain ⟨hcount, hall⟩ := C33_exact hwd hacc hbk d hrm
    have h1 := hcount E
    rw [if_pos ⟨hos, hEb⟩] at h1
    obtain ⟨ei, hei⟩ := List.length_eq_one_iff.1 h1
    have hmem : ei ∈ (sent k.m [r]).filter (fun x => decide (x.event = E)) := by rw [hei]; exact List.mem_singleton_self _
    obtain ⟨hms, hev⟩ := List.mem_filter.1 hmem
    have hev' : ei.event = E := by simpa using hev
    obtain ⟨hpe, hde⟩ := hall ei hms
    have hpth : ei.path = p ++ [n] := by
      rw [hpe, if_neg (by rw [hrn]; exact hn), hrn]
      unfold join
      rw [if_neg]
      rintro rfl
      exact hp.2 (by simp)
    refine ⟨ei, hei, hev', hpth, hde, ?_⟩
    have hlen : 2 ≤ ei.path.length := by
      rw [hpth]
      have : p.length ≠ 0 := fun h => hp.1 (List.length_eq_zero_iff.1 h)
      simp; omega
    have hc := (C01_delivery_exact hP ht hlen (by rw [hev']; exact hEi) (by intro h; cases h)).1 c hops
    rw [hev', hpth] at hc
    refine ⟨hc, ?_⟩
    rw [hc]
    unfold copies
    rw [List.dropLast_concat, hreg]
    simp only [if_true]
    omega

namespace Ex
open NonRec.Ex in
/-- Two directories. -/
def fs2 : Path → Option Nat := fun p => if p = [a] then some 1 else if p = [a, b] then some 2 else none

theorem fs2_noLinks : NoLinks fs2 := by
  intro p q ino hp hq
  unfold fs2 at hp hq
  grind

/-- The watcher after the calls of the history `NonRec.Ex.hist2`. -/
def k2 : St :=
  (watch false (watch false { inode := fs2 } [['a']] 0x500000).1 [['a'], ['b']] 0x500000).1

theorem drives2 : Drives NonRec.Ex.s2.world.log k2 := by
  have h : NonRec.Ex.s2.world.log = [(.watch [['a'], ['b']] 0x500000, true), (.watch [['a']] 0x500000, true)] := by decide
  rw [h]
  refine .call (.call (s := { inode := fs2 }) (.init fs2 fs2_noLinks)
    (.watch (s' := (watch false { inode := fs2 } [['a']] 0x500000).1) false ?_)) (.watch false ?_)
  · exact Prod.ext rfl (by decide)
  · exact Prod.ext rfl (by decide)
end Ex

/-- The hypotheses of C36 are met: channel 2 is registered on `/a/b` for Create. -/
example : NonRec.Hist Platform.inotify true NonRec.Ex.ops2 NonRec.Ex.s2 ∧ Drives NonRec.Ex.s2.world.log Ex.k2 ∧
    Spec.wants (NonRec.regOf Platform.inotify NonRec.Ex.ops2) 2 create [['a'], ['b']] = true ∧
    (create, inMovedTo) ∈ means :=
  ⟨NonRec.Ex.hist2, Ex.drives2, by decide, by decide⟩

/-! ### C42 on inotify -/

/-- **C42, inotify.**  The events `w.mask` are watched on a path and the kernel event `b` gives the event `E`.
If more events are watched there (`w'`, same path), the same kernel event still gives `E`, once, and for the
same path. -/
theorem C42_inotify {m m' : Table} {r : Raw} {w w' : Watched} (hw : m.get? r.wd = some w) (hw' : m'.get? r.wd = some w')
    (ha : accepts w.mask = true) (ha' : accepts w'.mask = true) (hp : w'.path = w.path) (hsub : w.mask ⊑ w'.mask)
    {b : Event} (hb : b ∈ kernelBits) (d : Bool) (hr : r.mask = b ||| (if d then 0x40000000 else 0))
    {ei : EventInfo} (h : ei ∈ sent m [r]) :
    (sent m' [r]).filter (fun x => decide (x.event = ei.event)) = [ei] := by
  obtain ⟨h1, h2⟩ := C33_exact hw ha hb d hr
  obtain ⟨h1', h2'⟩ := C33_exact hw' ha' hb d hr
  have hE : ei.event ⊑ w.mask ∧ (ei.event, b) ∈ means := by
    apply Classical.byContradiction
    intro hno
    have := h1 ei.event
    rw [if_neg hno] at this
    have hmem : ei ∈ (sent m [r]).filter (fun x => decide (x.event = ei.event)) := List.mem_filter.2 ⟨h, by simp⟩
    rw [List.length_eq_zero_iff.1 this] at hmem
    cases hmem
  have h3 := h1' ei.event
  rw [if_pos ⟨hE.1.trans hsub, hE.2⟩] at h3
  obtain ⟨x, hx⟩ := List.length_eq_one_iff.1 h3
  rw [hx]
  have hmem : x ∈ (sent m' [r]).filter (fun x => decide (x.event = ei.event)) := by rw [hx]; exact List.mem_singleton_self _
  obtain ⟨hms, hev⟩ := List.mem_filter.1 hmem
  obtain ⟨hxp, hxd⟩ := h2' x hms
  obtain ⟨hep, hed⟩ := h2 ei h
  have hxt : x.ftype = .unknown ∧ ei.ftype = .unknown := by
    have hft : ∀ (m : Table) (y : EventInfo), y ∈ sent m [r] → y.ftype = .unknown := by
      intro m y hy
      rw [sent_single] at hy
      unfold transform1 at hy
      split at hy
      · cases hy
      split at hy
      · cases hy
      split at hy
      · cases hy
      · rcases List.mem_append.1 hy with hy | hy
        · simp only at hy
          split at hy
          · cases hy
          · rw [List.mem_singleton.1 hy]; rfl
        · simp only [List.filterMap_cons, List.filterMap_nil] at hy
          rcases hd : decodeSys (Watched.mask ‹Watched›) r.mask with _ | v
          · simp [hd] at hy
          · simp only [hd, Option.map_some, id] at hy
            rw [List.mem_singleton.1 hy]; rfl
    exact ⟨hft _ _ hms, hft _ _ h⟩
  congr 1
  rcases x with ⟨xe, xp, xd, xt⟩
  rcases ei with ⟨ee, ep, ed, et⟩
  simp only at *
  simp only [EventInfo.mk.injEq]
  refine ⟨by simpa using hev, ?_, hxd.trans hed.symm, hxt.1.trans hxt.2.symm⟩
  rw [hxp, hep, hp]

/-- A watch for Create, extended by InMovedTo. -/
example : ({ event := 0x100000, path := [['d'], ['x']] } : EventInfo) ∈
    sent [(7, ⟨[['d']], 0x100000⟩)] [{ wd := 7, mask := 0x80, name := ['x'] }] ∧
    (0x100000 : Event) ⊑ 0x100080 ∧ accepts 0x100080 = true := by decide

end Inotify
end Verif
