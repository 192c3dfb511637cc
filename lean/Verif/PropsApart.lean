/-
Linux and macOS: a call of the watcher for one path leaves the other watched paths alone (C127).
-/
import Verif.PropsInotify2
import Verif.PropsFsevents2

namespace Verif
namespace Inotify

/-- A call of the watcher for a path; Rewatch is as Watch. -/
inductive CallFor (p : Path) (s : St) : St → Prop
  | watch (fail : Bool) (e : Event) : CallFor p s (watch fail s p e).1
  | unwatch : CallFor p s (unwatch s p).1

/-- A descriptor of another path, not on the file that `p` leads to. -/
def NotOf (p : Path) (s : St) (wd : Nat) : Prop :=
  (∀ w, s.m.get? wd = some w → w.path ≠ p) ∧ (∀ k, s.watches.get? wd = some k → s.inode p ≠ some k.inode) ∧ wd < s.next

/-- **C127, Linux.**  In every history, also with files removed and made again: a call for a path, whether it succeeds or fails, leaves every descriptor of
another path on another file in the table and with the kernel, mask included. -/
theorem C127_linux {stable : Bool} {s s' : St} (h : Reach stable s) {p : Path} (hs : CallFor p s s') {wd : Nat} (hw : NotOf p s wd) :
    s'.m.get? wd = s.m.get? wd ∧ s'.watches.get? wd = s.watches.get? wd := by
  obtain ⟨h1, h2, h3⟩ := hw
  cases hs with
  | watch fail e =>
    rcases hu : watch fail s p e with ⟨t, ok⟩
    cases ok with
    | false => obtain rfl := watch_err hu; exact ⟨rfl, rfl⟩
    | true =>
      obtain ⟨ino, wd', n, hi, _, _, _, _, rfl, hk⟩ := watch_ok h.base hu
      have hne : wd' ≠ wd := by
        rintro rfl
        rcases hk with ⟨k, hk, rfl⟩ | ⟨rfl, _⟩
        · exact h2 k hk hi
        · exact Nat.lt_irrefl _ h3
      simp only [GoMap.get?_set, if_neg hne, and_self]
  | unwatch =>
    rcases hu : unwatch s p with ⟨t, ok⟩
    cases ok with
    | false => obtain ⟨rfl, _⟩ := unwatch_err h.base hu; exact ⟨rfl, rfl⟩
    | true =>
      obtain ⟨wd', w, hw, hp, rfl⟩ := unwatch_ok h.base hu
      have hne : wd' ≠ wd := by
        rintro rfl
        exact h1 w hw hp
      simp only [GoMap.get?_del, if_neg hne, and_self]

/-- **C127, Linux, events.**  What the kernel reports for such descriptors is translated as before. -/
theorem C127_events {stable : Bool} {s s' : St} (h : Reach stable s) {p : Path} (hs : CallFor p s s') (es : List Raw) (hes : ∀ r ∈ es, NotOf p s r.wd) :
    sent s'.m es = sent s.m es := by
  have h1 : ∀ r ∈ es, transform1 s'.m r = transform1 s.m r := fun r hr => by
    unfold transform1
    rw [(C127_linux h hs (hes r hr)).1]
  have h2 : es.map (fun r => (transform1 s'.m r).1) = es.map (fun r => (transform1 s.m r).1) := List.map_congr_left fun r hr => by rw [h1 r hr]
  have h3 : es.flatMap (fun r => (transform1 s'.m r).2) = es.flatMap (fun r => (transform1 s.m r).2) := by
    unfold List.flatMap
    rw [List.map_congr_left (g := fun r => (transform1 s.m r).2) fun r hr => by rw [h1 r hr]]
  unfold sent transform
  rw [h2, h3]

/-- Without the hypothesis on the file it is false: two names of one file share a descriptor (C103). -/
theorem C127_links_refuted : ¬ ∀ (s : St), Reach true s → ∀ (p : Path) (s' : St), CallFor p s s' → ∀ wd w, s.m.get? wd = some w → w.path ≠ p →
    s'.m.get? wd = some w := by
  intro h
  have := h (watch false { inode := fun _ => some 1 } [['a']] create).1 (.step (.init _) (.watch false _ _)) [['b']] _ (.watch false write) 1 ⟨[['a']], create⟩
    (by decide) (by decide)
  exact absurd this (by decide)

namespace ApartEx

/-- Two files; the first is watched, removed and made again, then the second is watched. -/
def fs (n : Nat) : Path → Option Nat := fun p => if p = [['a']] then some n else if p = [['b']] then some 5 else none
def s0 : St := (watch false { inode := fs 1 } [['a']] create).1
def s1 : St := { s0 with inode := fs 2, watches := s0.watches.filter (fun p => p.2.inode == 2 || p.2.inode == 5) }
def s2 : St := (watch false s1 [['b']] write).1

theorem reach2 : Reach false s2 := by
  refine .step (.step (.step (.init (fs 1)) (.watch false [['a']] create)) (.fs (s' := s1) ?_ (by intro h; cases h))) (.watch false [['b']] write)
  refine FsStep.mk s0 (fs 2) (fun n => n == 2 || n == 5) fun ino => ?_
  constructor
  · intro h
    simp only [Bool.or_eq_true, beq_iff_eq] at h
    rcases h with rfl | rfl
    · exact ⟨[['a']], by decide⟩
    · exact ⟨[['b']], by decide⟩
  · rintro ⟨p, hp⟩
    unfold fs at hp
    split at hp
    · obtain rfl := Option.some.inj hp; rfl
    · split at hp
      · obtain rfl := Option.some.inj hp; rfl
      · cases hp

/-- The hypotheses are met by the second file and calls for the first; a Watch of the first gets a new descriptor, and Unwatch removes the stale one. -/
example : Reach false s2 ∧ NotOf [['a']] s2 2 ∧ s2.m.get? 2 = some ⟨[['b']], write⟩ ∧ (watch false s2 [['a']] write).1.m.get? 3 = some ⟨[['a']], write⟩ ∧
    (unwatch s2 [['a']]).2 = true ∧ (sent s2.m [⟨2, inModify, 0, []⟩]).length = 1 := by
  refine ⟨reach2, ⟨?_, ?_, by decide⟩, by decide, by decide, by decide, by decide⟩
  · intro w hw
    have : s2.m.get? 2 = some ⟨[['b']], write⟩ := by decide
    rw [this] at hw
    obtain rfl := Option.some.inj hw
    decide
  · intro k hk
    have : s2.watches.get? 2 = some ⟨5, encode write, [['b']]⟩ := by decide
    rw [this] at hk
    obtain rfl := Option.some.inj hk
    decide
end ApartEx
end Inotify

namespace Fsevents

/-- The paths a call is about. -/
def pathsOf : Call → List Path
  | .watch p _ => [p]
  | .unwatch p => [p]
  | .rewatch p _ _ => [p]
  | .recWatch p _ => [p]
  | .recUnwatch p => [p]
  | .recRewatch p p' _ _ => [p, p']

/-- **C127, macOS.**  A call, whether it succeeds or fails, leaves the watches of all paths it is not about: their sets, whether they are recursive, and what
they remember of earlier events. -/
theorem C127_macos (start : Bool) (t : Table) (c : Call) (q : Path) (hq : q ∉ pathsOf c) : (serve start t c).1.get? q = t.get? q := by
  have hw : ∀ t p e r, p ≠ q → (watch start t p e r).1.get? q = t.get? q := fun t p e r hp => by
    unfold watch
    split
    · rfl
    · split
      · simp only [GoMap.get?_set, if_neg hp]
      · rfl
  have hu : ∀ t p, p ≠ q → (unwatch t p).1.get? q = t.get? q := fun t p hp => by
    unfold unwatch
    split
    · rfl
    · simp only [GoMap.get?_del, if_neg hp]
  cases c with
  | watch p e => exact hw t p e _ (by simpa [pathsOf, eq_comm] using hq)
  | recWatch p e => exact hw t p e _ (by simpa [pathsOf, eq_comm] using hq)
  | unwatch p => exact hu t p (by simpa [pathsOf, eq_comm] using hq)
  | recUnwatch p => exact hu t p (by simpa [pathsOf, eq_comm] using hq)
  | rewatch p old new =>
    have hp : p ≠ q := by simpa [pathsOf, eq_comm] using hq
    show (rewatch t p old new).1.get? q = t.get? q
    unfold rewatch
    split
    · rfl
    · split
      · simp only [GoMap.get?_set, if_neg hp]
      · rfl
  | recRewatch p p' e e' =>
    have hp : p ≠ q ∧ p' ≠ q := by simpa [pathsOf, eq_comm] using hq
    show (recRewatch start t p p' e e').1.get? q = t.get? q
    unfold recRewatch
    split
    · split
      · split
        · rfl
        · simp only [GoMap.get?_set, if_neg hp.1]
      · split
        · rfl
        · split
          · simp only [GoMap.get?_set, if_neg hp.1]
          · rfl
    · split
      · rfl
      · simp only
        split
        · exact hu t p hp.1
        · rw [hw _ p' _ _ hp.2]; exact hu t p hp.1

namespace ApartEx
/-- A relocation that fails removes the old watch (C49) but not that of a third path. -/
example : let t : Table := (serve true (serve true [] (.watch [['a'], ['b']] created)).1 (.watch [['c']] removed)).1
    let r := serve false t (.recRewatch [['a'], ['b']] [['a']] created created)
    [['c']] ∉ pathsOf (.recRewatch [['a'], ['b']] [['a']] created created) ∧ r.2 = false ∧ (t.get? [['a'], ['b']]).isSome = true ∧
    (r.1.get? [['a'], ['b']]).isSome = false ∧ (r.1.get? [['c']]).isSome = true := by decide
end ApartEx
end Fsevents
end Verif
