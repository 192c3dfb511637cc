/-
kqueue: descriptors (C54).  The watcher opens one descriptor for every path it watches.
-/
import Verif.PropsTrigger3

namespace Verif
namespace Trg
open Spec.Trg Event WP

/-- What is expected of the descriptors: those of the table are open and belong to one path each; each descriptor has been
opened once, and closed at most once, after it was opened. -/
structure Fds (s : St) : Prop where
  bound : ∀ p w, s.lkp.get? p = some w → w.fd < s.next
  inj : ∀ p q w w', s.lkp.get? p = some w → s.lkp.get? q = some w' → w.fd = w'.fd → p = q
  live : ∀ p w, s.lkp.get? p = some w → FdEv.closed w.fd ∉ s.log
  once : ∀ fd, s.log.count (FdEv.closed fd) ≤ 1
  only : ∀ fd, FdEv.closed fd ∈ s.log → fd < s.next
  opens : ∀ fd, s.log.count (FdEv.opened fd) = if fd < s.next then 1 else 0

/-- Every descriptor that was opened is closed or belongs to a path of the table. -/
def Full (s : St) : Prop :=
  ∀ fd, fd < s.next → FdEv.closed fd ∈ s.log ∨ ∃ p w, s.lkp.get? p = some w ∧ w.fd = fd

theorem add_fd (w : W) (m : Mode) (e : Event) : (w.add m e).fd = w.fd := by cases m <;> rfl
theorem sub_fd (w : W) (m : Mode) : (w.sub m).fd = w.fd := by cases m <;> rfl

theorem Fds.fresh {s : St} (h : Fds s) : FdEv.closed s.next ∉ s.log := fun hc => absurd (h.only _ hc) (Nat.lt_irrefl _)

/-- An entry changes, its descriptor stays. -/
theorem Fds.set {s : St} (h : Fds s) {p : Path} {w w' : W} (hw : s.lkp.get? p = some w) (hfd : w'.fd = w.fd) (n : GoMap Path Event) :
    Fds { s with lkp := s.lkp.set p w', nat := n } := by
  have key : ∀ q v, (s.lkp.set p w').get? q = some v → ∃ v', s.lkp.get? q = some v' ∧ v'.fd = v.fd := by
    intro q v hq
    rw [GoMap.get?_set] at hq
    split at hq
    · rename_i hpq
      subst hpq
      cases hq
      exact ⟨w, hw, hfd.symm⟩
    · exact ⟨v, hq, rfl⟩
  refine ⟨?_, ?_, ?_, h.once, h.only, h.opens⟩
  · intro q v hq
    obtain ⟨v', h1, h2⟩ := key q v hq
    rw [← h2]; exact h.bound q v' h1
  · intro q r v u hq hr hf
    obtain ⟨v', h1, h2⟩ := key q v hq
    obtain ⟨u', h3, h4⟩ := key r u hr
    exact h.inj q r v' u' h1 h3 (h2.trans (hf.trans h4.symm))
  · intro q v hq
    obtain ⟨v', h1, h2⟩ := key q v hq
    rw [← h2]; exact h.live q v' h1

theorem Full.set {s : St} (h : Full s) {p : Path} {w w' : W} (hw : s.lkp.get? p = some w) (hfd : w'.fd = w.fd) (n : GoMap Path Event) :
    Full { s with lkp := s.lkp.set p w', nat := n } := by
  intro fd hlt
  rcases h fd hlt with hc | ⟨q, v, h1, h2⟩
  · exact .inl hc
  · right
    by_cases hq : p = q
    · subst hq
      rw [hw] at h1
      cases h1
      exact ⟨p, w', by simp [GoMap.get?_set], hfd.trans h2⟩
    · exact ⟨q, v, by simp [GoMap.get?_set, hq, h1], h2⟩

/-- A descriptor is opened. -/
theorem Fds.opened {s : St} (h : Fds s) :
    Fds { s with next := s.next + 1, log := s.log ++ [FdEv.opened s.next] } := by
  refine ⟨?_, h.inj, ?_, ?_, ?_, ?_⟩
  · intro p w hw; exact Nat.lt_succ_of_lt (h.bound p w hw)
  · intro p w hw hm
    rcases List.mem_append.1 hm with hm | hm
    · exact h.live p w hw hm
    · simp at hm
  · intro fd
    rw [List.count_append]
    simpa using h.once fd
  · intro fd hm
    rcases List.mem_append.1 hm with hm | hm
    · exact Nat.lt_succ_of_lt (h.only fd hm)
    · simp at hm
  · intro fd
    simp only
    rw [List.count_append, h.opens]
    by_cases hf : fd = s.next
    · subst hf; simp
    · have : ¬ s.next = fd := fun h => hf h.symm
      simp [List.count_cons, this]
      by_cases hlt : fd < s.next
      · simp [hlt, Nat.lt_succ_of_lt hlt]
      · simp [hlt]; omega

/-- The new descriptor gets an entry. -/
theorem Fds.record {s : St} (h : Fds s) {p : Path} (hp : s.lkp.get? p = none) {w : W} (hw : w.fd < s.next)
    (hc : FdEv.closed w.fd ∉ s.log) (hn : ∀ q v, s.lkp.get? q = some v → v.fd ≠ w.fd) (n : GoMap Path Event) :
    Fds { s with lkp := s.lkp.set p w, nat := n } := by
  refine ⟨?_, ?_, ?_, h.once, h.only, h.opens⟩
  · intro q v hq
    simp only [GoMap.get?_set] at hq
    split at hq
    · cases hq; exact hw
    · exact h.bound q v hq
  · intro q r v u hq hr hf
    simp only [GoMap.get?_set] at hq hr
    split at hq
    · rename_i h1
      split at hr
      · rename_i h2; exact h1.symm.trans h2
      · cases hq; exact absurd hf.symm (hn r u hr)
    · split at hr
      · cases hr; exact absurd hf (hn q v hq)
      · exact h.inj q r v u hq hr hf
  · intro q v hq
    simp only [GoMap.get?_set] at hq
    split at hq
    · cases hq; exact hc
    · exact h.live q v hq

/-- An entry is removed and its descriptor closed. -/
theorem Fds.del {s : St} (h : Fds s) (N : Native) {p : Path} {w w' : W} (hw : s.lkp.get? p = some w') (hfd : w.fd = w'.fd) :
    Fds (del N s p w) := by
  have hcl := h.live p w' hw
  refine ⟨?_, ?_, ?_, ?_, ?_, ?_⟩
  · intro q v hq
    simp only [Trg.del, GoMap.get?_del] at hq
    split at hq
    · cases hq
    · exact h.bound q v hq
  · intro q r v u hq hr hf
    simp only [Trg.del, GoMap.get?_del] at hq hr
    split at hq
    · cases hq
    · split at hr
      · cases hr
      · exact h.inj q r v u hq hr hf
  · intro q v hq hm
    simp only [Trg.del, GoMap.get?_del] at hq hm
    split at hq
    · cases hq
    · rename_i hpq
      rcases List.mem_append.1 hm with hm | hm
      · exact h.live q v hq hm
      · have : v.fd = w.fd := by simpa using hm
        exact hpq (h.inj p q w' v hw hq (hfd.symm.trans this.symm))
  · intro fd
    simp only [Trg.del]
    rw [List.count_append]
    by_cases hf : fd = w.fd
    · subst hf
      rw [hfd, List.count_eq_zero_of_not_mem hcl]
      simp
    · have : ¬ w.fd = fd := fun h => hf h.symm
      have h1 := h.once fd
      simpa [List.count_cons, this] using h1
  · intro fd hm
    simp only [Trg.del] at hm ⊢
    rcases List.mem_append.1 hm with hm | hm
    · exact h.only fd hm
    · have : fd = w.fd := by simpa using hm
      rw [this, hfd]
      exact h.bound p w' hw
  · intro fd
    simp only [Trg.del]
    rw [List.count_append, h.opens]
    simp
    rfl

theorem Full.del {s : St} (h : Full s) (N : Native) {p : Path} {w w' : W} (hw : s.lkp.get? p = some w') (hfd : w.fd = w'.fd) :
    Full (del N s p w) := by
  intro fd hlt
  simp only [Trg.del] at hlt ⊢
  rcases h fd hlt with hc | ⟨q, v, h1, h2⟩
  · exact .inl (List.mem_append.2 (.inl hc))
  · by_cases hq : p = q
    · subst hq
      rw [hw] at h1
      cases h1
      left
      exact List.mem_append.2 (.inr (by simp [← h2, hfd]))
    · right
      exact ⟨q, v, by simp [GoMap.get?_del, hq, h1], h2⟩

/-- What the functions keep; `b` tells whether every registration succeeds. -/
structure Keep (b : Bool) (s : St) : Prop where
  fds : Fds s
  full : b = true → Full s

theorem Keep.nat {b : Bool} {s : St} (h : Keep b s) (n : GoMap Path Event) : Keep b { s with nat := n } :=
  ⟨⟨h.fds.bound, h.fds.inj, h.fds.live, h.fds.once, h.fds.only, h.fds.opens⟩, fun hb => h.full hb⟩

/-- Registrations succeed if `b`. -/
def RegOk (b : Bool) (E : Env) : Prop := b = true → ∀ q, E.reg q = true

theorem Keep.singlewatch {b : Bool} {s : St} (h : Keep b s) (N : Native) {E : Env} (hE : RegOk b E) (p : Path) (e : Event)
    (m : Mode) (d : Bool) : Keep b (singlewatch N E s p e m d).1 := by
  unfold Trg.singlewatch
  cases hp : s.lkp.get? p with
  | none =>
    simp only
    cases ho : E.opn p with
    | skip => exact h
    | err x => exact h
    | ok =>
      simp only
      have h1 := h.fds.opened
      cases hr : E.reg p with
      | true =>
        simp only [if_true]
        have hfd : (W.add { fd := s.next, isDir := d } m e).fd = s.next := add_fd _ _ _
        refine ⟨?_, ?_⟩
        · refine h1.record hp (w := W.add { fd := s.next, isDir := d } m e) ?_ ?_ ?_ _
          · rw [hfd]; exact Nat.lt_succ_self _
          · rw [hfd]
            intro hm
            rcases List.mem_append.1 hm with hm | hm
            · exact h.fds.fresh hm
            · simp at hm
          · intro q v hq
            rw [hfd]
            exact Nat.ne_of_lt (h.fds.bound q v hq)
        · intro hb fd hlt
          simp only at hlt ⊢
          by_cases hf : fd = s.next
          · right
            exact ⟨p, _, by simp [GoMap.get?_set]; rfl, by rw [hf]; exact hfd⟩
          · rcases h.full hb fd (by omega) with hc | ⟨q, v, h2, h3⟩
            · exact .inl (List.mem_append.2 (.inl hc))
            · right
              have hq : ¬ p = q := by
                intro hpq; subst hpq; rw [hp] at h2; cases h2
              exact ⟨q, v, by simp [GoMap.get?_set, hq, h2], h3⟩
      | false =>
        simp only [Bool.false_eq_true, if_false]
        refine ⟨h1, fun hb => ?_⟩
        rw [hE hb p] at hr
        cases hr
  | some w =>
    simp only
    split
    · exact ⟨h.fds.set hp (add_fd _ _ _) _, fun hb => (h.full hb).set hp (add_fd _ _ _) _⟩
    · exact ⟨h.fds.set hp (add_fd _ _ _) _, fun hb => (h.full hb).set hp (add_fd _ _ _) _⟩

theorem Keep.singleunwatch {b : Bool} {s : St} (h : Keep b s) (N : Native) {E : Env} (hE : RegOk b E) (p : Path)
    (m : Mode) : Keep b (singleunwatch N E s p m).1 := by
  unfold Trg.singleunwatch
  cases hp : s.lkp.get? p with
  | none => exact h
  | some w =>
    simp only
    have h1 : ∀ n, Keep b { s with lkp := s.lkp.set p (w.sub m), nat := n } := fun n =>
      ⟨h.fds.set hp (sub_fd _ _) n, fun hb => (h.full hb).set hp (sub_fd _ _) n⟩
    split
    · split
      · have h2 := (h1 (s.nat.del p)).singlewatch N hE p ((w.sub m).eNonDir ||| (w.sub m).eDir)
          (if (w.sub m).eNonDir ≠ 0 then Mode.ndir else Mode.dir) (w.sub m).isDir
        split <;> (rename_i heq; rw [heq] at h2; exact h2)
      · have h2 := h1 (s.nat.del p)
        have hg : ({ s with lkp := s.lkp.set p (w.sub m), nat := s.nat.del p } : St).lkp.get? p = some (w.sub m) := by
          simp [GoMap.get?_set]
        exact ⟨h2.fds.del N hg rfl, fun hb => (h2.full hb).del N hg rfl⟩
    · exact h1 s.nat

theorem Keep.walkLoop {b : Bool} {f : St → Comp × Bool → St × Res} (hf : ∀ s x, Keep b s → Keep b (f s x).1) :
    ∀ (l : List (Comp × Bool)) {s : St}, Keep b s → Keep b (walkLoop f s l).1
  | [], s, h => h
  | x :: l, s, h => by
    rw [Trg.walkLoop]
    have h1 := hf s x h
    split
    · rename_i heq
      rw [heq] at h1
      exact Keep.walkLoop hf l h1
    · rename_i heq
      rw [heq] at h1
      exact h1

theorem Keep.walk {b : Bool} {f : St → Comp × Bool → St × Res} (hf : ∀ s x, Keep b s → Keep b (f s x).1) (E : Env) (p : Path)
    {s : St} (h : Keep b s) : Keep b (walk E p f s).1 := by
  unfold Trg.walk
  split
  · exact h
  · exact Keep.walkLoop hf _ h

theorem Keep.watch {b : Bool} {s : St} (h : Keep b s) (N : Native) {E : Env} (hE : RegOk b E) (p : Path) (e : Event) (d : Bool) :
    Keep b (watch N E s p e d).1 := by
  unfold Trg.watch
  have h1 := h.singlewatch N hE p e .dir d
  split
  · rename_i heq; rw [heq] at h1; exact h1
  · rename_i heq; rw [heq] at h1; exact h1
  · rename_i heq
    rw [heq] at h1
    split
    · refine Keep.walk ?_ E p h1
      intro s x hs
      unfold watchKid
      have h2 := hs.singlewatch N hE (join p x.1) e .ndir x.2
      split
      · rename_i heq; rw [heq] at h2; exact h2
      · exact h2
    · exact h1

theorem Keep.unwatch {b : Bool} {s : St} (h : Keep b s) (N : Native) {E : Env} (hE : RegOk b E) (p : Path) (d : Bool) :
    Keep b (unwatch N E s p d).1 := by
  unfold Trg.unwatch
  split
  · have h1 : Keep b (Trg.walk E p (unwatchKid N E p) s).1 := by
      refine Keep.walk ?_ E p h
      intro s x hs
      unfold unwatchKid
      have h2 := hs.singleunwatch N hE (join p x.1) .ndir
      split
      · rename_i heq; rw [heq] at h2; exact h2
      · exact h2
    split
    · rename_i heq
      rw [heq] at h1
      exact h1.singleunwatch N hE p .dir
    · exact h1
  · exact h.singleunwatch N hE p .dir

theorem Keep.scan {b : Bool} (N : Native) {E : Env} (hE : RegOk b E) (p : Path) (w : W) : ∀ (l : List (Comp × Bool))
    {n : St × List Ev}, Keep b n.1 → Keep b (l.foldl (fun n x => (scanKid N E p w n x).1) n).1
  | [], _, h => h
  | x :: l, n, h => by
    rw [List.foldl_cons]
    apply Keep.scan N hE p w l
    rw [scanKid_eq]
    exact h.singlewatch N hE _ _ _ _

/-- The histories of the watcher: calls of the tree and notifications of the OS, each with what the OS answers. -/
inductive TOp
  | watch (p : Path) (e : Event)
  | unwatch (p : Path)
  | rewatch (p : Path) (e : Event)
  | notify (p : Path) (ge : Event)

def step (N : Native) (E : Env) (s : St) : TOp → St
  | .watch p e => (Watch N E s p e).1
  | .unwatch p => (Unwatch N E s p).1
  | .rewatch p e => (Rewatch N E s p e).1
  | .notify p ge => (process N E (retrieved N s p) p ge).1

def run (N : Native) : St → List (Env × TOp) → St
  | s, [] => s
  | s, x :: xs => run N (step N x.1 s x.2) xs

/-- Not the removal or renaming of a watched directory. -/
def Calm (N : Native) (s : St) : TOp → Prop
  | .notify p ge => ∀ w, s.lkp.get? p = some w → w.isDir = true → ge &&& (N.nRemove ||| N.nRename) = 0
  | _ => True

theorem Keep.renew {b : Bool} {s : St} (h : Keep b s) (N : Native) {E : Env} {p : Path} {w : W}
    (hw : s.lkp.get? p = some w) (ge : Event) :
    Keep b (renew N E s p w ge) ∧ (ge &&& (N.nRemove ||| N.nRename) ≠ 0 → renew N E s p w ge = s) := by
  unfold Trg.renew
  constructor
  · split
    · split
      · exact h
      · split
        · exact h.nat _
        · exact ⟨h.fds.del N hw rfl, fun hb => (h.full hb).del N hw rfl⟩
    · exact h
  · intro hne
    rw [if_neg hne]

theorem Keep.step {b : Bool} {s : St} (h : Keep b s) (N : Native) {E : Env} (hE : RegOk b E) {o : TOp} (hc : Calm N s o) :
    Keep b (step N E s o) := by
  cases o with
  | watch p e =>
    simp only [Trg.step, Watch]
    split
    · exact h
    · exact h.watch N hE _ _ _
  | unwatch p =>
    simp only [Trg.step, Unwatch]
    split
    · exact h
    · exact h.unwatch N hE _ _
  | rewatch p e =>
    simp only [Trg.step, Rewatch]
    split
    · exact h
    · rename_i d _
      have h1 := h.unwatch N hE p d
      split
      · rename_i heq
        rw [heq] at h1
        exact h1.watch N hE _ _ _
      · rename_i heq
        rw [heq] at h1
        exact h1
  | notify p ge =>
    simp only [Trg.step]
    have h := h.nat (if N.oneShot then s.nat.del p else s.nat)
    change Keep b (retrieved N s p) at h
    have hc : Calm N (retrieved N s p) (.notify p ge) := hc
    generalize retrieved N s p = s at h hc ⊢
    unfold process
    cases hw : s.lkp.get? p with
    | none => exact h
    | some w =>
      simp only
      obtain ⟨h1, h2⟩ := h.renew N (E := E) hw ge
      split
      · exact h1
      · cases hd : w.isDir with
        | true =>
          have h0 := hc w hw hd
          have h0' : ge &&& (N.nRename ||| N.nRemove) = 0 := by rw [BitVec.or_comm]; exact h0
          rw [if_neg (by simp [h0])]
          simp only [if_true]
          unfold dir
          rw [if_neg (by simp [h0'])]
          split
          · unfold Trg.walk
            split
            · exact h1
            · rw [scan_fold]
              exact Keep.scan N hE p w _ h1
          · exact h1
        | false =>
          simp only [Bool.false_eq_true, if_false]
          split
          · rename_i hne
            rw [h2 hne]
            exact ⟨h.fds.del N hw rfl, fun hb => (h.full hb).del N hw rfl⟩
          · exact h1

/-- Every step of a history is calm. -/
def AllCalm (N : Native) : St → List (Env × TOp) → Prop
  | _, [] => True
  | s, x :: xs => Calm N s x.2 ∧ AllCalm N (step N x.1 s x.2) xs

theorem Keep.run {b : Bool} (N : Native) : ∀ (xs : List (Env × TOp)) {s : St}, Keep b s → (∀ x ∈ xs, RegOk b x.1) →
    AllCalm N s xs → Keep b (run N s xs)
  | [], _, h, _, _ => h
  | x :: xs, _, h, hE, hc =>
    Keep.run N xs (h.step N (hE x List.mem_cons_self) hc.1) (fun y hy => hE y (List.mem_cons_of_mem _ hy)) hc.2

theorem keep_init (b : Bool) : Keep b {} :=
  ⟨⟨by simp, by simp, by simp, by simp, by simp, by simp⟩, by intro _ fd h; simp at h⟩

/-- **C54 (partial).**  In every history of calls and notifications, whatever the OS answers, in which no watched directory
is removed or renamed: no descriptor is closed twice, and the descriptors of the table are open and belong to one path each.
The full claim has no such exception; see `C54_refuted`. -/
theorem C54_once_partial (N : Native) (xs : List (Env × TOp)) (hc : AllCalm N {} xs) :
    (∀ fd, (run N {} xs).log.count (FdEv.closed fd) ≤ 1) ∧
    (∀ p w, (run N {} xs).lkp.get? p = some w →
      (run N {} xs).log.count (FdEv.opened w.fd) = 1 ∧ FdEv.closed w.fd ∉ (run N {} xs).log) ∧
    (∀ p q w w', (run N {} xs).lkp.get? p = some w → (run N {} xs).lkp.get? q = some w' → w.fd = w'.fd → p = q) := by
  have h := Keep.run N xs (keep_init false) (fun x _ hb => by cases hb) hc
  refine ⟨h.fds.once, fun p w hw => ⟨?_, h.fds.live p w hw⟩, h.fds.inj⟩
  rw [h.fds.opens, if_pos (h.fds.bound p w hw)]

/-- **C54, nothing is left open (partial).**  If moreover every registration with the kernel succeeds, each descriptor that
was opened and not closed belongs to a path of the table; so when the table is empty, all descriptors are closed. -/
theorem C54_closed_partial (N : Native) (xs : List (Env × TOp)) (hE : ∀ x ∈ xs, ∀ q, x.1.reg q = true)
    (hc : AllCalm N {} xs) (fd : Nat) (hop : FdEv.opened fd ∈ (run N {} xs).log) :
    FdEv.closed fd ∈ (run N {} xs).log ∨ ∃ p w, (run N {} xs).lkp.get? p = some w ∧ w.fd = fd := by
  have h := Keep.run N xs (keep_init true) (fun x hx _ => hE x hx) hc
  refine h.full rfl fd ?_
  have h1 := h.fds.opens fd
  have h2 := List.count_pos_iff.2 hop
  split at h1
  · assumption
  · omega

namespace Ex

/-- `/d` holds the file `/d/f`; `/d` is watched for Write, the file is written, and `/d` is unwatched. -/
def h4 : List (Env × TOp) :=
  [(dirOf .ok [['f']], .watch [['d']] 0x400), (dirOf .ok [['f']], .notify [['d'], ['f']] 0x2),
   (dirOf .ok [['f'], ['g']], .notify [['d']] 0x2), (dirOf .ok [['f'], ['g']], .unwatch [['d']])]

theorem calm4 : AllCalm kqueue {} h4 := by
  refine ⟨trivial, ?_, ?_, trivial, trivial⟩
  · intro w hw _; rfl
  · intro w hw _; rfl

/-- `C54_closed_partial` applies: three descriptors are opened and closed again. -/
example : (run kqueue {} h4).lkp.keys = [] ∧ (run kqueue {} h4).next = 3 := by decide

end Ex

/-- **C54 is false of the code**: when a watched directory is removed, its descriptor is closed twice.  The number may
belong to another file of the process by then. -/
theorem C54_refuted : (process kqueue (Ex.dirOf .ok []) (Watch kqueue (Ex.dirOf .ok []) {} [['d']] 0x200).1 [['d']] 0x1).1.log =
    [.opened 0, .closed 0, .closed 0] := by decide

/-- The same for every directory and every state: the removal closes the descriptor twice. -/
theorem C54_twice (N : Native) (E : Env) (s : St) (p : Path) (ge : Event) {w : W} (hw : s.lkp.get? p = some w)
    (hd : w.isDir = true) (hr : ge &&& N.nRemove ≠ 0) (hn : ge &&& N.nRename = 0) (he : decode N.nat2not ge w.all ≠ 0) :
    (process N E s p ge).1.log = s.log ++ [.closed w.fd, .closed w.fd] := by
  have h1 : ge &&& (N.nRemove ||| N.nRename) ≠ 0 := by
    obtain ⟨i, hi⟩ := ne_zero_iff.1 hr
    refine ne_zero_iff.2 ⟨i, ?_⟩
    simp only [BitVec.getLsbD_and, BitVec.getLsbD_or, Bool.and_eq_true, Bool.or_eq_true] at hi ⊢
    exact ⟨hi.1, .inl hi.2⟩
  have h2 : ge &&& (N.nRename ||| N.nRemove) ≠ 0 := by rw [BitVec.or_comm]; exact h1
  unfold process
  rw [hw]
  simp only
  rw [if_neg (fun h => he h.1), if_pos h1]
  simp only [hd, if_true]
  unfold dir renew
  rw [if_neg h1, if_pos h2]
  simp [hn, del]

/-- A descriptor is left open: the file can be opened but not registered. -/
theorem C54_leak_refuted : ∃ (E : Env) (p : Path) (e : Event), (Watch kqueue E {} p e).1.log = [.opened 0] ∧
    (Watch kqueue E {} p e).1.lkp = [] ∧ (Watch kqueue E {} p e).2 = .err false :=
  ⟨{ Ex.dirOf .ok [] with reg := fun _ => false }, [['d']], 0x400, by decide, by rfl, by decide⟩

end Trg
end Verif
