/-
C119: on Windows the watcher reads from and closes its own open handles only.

Two things that `Readdcw` leaves out.  First, `readDirChanges` loads the handle of the grip and then passes it to
ReadDirectoryChangesW (/repo/watcher_readdcw.go:113-129); the loop calls it without the watcher's lock (line 369), so that callers may
close the handle in between, and the system may give the number to a directory that is opened next.  Second, the calls of CloseHandle
(lines 104, 240), by which handle.  Here handles are counted, as in `Readdcw`, and `num` says which number the system gave to each; no two
handles that are open at the same time have the same.
-/
import Verif.PropsPathsWin

namespace Verif
namespace Dcw
open Platform (readdcw)

/-! ### Reading -/

/-- The watcher, and what the loop has loaded in `readDirChanges`: the grip and its handle. -/
structure HSt where
  s : St := {}
  loaded : Option (Nat × Nat) := none

/-- The numbers of open handles are different. -/
def Distinct (num : Nat → Nat) (s : St) : Prop := ∀ h ∈ s.opened, ∀ h' ∈ s.opened, num h = num h' → h = h'

/-- One step; `readDirChanges` in the loop takes two. -/
inductive HStep (num : Nat → Nat) (files : Files) : (Nat → Option Nat) → HSt → (Nat → Option Nat) → HSt → Prop
  /-- Anything but the call of `readDirChanges` in the loop. -/
  | other {made made' : Nat → Option Nat} {t : HSt} {s' : St} (h : FStep made files t.s made' s')
      (hl : ∀ g, t.s.loop = .got g → s'.loop = .got g) : HStep num files made t made' { t with s := s' }
  /-- The handle is loaded (watcher_readdcw.go:114). -/
  | load {made : Nat → Option Nat} {t : HSt} (g h : Nat) (hl : t.s.loop = .got g) (hn : t.loaded = none)
      (hh : (t.s.grips g).handle = some h) : HStep num files made t made { t with loaded := some (g, h) }
  /-- It is InvalidHandle (lines 115-117). -/
  | skip {made : Nat → Option Nat} {t : HSt} (g : Nat) (hl : t.s.loop = .got g) (hn : t.loaded = none)
      (hh : (t.s.grips g).handle = none) : HStep num files made t made { t with s := { t.s with loop := .st g } }
  /-- ReadDirectoryChangesW, on the open handle that has the number (lines 119-128). -/
  | read {made : Nat → Option Nat} {t : HSt} (g h h' : Nat) (hl : t.loaded = some (g, h)) (ho : h' ∈ t.s.opened) (hn : num h' = num h) :
      HStep num files made t made
        { s := { t.s with reads := t.s.reads ++ [⟨h', g, encode (t.s.grips g).filter, (t.s.grips g).recursive⟩], loop := .st g }, loaded := none }
  /-- It fails. -/
  | fail {made : Nat → Option Nat} {t : HSt} (g h : Nat) (hl : t.loaded = some (g, h)) :
      HStep num files made t made { s := { t.s with loop := .st g }, loaded := none }

/-- Executions from the start, while names lead to the same directories all the time. -/
inductive HRun (num : Nat → Nat) (files : Files) : (Nat → Option Nat) → HSt → Prop
  | init : HRun num files (fun _ => none) {}
  | step {made made' : Nat → Option Nat} {t t' : HSt} : HRun num files made t → HStep num files made t made' t' → Distinct num t'.s →
      HRun num files made' t'

/-- **C119** in full, for reads: every outstanding read is on a handle of the directory that the path of its grip leads to. -/
def C119_reads_full : Prop := ∀ (num : Nat → Nat) (files : Files) (made : Nat → Option Nat) (t : HSt), HRun num files made t →
  ∀ r ∈ t.s.reads, For made files t.s r.g r.h

structure HInv (made : Nat → Option Nat) (files : Files) (t : HSt) : Prop where
  leads : Leads made files t.s
  loaded : ∀ g h, t.loaded = some (g, h) → t.s.loop = .got g ∧ h < t.s.nh ∧ For made files t.s g h
  opened : ∀ h ∈ t.s.opened, h < t.s.nh

theorem opensAt_lt {files : Files} {p : Path} {n : Nat} {made : Nat → Option Nat} {h : Nat} (hh : h < n) : opensAt files p n made h = made h := by
  simp only [opensAt]; rw [if_neg (by omega)]

/-! What is opened has been counted. -/

/-- Handles are counted. -/
structure Counts (s s' : St) : Prop where
  nh : s.nh ≤ s'.nh
  opened : ∀ h ∈ s'.opened, h ∈ s.opened ∨ h < s'.nh

theorem Counts.rfl' {s : St} : Counts s s := ⟨Nat.le_refl _, fun _ h => .inl h⟩

theorem Counts.trans {a b c : St} (h : Counts a b) (h' : Counts b c) : Counts a c :=
  ⟨Nat.le_trans h.nh h'.nh, fun k hk => by
    rcases h'.opened k hk with h1 | h1
    · rcases h.opened k h1 with h2 | h2
      · exact .inl h2
      · exact .inr (Nat.lt_of_lt_of_le h2 h'.nh)
    · exact .inr h1⟩

theorem counts_eq {s s' : St} (h : s'.nh = s.nh) (ho : s'.opened = s.opened) : Counts s s' :=
  ⟨Nat.le_of_eq h.symm, fun _ hk => .inl (ho ▸ hk)⟩

theorem counts_readDirChanges (s : St) (g : Nat) (ok : Bool) : Counts s (readDirChanges s g ok).1 := by
  unfold readDirChanges
  split
  · exact .rfl'
  · split
    · exact counts_eq rfl rfl
    · exact .rfl'

theorem counts_register (s : St) (g : Nat) (a : Ans) : Counts s (register s g a).1 := by
  unfold register
  split
  · dsimp only
    split
    · refine Counts.trans (b := { ({ s.setGrip g { s.grips g with handle := some s.nh } with nh := s.nh + 1 } : St) with
          opened := s.nh :: s.opened }) ⟨?_, ?_⟩ (counts_readDirChanges _ g a.read)
      · simp
      · intro h hh
        rcases List.mem_cons.1 hh with rfl | hh
        · exact .inr (by simp)
        · exact .inl hh
    · exact ⟨by simp, fun h hh => .inl hh⟩
  · exact counts_eq rfl rfl

theorem counts_newGrip (s : St) (w : Nat) (f : Event) (a : Ans) : Counts s (newGrip s w f a).1 := by
  unfold newGrip
  dsimp only
  have h1 : Counts s { s.setGrip s.ng { filter := f, recursive := (s.wds w).recursive, path := (s.wds w).path, parent := w } with
      ng := s.ng + 1 } := counts_eq rfl rfl
  have h2 := h1.trans (counts_register _ s.ng a)
  generalize register { s.setGrip s.ng { filter := f, recursive := (s.wds w).recursive, path := (s.wds w).path, parent := w } with
      ng := s.ng + 1 } s.ng a = r at h2 ⊢
  split
  · split
    · exact h2.trans (counts_eq rfl rfl)
    · exact h2.trans (counts_eq rfl rfl)
  · exact h2

theorem counts_closeOne (s : St) (o : Option Nat) : Counts s (closeOne s o).1 := by
  unfold closeOne
  split
  · exact .rfl'
  · split
    · exact .rfl'
    · exact ⟨Nat.le_refl _, fun k hk => .inl (List.mem_filter.1 hk).1⟩

theorem counts_closeHandle (s : St) (w : Nat) : Counts s (closeHandle s w).1 :=
  (counts_closeOne s _).trans (counts_closeOne _ _)

theorem counts_updateGrip (s : St) (w : Nat) (i reset : Bool) (f : Event) (a : Ans) : Counts s (updateGrip s w i reset f a).1 := by
  unfold updateGrip
  split
  · exact counts_eq rfl rfl
  · split
    · have h := counts_newGrip s w f a
      generalize newGrip s w f a = r at h ⊢
      dsimp only
      split
      · exact h.trans (counts_eq rfl rfl)
      · have h' : Counts s (r.1.setWd w ((r.1.wds w).setSlot i r.2)) := h.trans (counts_eq rfl rfl)
        exact h'.trans (counts_closeHandle _ w)
    · next g hs =>
      have h0 : Counts s (s.setGrip g { s.grips g with filter := f, recursive := (s.wds w).recursive }) := counts_eq rfl rfl
      have h := h0.trans (counts_register _ g a)
      generalize register (s.setGrip g { s.grips g with filter := f, recursive := (s.wds w).recursive }) g a = r at h ⊢
      dsimp only
      split
      · exact h.trans (counts_eq rfl rfl)
      · exact h.trans (counts_closeHandle _ w)

theorem counts_recreate (s : St) (w : Nat) (a0 a1 : Ans) : Counts s (recreate s w a0 a1).1 := by
  unfold recreate
  have h := counts_updateGrip s w false (!hasFile (s.wds w).filter) (fileFilter (s.wds w).filter) a0
  dsimp only
  generalize updateGrip s w false (!hasFile (s.wds w).filter) (fileFilter (s.wds w).filter) a0 = r at h ⊢
  split
  · have h2 := h.trans (counts_updateGrip r.1 w true (!hasDir (r.1.wds w).filter) (dirFilter (r.1.wds w).filter) a1)
    generalize updateGrip r.1 w true (!hasDir (r.1.wds w).filter) (dirFilter (r.1.wds w).filter) a1 = q at h2 ⊢
    split
    · exact h2.trans (counts_eq rfl rfl)
    · exact h2
  · exact h

theorem Step.counts {s s' : St} {op : Op} (h : Step s op s') : Counts s s' := by
  cases h with
  | watch p e isrec a0 a1 =>
    unfold Dcw.watch
    split
    · split
      · exact counts_eq rfl rfl
      · have h := counts_recreate { s.setWd s.nw { filter := e, recursive := isrec, path := p } with nw := s.nw + 1 } s.nw a0 a1
        have h' : Counts s { s.setWd s.nw { filter := e, recursive := isrec, path := p } with nw := s.nw + 1 } := counts_eq rfl rfl
        dsimp only
        split
        · exact (h'.trans h).trans (counts_eq rfl rfl)
        · exact h'.trans h
    · exact .rfl'
  | rewatch p old new isrec s' ok hr =>
    unfold Dcw.rewatch at hr
    split at hr
    · split at hr
      · cases hr; exact .rfl'
      · next w hw =>
        split at hr
        · have h := counts_closeHandle (s.setWd w { s.wds w with filter := stRewatch ||| new, recursive := isrec }) w
          have h' : Counts s (s.setWd w { s.wds w with filter := stRewatch ||| new, recursive := isrec }) := counts_eq rfl rfl
          dsimp only at hr
          split at hr
          · cases hr; exact h'.trans h
          · cases hr; exact (h'.trans h).trans (counts_eq rfl rfl)
        · cases hr
    · cases hr; exact .rfl'
  | unwatch p gone =>
    unfold Dcw.unwatch
    split
    · exact .rfl'
    · dsimp only
      split <;> exact counts_eq rfl rfl
  | complete r hr => exact counts_eq rfl rfl
  | take =>
    unfold Dcw.take
    split
    · split <;> exact counts_eq rfl rfl
    · exact .rfl'
  | again ok =>
    unfold Dcw.again
    split
    · next g hg => exact (counts_readDirChanges s g ok).trans (counts_eq rfl rfl)
    · exact .rfl'
  | state a0 a1 s' hr =>
    unfold Dcw.loopstate at hr
    split at hr
    · next g hg =>
      dsimp only at hr
      have h1 : Counts s (({ s with loop := .idle } : St).setWd (s.grips g).parent
          { s.wds (s.grips g).parent with count := (s.wds (s.grips g).parent).count - 1 }) := counts_eq rfl rfl
      generalize (({ s with loop := .idle } : St).setWd (s.grips g).parent
          { s.wds (s.grips g).parent with count := (s.wds (s.grips g).parent).count - 1 }) = t at h1 hr
      have h2 := h1.trans (counts_recreate t (s.grips g).parent a0 a1)
      have h3 := h1.trans (counts_closeHandle t (s.grips g).parent)
      generalize recreate t (s.grips g).parent a0 a1 = t2 at h2 hr
      generalize closeHandle t (s.grips g).parent = t3 at h3 hr
      split at hr
      · injection hr with hr; subst hr; exact counts_eq rfl rfl
      · split at hr
        · split at hr
          · injection hr with hr; subst hr; exact h2
          · split at hr
            · injection hr with hr; subst hr; exact h3.trans (counts_eq rfl rfl)
            · cases hr
        · injection hr with hr; subst hr; exact h1
    · cases hr; exact .rfl'

theorem FStep.made_lt {made made' : Nat → Option Nat} {files : Files} {s s' : St} (h : FStep made files s made' s') {k : Nat} (hk : k < s.nh) :
    made' k = made k := by
  cases h with
  | watch p e isrec a0 a1 h0 h1 => exact opensAt_lt hk
  | state g a0 a1 s' hg h h0 h1 => exact opensAt_lt hk
  | _ => rfl

theorem HInv.step {num : Nat → Nat} (hnum : ∀ a b, num a = num b → a = b) {made made' : Nat → Option Nat} {files : Files} {t t' : HSt}
    (h : HInv made files t) (hs : HStep num files made t made' t') : HInv made' files t' := by
  cases hs with
  | @other _ _ s' hf hl =>
    obtain ⟨op, hst⟩ := hf.step
    have hc := hst.counts
    refine ⟨h.leads.step hf, fun g k hk => ?_, fun k hk => ?_⟩
    · obtain ⟨h1, h2, d, h3, h4⟩ := h.loaded g k hk
      refine ⟨hl g h1, Nat.lt_of_lt_of_le h2 hc.nh, d, ?_, ?_⟩
      · rw [hf.made_lt h2]; exact h3
      · show files (s'.grips g).path = some d
        rw [hst.keeps.path g (h.leads.loop g (.inl h1))]; exact h4
    · rcases hc.opened k hk with h1 | h1
      · exact Nat.lt_of_lt_of_le (h.opened k h1) hc.nh
      · exact h1
  | load g k hl hn hh =>
    refine ⟨h.leads, fun g' k' hk => ?_, h.opened⟩
    simp at hk
    obtain ⟨rfl, rfl⟩ := hk
    exact ⟨hl, (h.leads.handle g k hh).2⟩
  | skip g hl hn hh =>
    refine ⟨{ h.leads with loop := fun x hx => by simp at hx; subst hx; exact h.leads.loop g (.inl hl) }, fun g' k' hk => ?_, h.opened⟩
    rw [show t.loaded = some (g', k') from hk] at hn; cases hn
  | read g k k' hl ho hn =>
    obtain rfl := hnum _ _ hn
    obtain ⟨h1, h2, h3⟩ := h.loaded g k' hl
    have hg := h.leads.loop g (.inl h1)
    refine ⟨{ h.leads with read := ?_, loop := fun x hx => by simp at hx; subst hx; exact hg }, fun g' k'' hk => by simp at hk, h.opened⟩
    intro r hr
    rcases List.mem_append.1 hr with hr | hr
    · exact h.leads.read r hr
    · simp at hr; subst hr; exact ⟨hg, h2, h3⟩
  | fail g k hl =>
    obtain ⟨h1, h2, h3⟩ := h.loaded g k hl
    have hg := h.leads.loop g (.inl h1)
    exact ⟨{ h.leads with loop := fun x hx => by simp at hx; subst hx; exact hg }, fun g' k'' hk => by simp at hk, h.opened⟩

/-- **C119, partial**, for reads: it holds if the system never gives a number twice.  Missing: numbers that are used again, see
`C119_reads_refuted`. -/
theorem C119_reads_partial {num : Nat → Nat} (hnum : ∀ a b, num a = num b → a = b) {files : Files} {made : Nat → Option Nat} {t : HSt}
    (h : HRun num files made t) : ∀ r ∈ t.s.reads, For made files t.s r.g r.h := by
  have key : HInv made files t := by
    induction h with
    | init => exact ⟨(FRun.init files).leads, fun g k hk => by simp at hk, fun k hk => by simp at hk⟩
    | step _ h2 _ ih => exact ih.step hnum h2
  intro r hr
  exact (key.leads.read r hr).2.2

namespace HandleEx

/-- Two directories. -/
def files : Files := fun p => if p = [['d']] then some 1 else if p = [['e']] then some 2 else none
def made1 : Nat → Option Nat := opensAt files [['d']] 0 (fun _ => none)
/-- The second handle has the number of the first. -/
def same : Nat → Nat := fun h => if h = 1 then 0 else h
def s1 : St := (watch St.init [['d']] readdcw.write false {} {}).1
def r1 : Read := ⟨0, 0, encode readdcw.write, false⟩
/-- The loop has taken a packet of `/d`. -/
def s2 : St := take (complete s1 r1)
/-- It reads again. -/
def t3 : HSt := { s := { s2 with reads := s2.reads ++ [⟨0, 0, encode (s2.grips 0).filter, (s2.grips 0).recursive⟩], loop := .st 0 } }
/-- The set for `/d` is changed: the handle is closed. -/
def s3 : St := ((rewatch s2 [['d']] readdcw.write (readdcw.write ||| readdcw.rename) false).getD (s2, false)).1
/-- `/e` is watched. -/
def s4 : St := (watch s3 [['e']] readdcw.write false {} {}).1
def made4 : Nat → Option Nat := opensAt files [['e']] s3.nh made1
/-- Then the loop reads. -/
def t5 : HSt := { s := { s4 with reads := s4.reads ++ [⟨1, 0, encode (s4.grips 0).filter, (s4.grips 0).recursive⟩], loop := .st 0 } }

theorem run2 (num : Nat → Nat) : HRun num files made1 { s := s2, loaded := some (0, 0) } := by
  have d0 : ∀ s : St, s.opened = [0] → Distinct num s := fun s hs a ha b hb _ => by
    rw [hs] at ha hb; simp at ha hb; omega
  have r0 : HRun num files made1 { s := s1 } := HRun.init.step (.other (t := {}) (.watch _ _ _ [['d']] readdcw.write false {} {} (by decide) (by decide))
    (fun g hg => by cases hg)) (d0 _ (by decide))
  have r1' : HRun num files made1 { s := complete s1 r1 } := r0.step (.other (t := { s := s1 }) (.complete _ _ _ r1 (by decide))
    (fun g hg => by cases hg)) (d0 _ (by decide))
  have r2' : HRun num files made1 { s := s2 } := r1'.step (.other (t := { s := complete s1 r1 }) (.take _ _ _)
    (fun g hg => by cases hg)) (d0 _ (by decide))
  exact r2'.step (.load (t := { s := s2 }) 0 0 (by decide) rfl (by decide)) (d0 _ (by decide))

theorem run5 : HRun same files made4 t5 := by
  have r3 : HRun same files made1 { s := s3, loaded := some (0, 0) } :=
    (run2 same).step (.other (t := { s := s2, loaded := some (0, 0) })
      (.rewatch _ _ _ [['d']] readdcw.write (readdcw.write ||| readdcw.rename) false s3 true (by rfl))
      (fun g hg => hg)) (fun a ha => by have : s3.opened = [] := by decide
                                        rw [show ({ s := s3, loaded := some (0, 0) } : HSt).s.opened = [] from this] at ha; cases ha)
  have d1 : ∀ s : St, s.opened = [1] → Distinct same s := fun s hs a ha b hb _ => by
    rw [hs] at ha hb; simp at ha hb; omega
  have r4 : HRun same files made4 { s := s4, loaded := some (0, 0) } :=
    r3.step (.other (t := { s := s3, loaded := some (0, 0) }) (.watch _ _ _ [['e']] readdcw.write false {} {} (by decide) (by decide))
      (fun g hg => hg)) (d1 _ (by decide))
  exact r4.step (.read (t := { s := s4, loaded := some (0, 0) }) 0 0 1 rfl (by decide) (by decide)) (d1 _ (by decide))

end HandleEx

/-- The hypotheses of `C119_reads_partial` hold when the loop has loaded the handle; there was a read before. -/
example : HRun id HandleEx.files HandleEx.made1 { s := HandleEx.s2, loaded := some (0, 0) } ∧
    HRun id HandleEx.files HandleEx.made1 HandleEx.t3 ∧ HandleEx.t3.s.reads ≠ [] :=
  ⟨HandleEx.run2 id, (HandleEx.run2 id).step (.read (t := { s := HandleEx.s2, loaded := some (0, 0) }) 0 0 0 rfl (by decide) rfl)
    (fun _ _ _ _ h => h), by simp [HandleEx.t3]⟩

/-- **C119 is false of the code**, for reads: the loop has loaded the handle of `/d`, a caller changes the set for `/d`, so that the handle is
closed, and watches `/e`, whose handle gets the same number; then the loop reads from the handle of `/e` for `/d`. -/
theorem C119_reads_refuted : ¬ C119_reads_full := by
  intro h
  obtain ⟨d, h1, h2⟩ := h HandleEx.same HandleEx.files HandleEx.made4 HandleEx.t5 HandleEx.run5
    ⟨1, 0, encode (HandleEx.s4.grips 0).filter, (HandleEx.s4.grips 0).recursive⟩ (List.mem_append.2 (.inr (List.mem_singleton.2 rfl)))
  have h3 : HandleEx.made4 1 = some 2 := by decide
  have h4 : HandleEx.files (HandleEx.t5.s.grips 0).path = some 1 := by decide
  rw [show HandleEx.made4 1 = some d from h1] at h3
  rw [show HandleEx.files (HandleEx.t5.s.grips 0).path = some d from h2] at h4
  cases h3; cases h4

/-! ### Closing -/

/-- The handles that `register` closes (watcher_readdcw.go:104). -/
def registerC (s : St) (a : Ans) : List Nat := if a.create = true ∧ a.port = false then [s.nh] else []

/-- One turn of the loop in `closeHandle` (watcher_readdcw.go:229-253). -/
def closeOneC (s : St) (o : Option Nat) : List Nat :=
  match o with
  | none => []
  | some g => (s.grips g).handle.toList

/-- `closeHandle` (watcher_readdcw.go:228-255). -/
def closeHandleC (s : St) (w : Nat) : List Nat := closeOneC s (s.wds w).g0 ++ closeOneC (closeOne s (s.wds w).g0).1 (s.wds w).g1

/-- `updateGrip` (watcher_readdcw.go:202-223). -/
def updateGripC (s : St) (w : Nat) (i : Bool) (reset : Bool) (newflag : Event) (a : Ans) : List Nat :=
  if reset then []
  else
    match (s.wds w).slot i with
    | none =>
      let r := newGrip s w newflag a
      registerC s a ++ if r.2.isSome then [] else closeHandleC (r.1.setWd w ((r.1.wds w).setSlot i r.2)) w
    | some g =>
      let r := register (s.setGrip g { s.grips g with filter := newflag, recursive := (s.wds w).recursive }) g a
      registerC s a ++ if r.2 then [] else closeHandleC r.1 w

/-- `recreate` (watcher_readdcw.go:188-199). -/
def recreateC (s : St) (w : Nat) (a0 a1 : Ans) : List Nat :=
  let r := updateGrip s w false (!hasFile (s.wds w).filter) (fileFilter (s.wds w).filter) a0
  updateGripC s w false (!hasFile (s.wds w).filter) (fileFilter (s.wds w).filter) a0 ++
    if r.2 then updateGripC r.1 w true (!hasDir (r.1.wds w).filter) (dirFilter (r.1.wds w).filter) a1 else []

/-- `watch` (watcher_readdcw.go:297-324). -/
def watchC (s : St) (p : Path) (e : Event) (isrec : Bool) (a0 a1 : Ans) : List Nat :=
  if valid e then
    match s.m.get? p with
    | some _ => []
    | none => recreateC ({ s.setWd s.nw { filter := e, recursive := isrec, path := p } with nw := s.nw + 1 }) s.nw a0 a1
  else []

/-- `rewatch` (watcher_readdcw.go:473-494). -/
def rewatchC (s : St) (p : Path) (old new : Event) (isrec : Bool) : List Nat :=
  if valid new then
    match nonState s p with
    | none => []
    | some w =>
      if (s.wds w).filter &&& (onlyChanges ||| onlyGlobal) = old then
        closeHandleC (s.setWd w { s.wds w with filter := stRewatch ||| new, recursive := isrec }) w
      else []
  else []

/-- `loopstate` (watcher_readdcw.go:377-398). -/
def loopstateC (s : St) (a0 a1 : Ans) : List Nat :=
  match s.loop with
  | .st g =>
    let w := (s.grips g).parent
    let wd := s.wds w
    let s := { s with loop := .idle }
    if wd.filter &&& onlyStates = 0 then []
    else
      let s1 := s.setWd w { wd with count := wd.count - 1 }
      if wd.count - 1 = 0 then
        if wd.filter &&& onlyStates = stRewatch then recreateC s1 w a0 a1
        else if wd.filter &&& onlyStates = stUnwatch then closeHandleC s1 w
        else []
      else []
  | _ => []

/-- Executions with the handles for which CloseHandle was called, oldest first.  With `sure`, the completion port takes the handles that
the loop opens. -/
inductive CRun (sure : Bool) : List Nat → St → Prop
  | init : CRun sure [] St.init
  | watch {l : List Nat} {s : St} (p : Path) (e : Event) (isrec : Bool) (a0 a1 : Ans) : CRun sure l s →
      CRun sure (l ++ watchC s p e isrec a0 a1) (watch s p e isrec a0 a1).1
  | rewatch {l : List Nat} {s : St} (p : Path) (old new : Event) (isrec : Bool) (s' : St) (ok : Bool) : CRun sure l s →
      rewatch s p old new isrec = some (s', ok) → CRun sure (l ++ rewatchC s p old new isrec) s'
  | unwatch {l : List Nat} {s : St} (p : Path) (gone : Bool) : CRun sure l s → CRun sure l (unwatch s p gone).1
  | complete {l : List Nat} {s : St} (r : Read) : CRun sure l s → r ∈ s.reads → CRun sure l (complete s r)
  | take {l : List Nat} {s : St} : CRun sure l s → CRun sure l (take s)
  | again {l : List Nat} {s : St} (ok : Bool) : CRun sure l s → CRun sure l (again s ok)
  | state {l : List Nat} {s : St} (a0 a1 : Ans) (s' : St) : CRun sure l s → loopstate s a0 a1 = some s' →
      (sure = true → a0.port = true ∧ a1.port = true) → CRun sure (l ++ loopstateC s a0 a1) s'

/-- **C119** in full, for closing: CloseHandle is called at most once for a handle. -/
def C119_closes_full : Prop := ∀ (l : List Nat) (s : St), CRun false l s → l.Nodup

/-- Handles are of one grip, and what a directory has in its slots is not closed. -/
structure Fresh (l : List Nat) (s : St) : Prop where
  nodup : l.Nodup
  lt : ∀ h ∈ l, h < s.nh
  handle : ∀ g h, (s.grips g).handle = some h → h < s.nh ∧ g < s.ng
  inj : ∀ g g' h, (s.grips g).handle = some h → (s.grips g').handle = some h → g = g'
  slot : ∀ w i g, (s.wds w).slot i = some g → g < s.ng ∧ ∀ h, (s.grips g).handle = some h → h ∉ l

theorem Fresh.same {l : List Nat} {s s' : St} (h : Fresh l s) (hn : s'.nh = s.nh) (hg : s'.ng = s.ng)
    (hh : ∀ g, (s'.grips g).handle = (s.grips g).handle) (hs : ∀ w i g, (s'.wds w).slot i = some g → ∃ w' i', (s.wds w').slot i' = some g) :
    Fresh l s' where
  nodup := h.nodup
  lt k hk := by rw [hn]; exact h.lt k hk
  handle g k hk := by rw [hn, hg]; exact h.handle g k (by rw [← hh]; exact hk)
  inj g g' k h1 h2 := h.inj g g' k (by rw [← hh]; exact h1) (by rw [← hh]; exact h2)
  slot w i g hsl := by
    obtain ⟨w', i', h'⟩ := hs w i g hsl
    rw [hg]
    exact ⟨(h.slot w' i' g h').1, fun k hk => (h.slot w' i' g h').2 k (by rw [← hh]; exact hk)⟩

theorem Fresh.setWd {l : List Nat} {s : St} (h : Fresh l s) {w : Nat} {x : Wd} (hx : ∀ i, x.slot i = none ∨ x.slot i = (s.wds w).slot i) :
    Fresh l (s.setWd w x) := by
  refine h.same rfl rfl (fun _ => rfl) fun w' i g hg => ?_
  by_cases hw : w' = w
  · subst hw
    have hg' : x.slot i = some g := by simpa [St.setWd, upd] using hg
    rcases hx i with h1 | h1
    · rw [h1] at hg'; cases hg'
    · exact ⟨w', i, by rw [← h1]; exact hg'⟩
  · exact ⟨w', i, by simpa [St.setWd, upd, hw] using hg⟩

theorem readDirChanges_only (s : St) (g : Nat) (ok : Bool) : (readDirChanges s g ok).1.nh = s.nh ∧ (readDirChanges s g ok).1.ng = s.ng ∧
    (readDirChanges s g ok).1.grips = s.grips ∧ (readDirChanges s g ok).1.wds = s.wds := by
  unfold readDirChanges
  split
  · exact ⟨rfl, rfl, rfl, rfl⟩
  · split <;> exact ⟨rfl, rfl, rfl, rfl⟩

/-- `register` when the port takes the handle, or for a grip that no directory has. -/
theorem Fresh.register {l : List Nat} {s : St} (h : Fresh l s) {g : Nat} (a : Ans) (hg : g < s.ng)
    (hp : a.port = true ∨ ∀ w i, (s.wds w).slot i ≠ some g) : Fresh (l ++ registerC s a) (Dcw.register s g a).1 ∧
      (Dcw.register s g a).1.wds = s.wds ∧ (Dcw.register s g a).1.ng = s.ng ∧
      ∀ k, ((Dcw.register s g a).1.grips g).handle = some k → k = s.nh := by
  have base : ∀ (l' : List Nat) (s' : St), l'.Nodup → (∀ k ∈ l', k ∈ l ∨ (k = s.nh ∧ ∀ w i, (s.wds w).slot i ≠ some g)) →
      s'.nh = s.nh + 1 → s'.ng = s.ng → s'.wds = s.wds →
      s'.grips = (s.setGrip g { s.grips g with handle := some s.nh }).grips → Fresh l' s' := by
    intro l' s' hnd hl hn hng hw hgr
    have hh : ∀ g', (s'.grips g').handle = if g' = g then some s.nh else (s.grips g').handle := by
      intro g'
      rw [hgr]
      simp only [St.setGrip, upd]
      split <;> simp_all
    have old : ∀ g' k, (s'.grips g').handle = some k → (g' = g ∧ k = s.nh) ∨ (g' ≠ g ∧ (s.grips g').handle = some k) := by
      intro g' k hk
      rw [hh] at hk
      split at hk
      · next hg' => cases hk; exact .inl ⟨hg', rfl⟩
      · next hg' => exact .inr ⟨hg', hk⟩
    refine ⟨hnd, fun k hk => ?_, fun g' k hk => ?_, fun g1 g2 k h1 h2 => ?_, fun w i g' hsl => ?_⟩
    · rw [hn]
      rcases hl k hk with h1 | ⟨h1, _⟩
      · exact Nat.lt_succ_of_lt (h.lt k h1)
      · omega
    · rw [hn, hng]
      rcases old g' k hk with ⟨rfl, rfl⟩ | ⟨_, h1⟩
      · exact ⟨Nat.lt_succ_self _, hg⟩
      · exact ⟨Nat.lt_succ_of_lt (h.handle g' k h1).1, (h.handle g' k h1).2⟩
    · rcases old g1 k h1 with ⟨rfl, rfl⟩ | ⟨_, h1'⟩ <;> rcases old g2 _ h2 with ⟨e2, e2'⟩ | ⟨_, h2'⟩
      · exact e2.symm
      · exact absurd (h.handle _ _ h2').1 (Nat.lt_irrefl _)
      · subst e2'; exact absurd (h.handle _ _ h1').1 (Nat.lt_irrefl _)
      · exact h.inj _ _ _ h1' h2'
    · rw [hw] at hsl
      rw [hng]
      refine ⟨(h.slot w i g' hsl).1, fun k hk hkl => ?_⟩
      rcases old g' k hk with ⟨rfl, rfl⟩ | ⟨_, h1⟩
      · rcases hl _ hkl with h2 | ⟨_, h2⟩
        · exact Nat.lt_irrefl _ (h.lt _ h2)
        · exact h2 w i hsl
      · rcases hl _ hkl with h2 | ⟨rfl, _⟩
        · exact (h.slot w i g' hsl).2 k h1 h2
        · exact Nat.lt_irrefl _ (h.handle _ _ h1).1
  unfold Dcw.register registerC
  by_cases hc : a.create = true
  · simp only [hc, if_true, true_and]
    by_cases hport : a.port = true
    · simp only [hport, if_true]
      obtain ⟨e1, e2, e3, e4⟩ := readDirChanges_only { ({ s.setGrip g { s.grips g with handle := some s.nh } with nh := s.nh + 1 } : St) with
          opened := s.nh :: s.opened } g a.read
      refine ⟨?_, e4, e2, fun k hk => ?_⟩
      rotate_left
      · rw [e3] at hk; simp [St.setGrip, upd] at hk; exact hk.symm
      simp only [Bool.true_eq_false, if_false, List.append_nil]
      exact base l _ h.nodup (fun k hk => .inl hk) e1 e2 e4 e3
    · have hport' : a.port = false := by simpa using hport
      simp only [hport', if_true, Bool.false_eq_true, if_false]
      have hp' := hp.resolve_left hport
      refine ⟨base _ _ ?_ ?_ rfl rfl rfl rfl, rfl, rfl, fun k hk => by simp [St.setGrip, upd] at hk; exact hk.symm⟩
      · exact List.nodup_append.2 ⟨h.nodup, by simp, fun a ha b hb => by simp at hb; subst hb; exact Nat.ne_of_lt (h.lt a ha)⟩
      · intro k hk
        rcases List.mem_append.1 hk with hk | hk
        · exact .inl hk
        · simp at hk; exact .inr ⟨hk, hp'⟩
  · simp only [hc, if_false, false_and, List.append_nil, Bool.false_eq_true]
    have old : ∀ g' k, ((s.setGrip g { s.grips g with handle := none }).grips g').handle = some k → (s.grips g').handle = some k := by
      intro g' k hk
      simp only [St.setGrip, upd] at hk
      split at hk
      · cases hk
      · exact hk
    exact ⟨⟨h.nodup, h.lt, fun g' k hk => h.handle g' k (old g' k hk), fun g1 g2 k h1 h2 => h.inj g1 g2 k (old _ _ h1) (old _ _ h2),
      fun w i g' hsl => ⟨(h.slot w i g' hsl).1, fun k hk => (h.slot w i g' hsl).2 k (old _ _ hk)⟩⟩, rfl, rfl,
      fun k hk => by simp [St.setGrip, upd] at hk⟩

/-- The handle that is closed is the grip's no more. -/
theorem Fresh.closeOne {l : List Nat} {s : St} (h : Fresh l s) (o : Option Nat) (ho : ∀ g, o = some g → ∀ k, (s.grips g).handle = some k → k ∉ l) :
    Fresh (l ++ closeOneC s o) (Dcw.closeOne s o).1 ∧ (Dcw.closeOne s o).1.wds = s.wds := by
  cases o with
  | none => simpa [Dcw.closeOne, closeOneC] using h
  | some g =>
    cases hk : (s.grips g).handle with
    | none => simpa [Dcw.closeOne, closeOneC, hk] using h
    | some k =>
      simp only [Dcw.closeOne, closeOneC, hk]
      have old : ∀ g' x, ((s.setGrip g { s.grips g with handle := none }).grips g').handle = some x → g' ≠ g ∧ (s.grips g').handle = some x := by
        intro g' x hx
        simp only [St.setGrip, upd] at hx
        split at hx
        · cases hx
        · next hne => exact ⟨hne, hx⟩
      refine ⟨⟨?_, ?_, fun g' x hx => h.handle g' x (old g' x hx).2, fun g1 g2 x h1 h2 => h.inj g1 g2 x (old _ _ h1).2 (old _ _ h2).2, ?_⟩, rfl⟩
      · refine List.nodup_append.2 ⟨h.nodup, by simp, fun a ha b hb => ?_⟩
        simp at hb; subst hb
        rintro rfl
        exact ho g rfl _ hk ha
      · intro x hx
        rcases List.mem_append.1 hx with hx | hx
        · exact h.lt x hx
        · simp at hx; subst hx; exact (h.handle g _ hk).1
      · intro w i g' hsl
        refine ⟨(h.slot w i g' hsl).1, fun x hx hxl => ?_⟩
        obtain ⟨hne, hx'⟩ := old g' x hx
        rcases List.mem_append.1 hxl with h1 | h1
        · exact (h.slot w i g' hsl).2 x hx' h1
        · simp at h1; subst h1; exact hne (h.inj _ _ _ hx' hk)

theorem Fresh.closeHandle {l : List Nat} {s : St} (h : Fresh l s) (w : Nat) :
    Fresh (l ++ closeHandleC s w) (Dcw.closeHandle s w).1 ∧ (Dcw.closeHandle s w).1.wds = s.wds := by
  obtain ⟨h1, e1⟩ := h.closeOne (s.wds w).g0 (fun g hg => (h.slot w false g hg).2)
  obtain ⟨h2, e2⟩ := h1.closeOne (s.wds w).g1 (fun g hg => (h1.slot w true g (by rw [e1]; exact hg)).2)
  refine ⟨?_, e2.trans e1⟩
  rw [closeHandleC, ← List.append_assoc]
  exact h2

/-- A slot gets a grip whose handle is not closed. -/
theorem Fresh.setSlot {l : List Nat} {s : St} (h : Fresh l s) {w g : Nat} {x : Wd} (hg : g < s.ng)
    (hk : ∀ k, (s.grips g).handle = some k → k ∉ l) (hx : ∀ i, x.slot i = some g ∨ x.slot i = (s.wds w).slot i) : Fresh l (s.setWd w x) := by
  refine ⟨h.nodup, h.lt, h.handle, h.inj, fun w' i g' hs => ?_⟩
  by_cases hw : w' = w
  · subst hw
    have hs' : x.slot i = some g' := by simpa [St.setWd, upd] using hs
    rcases hx i with h1 | h1
    · rw [h1] at hs'; cases hs'; exact ⟨hg, hk⟩
    · exact h.slot w' i g' (by rw [← h1]; exact hs')
  · exact h.slot w' i g' (by simpa [St.setWd, upd, hw] using hs)

theorem Fresh.newGrip {l : List Nat} {s : St} (h : Fresh l s) (w : Nat) (f : Event) (a : Ans) :
    ((Dcw.newGrip s w f a).2 = none → Fresh (l ++ registerC s a) (Dcw.newGrip s w f a).1) ∧
    ∀ g, (Dcw.newGrip s w f a).2 = some g → registerC s a = [] ∧ Fresh l (Dcw.newGrip s w f a).1 ∧ g < (Dcw.newGrip s w f a).1.ng ∧
      ∀ k, ((Dcw.newGrip s w f a).1.grips g).handle = some k → k ∉ l := by
  have h0 : Fresh l { s.setGrip s.ng { filter := f, recursive := (s.wds w).recursive, path := (s.wds w).path, parent := w } with ng := s.ng + 1 } := by
    have old : ∀ g' x, ((s.setGrip s.ng { filter := f, recursive := (s.wds w).recursive, path := (s.wds w).path, parent := w }).grips g').handle = some x →
        (s.grips g').handle = some x := by
      intro g' x hx
      simp only [St.setGrip, upd] at hx
      split at hx
      · cases hx
      · exact hx
    exact ⟨h.nodup, h.lt, fun g' k hk => ⟨(h.handle g' k (old g' k hk)).1, Nat.lt_succ_of_lt (h.handle g' k (old g' k hk)).2⟩,
      fun g1 g2 k h1 h2 => h.inj g1 g2 k (old _ _ h1) (old _ _ h2),
      fun w' i' g' hsl => ⟨Nat.lt_succ_of_lt (h.slot w' i' g' hsl).1, fun k hk => (h.slot w' i' g' hsl).2 k (old _ _ hk)⟩⟩
  obtain ⟨h1, e1, e2, e3⟩ := h0.register (g := s.ng) a (Nat.lt_succ_self _) (.inr fun w' i' hsl => Nat.lt_irrefl _ (h.slot w' i' _ hsl).1)
  have hcr : registerC { s.setGrip s.ng { filter := f, recursive := (s.wds w).recursive, path := (s.wds w).path, parent := w } with ng := s.ng + 1 } a =
      registerC s a := rfl
  rw [hcr] at h1
  have hport : (Dcw.register { s.setGrip s.ng { filter := f, recursive := (s.wds w).recursive, path := (s.wds w).path, parent := w } with
      ng := s.ng + 1 } s.ng a).2 = true → registerC s a = [] := by
    unfold Dcw.register registerC
    intro hr
    split at hr
    · split at hr
      · next hp => simp [hp]
      · cases hr
    · cases hr
  unfold Dcw.newGrip
  dsimp only
  generalize Dcw.register { s.setGrip s.ng { filter := f, recursive := (s.wds w).recursive, path := (s.wds w).path, parent := w } with
      ng := s.ng + 1 } s.ng a = r at h1 e1 e2 e3 hport ⊢
  have e2' : r.1.ng = s.ng + 1 := e2
  by_cases hr : r.2 = true
  · simp only [hr, if_true]
    have hl0 := hport hr
    rw [hl0, List.append_nil] at h1
    refine ⟨fun hx => (by cases hx), fun g hg => ⟨hl0, ?_⟩⟩
    cases hg
    have hE : (if a.early = true then ({ r.1 with reads := r.1.reads.filter (·.g ≠ s.ng) } : St) else r.1).nh = r.1.nh ∧
        (if a.early = true then ({ r.1 with reads := r.1.reads.filter (·.g ≠ s.ng) } : St) else r.1).ng = r.1.ng ∧
        (if a.early = true then ({ r.1 with reads := r.1.reads.filter (·.g ≠ s.ng) } : St) else r.1).grips = r.1.grips ∧
        (if a.early = true then ({ r.1 with reads := r.1.reads.filter (·.g ≠ s.ng) } : St) else r.1).wds = r.1.wds := by
      split <;> exact ⟨rfl, rfl, rfl, rfl⟩
    generalize (if a.early = true then ({ r.1 with reads := r.1.reads.filter (·.g ≠ s.ng) } : St) else r.1) = t at hE ⊢
    obtain ⟨q1, q2, q3, q4⟩ := hE
    have hh : ∀ g, ((t.setGrip s.ng { t.grips s.ng with linked := true }).grips g).handle = (r.1.grips g).handle := by
      intro g
      simp only [St.setGrip, upd, q3]
      split
      · next hgg => subst hgg; rfl
      · rfl
    refine ⟨h1.same q1 q2 hh fun w' i' g hg => ⟨w', i', by rw [← q4]; exact hg⟩, ?_, fun k hk hkl => ?_⟩
    · show s.ng < t.ng
      rw [q2, e2']; exact Nat.lt_succ_self _
    · obtain rfl : k = s.nh := e3 k (by rw [← hh]; exact hk)
      exact Nat.lt_irrefl _ (h.lt _ hkl)
  · simp only [hr, if_false, Bool.false_eq_true]
    exact ⟨fun _ => h1, fun g hg => (by cases hg)⟩

theorem Fresh.updateGrip {l : List Nat} {s : St} (h : Fresh l s) (w : Nat) (i reset : Bool) (f : Event) (a : Ans)
    (hp : a.port = true ∨ (s.wds w).slot i = none) : Fresh (l ++ updateGripC s w i reset f a) (Dcw.updateGrip s w i reset f a).1 := by
  unfold Dcw.updateGrip updateGripC
  split
  · simp only [List.append_nil]
    refine h.setWd fun j => ?_
    cases i <;> cases j <;> simp [Wd.setSlot, Wd.slot]
  · cases hs : (s.wds w).slot i with
    | none =>
      dsimp only
      obtain ⟨hnone, hsome⟩ := h.newGrip w f a
      generalize Dcw.newGrip s w f a = r at hnone hsome ⊢
      obtain ⟨t, o⟩ := r
      cases o with
      | some g =>
        obtain ⟨e0, h1, hg, hk⟩ := hsome g rfl
        simp only [e0, Option.isSome_some, if_true, List.append_nil]
        have h2 := h1.setSlot (w := w) (x := (t.wds w).setSlot i (some g)) hg hk
          (fun j => by cases i <;> cases j <;> simp [Wd.setSlot, Wd.slot])
        exact h2.setWd fun j => .inr (by cases j <;> rfl)
      | none =>
        simp only [Option.isSome_none, if_false, Bool.false_eq_true]
        have h2 : Fresh (l ++ registerC s a) (t.setWd w ((t.wds w).setSlot i none)) :=
          (hnone rfl).setWd fun j => by cases i <;> cases j <;> simp [Wd.setSlot, Wd.slot]
        rw [← List.append_assoc]
        exact (h2.closeHandle w).1
    | some g =>
      dsimp only
      have hport := hp.resolve_right (by rw [hs]; simp)
      have h0 : Fresh l (s.setGrip g { s.grips g with filter := f, recursive := (s.wds w).recursive }) :=
        h.same rfl rfl (fun g' => by simp only [St.setGrip, upd]; split <;> simp_all) (fun w' i' g' hg => ⟨w', i', hg⟩)
      obtain ⟨h1, e1, e2, e3⟩ := h0.register a (h.slot w i g hs).1 (.inl hport)
      have hcr : registerC (s.setGrip g { s.grips g with filter := f, recursive := (s.wds w).recursive }) a = registerC s a := rfl
      rw [hcr] at h1
      generalize Dcw.register (s.setGrip g { s.grips g with filter := f, recursive := (s.wds w).recursive }) g a = r at h1 e1 e2 e3 ⊢
      by_cases hr : r.2 = true
      · simp only [hr, if_true, List.append_nil]
        exact h1.setWd fun j => .inr (by cases j <;> rfl)
      · simp only [hr, if_false, Bool.false_eq_true]
        rw [← List.append_assoc]
        exact (h1.closeHandle w).1

theorem register_dirs (s : St) (g : Nat) (a : Ans) : (register s g a).1.wds = s.wds := by
  unfold register
  split
  · dsimp only
    split
    · exact (readDirChanges_only _ g a.read).2.2.2
    · rfl
  · rfl

theorem newGrip_dirs (s : St) (w : Nat) (f : Event) (a : Ans) : (newGrip s w f a).1.wds = s.wds := by
  unfold newGrip
  dsimp only
  have h := register_dirs { s.setGrip s.ng { filter := f, recursive := (s.wds w).recursive, path := (s.wds w).path, parent := w } with
      ng := s.ng + 1 } s.ng a
  generalize register { s.setGrip s.ng { filter := f, recursive := (s.wds w).recursive, path := (s.wds w).path, parent := w } with
      ng := s.ng + 1 } s.ng a = r at h ⊢
  split
  · split <;> exact h
  · exact h

theorem closeOne_dirs (s : St) (o : Option Nat) : (closeOne s o).1.wds = s.wds := by
  unfold closeOne
  split
  · rfl
  · split <;> rfl

theorem closeHandle_dirs (s : St) (w : Nat) : (closeHandle s w).1.wds = s.wds :=
  (closeOne_dirs _ _).trans (closeOne_dirs _ _)

/-- The first slot does not matter to the second. -/
theorem updateGrip_second (s : St) (w : Nat) (reset : Bool) (f : Event) (a : Ans) :
    (((updateGrip s w false reset f a).1.wds w).slot true) = (s.wds w).slot true := by
  unfold updateGrip
  split
  · simp [St.setWd, upd, Wd.setSlot, Wd.slot]
  · split
    · have h := newGrip_dirs s w f a
      generalize newGrip s w f a = r at h ⊢
      dsimp only
      split
      · simp [St.setWd, upd, Wd.setSlot, Wd.slot, h]
      · rw [closeHandle_dirs]; simp [St.setWd, upd, Wd.setSlot, Wd.slot, h]
    · next g hs =>
      have h := register_dirs (s.setGrip g { s.grips g with filter := f, recursive := (s.wds w).recursive }) g a
      generalize register (s.setGrip g { s.grips g with filter := f, recursive := (s.wds w).recursive }) g a = r at h ⊢
      have h' : r.1.wds = s.wds := h
      dsimp only
      split
      · simp [St.setWd, upd, Wd.slot, h']
      · rw [closeHandle_dirs, h']

theorem Fresh.recreate {l : List Nat} {s : St} (h : Fresh l s) (w : Nat) (a0 a1 : Ans)
    (hp : (a0.port = true ∧ a1.port = true) ∨ ∀ i, (s.wds w).slot i = none) : Fresh (l ++ recreateC s w a0 a1) (Dcw.recreate s w a0 a1).1 := by
  unfold Dcw.recreate recreateC
  have h1 := h.updateGrip w false (!hasFile (s.wds w).filter) (fileFilter (s.wds w).filter) a0 (hp.imp And.left (· false))
  have hs := updateGrip_second s w (!hasFile (s.wds w).filter) (fileFilter (s.wds w).filter) a0
  dsimp only
  generalize Dcw.updateGrip s w false (!hasFile (s.wds w).filter) (fileFilter (s.wds w).filter) a0 = r at h1 hs ⊢
  by_cases hr : r.2 = true
  · simp only [hr, if_true]
    rw [← List.append_assoc]
    have h2 := h1.updateGrip w true (!hasDir (r.1.wds w).filter) (dirFilter (r.1.wds w).filter) a1 (hp.imp And.right fun h => by rw [hs]; exact h true)
    generalize Dcw.updateGrip r.1 w true (!hasDir (r.1.wds w).filter) (dirFilter (r.1.wds w).filter) a1 = q at h2 ⊢
    split
    · exact h2.setWd fun j => .inr (by cases j <;> rfl)
    · exact h2
  · simp only [hr, if_false, Bool.false_eq_true, List.append_nil]
    exact h1

theorem CRun.fresh {l : List Nat} {s : St} (h : CRun true l s) : Fresh l s := by
  induction h with
  | init =>
    refine ⟨List.nodup_nil, fun k hk => ?_, fun g k hk => ?_, fun g g' k hk => ?_, fun w i g hs => ?_⟩
    · cases hk
    · cases hk
    · cases hk
    · cases i <;> cases hs
  | @watch l s p e isrec a0 a1 _ ih =>
    unfold Dcw.watch watchC
    split
    · cases hm : s.m.get? p with
      | some w =>
        simp only [List.append_nil]
        exact ih.setWd fun j => .inr (by cases j <;> rfl)
      | none =>
        have h0 : Fresh l { s.setWd s.nw { filter := e, recursive := isrec, path := p } with nw := s.nw + 1 } := by
          have := ih.setWd (w := s.nw) (x := { filter := e, recursive := isrec, path := p }) (fun j => .inl (by cases j <;> rfl))
          exact this.same rfl rfl (fun _ => rfl) fun w i g hg => ⟨w, i, hg⟩
        have h1 := h0.recreate s.nw a0 a1 (.inr fun i => by cases i <;> simp [St.setWd, upd, Wd.slot])
        dsimp only
        split
        · exact h1.same rfl rfl (fun _ => rfl) fun w i g hg => ⟨w, i, hg⟩
        · exact h1
    · simpa using ih
  | @rewatch l s p old new isrec s' ok _ hr ih =>
    unfold Dcw.rewatch at hr
    unfold rewatchC
    split at hr
    · next hv =>
      simp only [hv, if_true]
      split at hr
      · next hn => simp only [hn]; cases hr; simpa using ih
      · next w hw =>
        simp only [hw]
        split at hr
        · next ho =>
          simp only [ho, if_true]
          have h1 : Fresh l (s.setWd w { s.wds w with filter := stRewatch ||| new, recursive := isrec }) :=
            ih.setWd fun j => .inr (by cases j <;> rfl)
          have h2 := (h1.closeHandle w).1
          dsimp only at hr
          split at hr
          · cases hr; exact h2
          · cases hr; exact h2.setWd fun j => .inr (by cases j <;> rfl)
        · cases hr
    · next hv => simp only [hv]; cases hr; simpa using ih
  | @unwatch l s p gone _ ih =>
    unfold Dcw.unwatch
    split
    · exact ih
    · next w hw =>
      have h1 : Fresh l (s.setWd w { s.wds w with filter := (s.wds w).filter ||| stUnwatch }) := ih.setWd fun j => .inr (by cases j <;> rfl)
      dsimp only
      split
      · exact h1.same rfl rfl (fun _ => rfl) fun w i g hg => ⟨w, i, hg⟩
      · exact h1
  | complete r _ _ ih => exact ih.same rfl rfl (fun _ => rfl) fun w i g hg => ⟨w, i, hg⟩
  | take _ ih =>
    unfold Dcw.take
    split
    · split <;> exact ih.same rfl rfl (fun _ => rfl) fun w i g hg => ⟨w, i, hg⟩
    · exact ih
  | @again l s ok _ ih =>
    unfold Dcw.again
    split
    · next g hg =>
      obtain ⟨e1, e2, e3, e4⟩ := readDirChanges_only s g ok
      refine ih.same e1 e2 (fun g' => ?_) fun w i g' hg' => ⟨w, i, ?_⟩
      · show ((readDirChanges s g ok).1.grips g').handle = _; rw [e3]
      · rw [← e4]; exact hg'
    · exact ih
  | @state l s a0 a1 s' _ hr hp ih =>
    unfold Dcw.loopstate at hr
    unfold loopstateC
    split at hr
    · next g hg =>
      simp only [hg]
      dsimp only at hr
      have h1 : Fresh l (({ s with loop := .idle } : St).setWd (s.grips g).parent
          { s.wds (s.grips g).parent with count := (s.wds (s.grips g).parent).count - 1 }) := by
        have h0 : Fresh l ({ s with loop := .idle } : St) := ih.same rfl rfl (fun _ => rfl) fun w i g hg => ⟨w, i, hg⟩
        exact h0.setWd fun j => .inr (by cases j <;> rfl)
      generalize (({ s with loop := .idle } : St).setWd (s.grips g).parent
          { s.wds (s.grips g).parent with count := (s.wds (s.grips g).parent).count - 1 }) = t at h1 hr ⊢
      have h2 := h1.recreate (s.grips g).parent a0 a1 (.inl (hp rfl))
      have h3 := (h1.closeHandle (s.grips g).parent).1
      split at hr
      · next x1 =>
        simp only [x1, if_true, List.append_nil]
        injection hr with hr; subst hr
        exact ih.same rfl rfl (fun _ => rfl) fun w i g hg => ⟨w, i, hg⟩
      · next x1 =>
        simp only [x1, if_false]
        split at hr
        · next x2 =>
          simp only [x2, if_true]
          split at hr
          · next x3 => simp only [x3, if_true]; injection hr with hr; subst hr; exact h2
          · next x3 =>
            simp only [x3, if_false]
            split at hr
            · next x4 =>
              simp only [x4, if_true]
              injection hr with hr; subst hr
              exact h3.same rfl rfl (fun _ => rfl) fun w i g hg => ⟨w, i, hg⟩
            · cases hr
        · next x2 =>
          simp only [x2, if_false, List.append_nil]
          injection hr with hr; subst hr; exact h1
    · next hx =>
      cases hr
      have : (match s.loop with
        | .st g =>
          let w := (s.grips g).parent
          let wd := s.wds w
          let s := { s with loop := .idle }
          if wd.filter &&& onlyStates = 0 then []
          else
            let s1 := s.setWd w { wd with count := wd.count - 1 }
            if wd.count - 1 = 0 then
              if wd.filter &&& onlyStates = stRewatch then recreateC s1 w a0 a1
              else if wd.filter &&& onlyStates = stUnwatch then closeHandleC s1 w
              else []
            else []
        | _ => ([] : List Nat)) = [] := by
        split
        · next g hg => exact absurd hg (hx g)
        · rfl
      rw [this, List.append_nil]
      exact ih

/-- **C119, partial**, for closing: CloseHandle is called at most once for a handle if CreateIoCompletionPort succeeds for the handles that
the loop opens.  Missing: executions in which it fails there, see `C119_closes_refuted`. -/
theorem C119_closes_partial {l : List Nat} {s : St} (h : CRun true l s) : l.Nodup := h.fresh.nodup

namespace HandleEx

/-- The set for `/d` is changed. -/
def u2 : St := ((rewatch s1 [['d']] readdcw.write (readdcw.write ||| readdcw.rename) false).getD (s1, false)).1
/-- The loop gets to `loopstate`. -/
def u3 : St := again (take u2) true
/-- The port takes the new handle, or does not. -/
def u4 (ok : Bool) : St := (loopstate u3 { port := ok } {}).getD u3

theorem run3 (b : Bool) : CRun b [0] u3 :=
  ((((CRun.init.watch [['d']] readdcw.write false {} {}).rewatch [['d']] readdcw.write (readdcw.write ||| readdcw.rename) false u2 true
    (by rfl)).take).again true : CRun b ([] ++ watchC St.init [['d']] readdcw.write false {} {} ++
      rewatchC s1 [['d']] readdcw.write (readdcw.write ||| readdcw.rename) false) _)

end HandleEx

/-- The hypothesis of `C119_closes_partial` holds when the set is changed twice; two handles are closed. -/
example : CRun true [0, 1] ((rewatch (HandleEx.u4 true) [['d']] (readdcw.write ||| readdcw.rename) readdcw.write false).getD (HandleEx.s1, false)).1 :=
  ((HandleEx.run3 true).state { port := true } {} (HandleEx.u4 true) (by rfl) (fun _ => ⟨rfl, rfl⟩)).rewatch [['d']]
    (readdcw.write ||| readdcw.rename) readdcw.write false _ true (by rfl)

/-- **C119 is false of the code**, for closing: the set of a directory is changed, and the completion port does not take the handle that the
loop opens; `register` closes it, and so does `updateGrip`, again. -/
theorem C119_closes_refuted : ¬ C119_closes_full := by
  intro h
  have h1 : CRun false [0, 1, 1] (HandleEx.u4 false) :=
    (HandleEx.run3 false).state { port := false } {} (HandleEx.u4 false) (by rfl) (fun hf => by cases hf)
  have := h _ _ h1
  revert this
  decide

end Dcw
end Verif
