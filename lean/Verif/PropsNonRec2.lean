/-
Properties of the non-recursive tree: failed Watch (C10), coverage of directories (C15, C16, C17,
C44), leftovers of Stop (C19), the file system root (C43).
-/
import Verif.NonRecCover

namespace Verif
namespace NonRec
open GoMap Spec

variable {P : Platform}

/-! ### C10: failed Watch -/

/-- A failed non-recursive Watch changes no OS watch. -/
theorem watch_fail_os (O : Oracle) (s : St) (p : Path) (c : Nat) (e : Event)
    (h : (NonRec.watch P O s p c e).2 = false) (q : Path) :
    osOf (NonRec.watch P O s p c e).1.world.log q = osOf s.world.log q := by
  unfold NonRec.watch at h ⊢
  simp only at h ⊢
  split at h
  · simp at h
  · next h1 =>
    rw [if_neg h1]
    split at h
    · simp at h
    · next h2 =>
      rw [if_neg h2]
      split at h
      · simp at h
      · next h3 =>
        rw [if_neg h3]
        simp only [World.exec, Bool.not_eq_true] at h3 ⊢
        rw [h3, osOf_fail]

/-- **C10**, the part that holds.  A failed Watch leaves the entries of all other channels, and of
this channel on other paths, as they were; a failed non-recursive Watch also leaves every OS watch
as it was, and on the path itself adds to the channel's entry exactly those requested events that
the OS was watching there already (so nothing if none of them was, or if the channel had them); a
failed recursive Watch leaves the entries of all channels as they were.

Missing from the full statement ("registrations and OS watches are what they were"):
`C10_refuted_plain` and `C10_refuted_rec` show that it is false of the code. -/
theorem C10_failed_watch_partial (hP : P.Facts) {ops : List Op} {s s₁ : St} {p : Path} {isrec : Bool} {c : Nat}
    {e : Event} (h : Hist P true ops s) (hw : Step P true s (.watch p isrec c e false) s₁) :
    (∀ d q, ¬ (d = c ∧ q = p) → entry s₁.root d q = entry s.root d q) ∧
    (isrec = true → ∀ d q, entry s₁.root d q = entry s.root d q) ∧
    (isrec = false → (∀ q, osOf s₁.world.log q = osOf s.world.log q) ∧
      (entry s₁.root c p).getD 0 = (entry s.root c p).getD 0 ||| (e &&& osOf s.world.log p)) := by
  have hg := Hist.good hP h
  have hs := hg.shape
  obtain ⟨O, dt, hp, he, hd, _, hb, rfl⟩ := hw.watch_inv
  have heff := (watchOp_effect hP O hs hp isrec c he hd).2
  rw [← hb] at heff
  simp only [Bool.false_eq_true, if_false] at heff
  refine ⟨fun d q hdq => by rw [heff, if_neg hdq], ?_, ?_⟩
  · rintro rfl d q
    rw [heff]
    simp only [if_true, ite_self]
  · rintro rfl
    refine ⟨fun q => ?_, ?_⟩
    · unfold watchOp at hb ⊢
      simp only [Bool.false_eq_true, if_false] at hb ⊢
      exact watch_fail_os O _ p c e hb.symm q
    · rw [heff, if_pos ⟨rfl, rfl⟩]
      simp only [Bool.false_eq_true, if_false, rolledBack]
      rw [hg.sync p]
      have hval : (entry s.root c p).getD 0 = (watchAt s.root p).val (.user c) := rfl
      rw [hval]
      have hnr := hs.nr p
      have hsub := val_sub_total hnr.inv (k := .user c) nofun
      have hi := he.2
      generalize (watchAt s.root p).val (.user c) = x at *
      generalize (watchAt s.root p).total P = t at *
      have key : (x ||| e) &^ (e &^ t) = x ||| e &&& t := by
        clear heff hval hb
        ebits
      split
      · next h0 => rw [← key, h0]; rfl
      · rw [← key]; rfl

namespace Ex

/-- Channel 2 watches `/a` for Write. -/
def f1 : St := (watchOp I .ok list init [a] false 2 W).1
/-- Then channel 1 asks for Create and Write on `/a` and the OS refuses. -/
def f2 : St := (watchOp I (fun _ _ => false) list f1 [a] false 1 CW).1

theorem fstep1 : Step I true init (.watch [a] false 2 W true) f1 :=
  Step.watch (O := .ok) good_a uW list_named (fun _ _ => rfl)
theorem fstep2 : Step I true f1 (.watch [a] false 1 CW false) f2 :=
  Step.watch (O := fun _ _ => false) good_a uCW list_named (fun _ h => by cases h)

end Ex

example : Hist Ex.I true [.watch [Ex.a] false 2 Ex.W true] Ex.f1 ∧
    Step Ex.I true Ex.f1 (.watch [Ex.a] false 1 Ex.CW false) Ex.f2 ∧
    entry Ex.f2.root 1 [Ex.a] = some Ex.W ∧ entry Ex.f2.root 2 [Ex.a] = some Ex.W :=
  ⟨Steps.nil.snoc Ex.fstep1, Ex.fstep2, by decide, by decide⟩

/-- C01 applies to channel 2 after the failed Watch of channel 1. -/
example : (sends Ex.I Ex.f2.root { event := Ex.W, path := [Ex.a, Ex.f] }).count (.user 2) = 1 := by
  have h : Hist Ex.I true [.watch [Ex.a] false 2 Ex.W true, .watch [Ex.a] false 1 Ex.CW false] Ex.f2 := (Steps.nil.snoc Ex.fstep1).snoc Ex.fstep2
  rw [(C01_delivery_exact Ex.hI h (ei := { event := Ex.W, path := [Ex.a, Ex.f] }) (by decide) (by decide)
    (by unfold PlainEvent; decide)).1 2 (by simp [NoFail])]
  decide

/-- **C10** is false of the code, non-recursive Watch: a call that returned an error leaves the
channel registered, and it then receives events. -/
theorem C10_refuted_plain : ∃ (ops : List Op) (s s₁ : St) (p : Path) (c : Nat) (e : Event) (ei : EventInfo),
    Hist Platform.inotify true ops s ∧ Step Platform.inotify true s (.watch p false c e false) s₁ ∧
    (∀ q, entry s.root c q = none) ∧ Key.user c ∈ sends Platform.inotify s₁.root ei := by
  refine ⟨_, Ex.f1, Ex.f2, [Ex.a], 1, Ex.CW, { event := Ex.W, path := [Ex.a, Ex.f] },
    Steps.nil.snoc Ex.fstep1, Ex.fstep2, ?_, by decide⟩
  intro q
  obtain ⟨O, dt, hp, he, hd, _, _, hs⟩ := Ex.fstep1.watch_inv
  rw [hs, (watchOp_effect Ex.hI O (good_init Ex.I).shape hp false 2 he hd).2 1 q, if_neg (by simp)]
  have : watchAt init.root q = [] := by
    cases q <;> rfl
  unfold entry; rw [this]; rfl

namespace Ex
/-- Channel 1 asks for `/a/...`, and listing `/a` fails. -/
def g1 : St := (watchOp I .ok .err init [a] true 1 W).1
/-- Channel 1 repeats the call, and listing would succeed now. -/
def g2 : St := (watchOp I .ok list g1 [a] true 1 W).1

theorem gstep1 : Step I true init (.watch [a] true 1 W false) g1 :=
  Step.watch (O := .ok) (dt := .err) good_a uW trivial (fun _ _ => rfl)
theorem gstep2 : Step I true g1 (.watch [a] true 1 W true) g2 :=
  Step.watch (O := .ok) good_a uW list_named (fun _ _ => rfl)
end Ex

/-- **C10** is false of the code, recursive Watch: a call that returned an error leaves the OS
watches it made. -/
theorem C10_refuted_rec : ∃ (s₁ : St) (p : Path) (c : Nat) (e : Event),
    Step Platform.inotify true init (.watch p true c e false) s₁ ∧
    osOf init.world.log p = 0 ∧ osOf s₁.world.log p ≠ 0 :=
  ⟨Ex.g1, [Ex.a], 1, Ex.W, Ex.gstep1, by decide, by decide⟩

/-! ### C15: existing directories -/

/-- **C15**, the part that holds.  When a recursive Watch on a path that has no internal set yet
returns nil, every directory of the listing is watched for all the events plus Create.  When the
path already has one, the same holds for every directory known to the tree at or below the path,
unless the internal set of the path already has all the events.

Missing from the full statement: in the last case nothing is scanned, and the internal set may be
what is left of a failed call, see `C15_refuted`.  `C44_coverage` has the full statement for
histories without failed listings. -/
theorem C15_covers_partial (hP : P.Facts) {ops : List Op} {s : St} {p : Path} {c : Nat} {e : Event} {dt : DirTree}
    (h : Hist P true ops s) (hp : GoodPath p) (he : UserEvents P e) (hd : dt.Named)
    (hres : (watchOp P .ok dt s p true c e).2 = true) :
    (recAt s.root p = none → ∀ r ∈ dt.dirs,
      e ||| P.create ⊑ osOf (watchOp P .ok dt s p true c e).1.world.log (p ++ r)) ∧
    (∀ v, recAt s.root p = some v → ¬ e ||| P.create ⊑ v → ∀ r, s.root.find (p ++ r) ≠ none →
      e ||| P.create ⊑ osOf (watchOp P .ok dt s p true c e).1.world.log (p ++ r)) := by
  have hg := Hist.good hP h
  have hg' := hg.watchOp hP hp true (fun _ => rfl) c he.1 he.2 hd (O := .ok)
  have hs1 := hg.shape.add hp
  have hn := Node.add_get_ne_none s.root p
  have hset := recSet_of hP he.1 he.2
  have hcov : ∀ q x, recAt (watchOp P .ok dt s p true c e).1.root q = some (x ||| rset P (e ||| P.recursive)) →
      e ||| P.create ⊑ osOf (watchOp P .ok dt s p true c e).1.world.log q := by
    intro q x hq
    rw [hg'.sync q]
    have h1 := sub_total (hg'.shape.nr q).inv (k := .recCh) nofun hq
    have h2 := he.2
    have h3 := hP.create_rec
    have h4 := hP.create_omit
    clear hq
    unfold rset at h1
    generalize (watchAt (watchOp P .ok dt s p true c e).1.root q).total P = t at *
    ebits
  unfold watchOp at hres hcov ⊢
  simp only [if_true] at hres hcov ⊢
  have key := watchrec_rec hP .ok (s := { s with root := s.root.add p }) hs1 hp hn c hset hd hres
  simp only [recAt_add] at key
  constructor
  · intro hnone r hr
    rcases key with ⟨⟨v, hv, _⟩, _⟩ | ⟨_, hR⟩ | ⟨⟨v, hv⟩, _⟩
    · rw [hnone] at hv; simp at hv
    · exact hcov _ _ (hR.inside (p ++ r) ⟨r, hr, rfl⟩)
    · rw [hnone] at hv; simp at hv
  · intro v hv hnot r hr
    rcases key with ⟨⟨v', hv', hsub⟩, _⟩ | ⟨h1, _⟩ | ⟨_, hR⟩
    · exfalso
      rw [hv] at hv'
      obtain rfl := Option.some.inj hv'
      apply hnot
      ebits
    · rw [hv] at h1; simp at h1
    · refine hcov _ _ (hR.inside (p ++ r) ⟨List.prefix_append _ _, ?_⟩)
      rw [Node.add_find]
      split <;> simp [hr]

example : (watchOp Ex.I .ok Ex.list init [Ex.a] true 1 Ex.W).2 = true ∧ recAt init.root [Ex.a] = none ∧
    [Ex.b] ∈ Ex.list.dirs ∧ osOf Ex.s1.world.log [Ex.a, Ex.b] = Ex.CW := by decide

example : (watchOp Ex.I .ok Ex.list Ex.s1 [Ex.a] true 1 Ex.I.rename).2 = true ∧
    (∃ v, recAt Ex.s1.root [Ex.a] = some v ∧ ¬ Ex.I.rename &&& v = Ex.I.rename) ∧
    Ex.s1.root.find ([Ex.a] ++ [Ex.b]) ≠ none := ⟨by decide, ⟨_, rfl, by decide⟩, by decide⟩

/-- **C15** is false of the code: a recursive Watch whose listing failed, repeated when the listing
would succeed, returns nil and leaves the subdirectories unwatched. -/
theorem C15_refuted : ∃ (ops : List Op) (s : St) (p r : Path) (c : Nat) (e : Event) (dt : DirTree),
    Hist Platform.inotify true ops s ∧ GoodPath p ∧ UserEvents Platform.inotify e ∧ dt.Named ∧ dt.NoErr ∧
    (watchOp Platform.inotify .ok dt s p true c e).2 = true ∧ r ∈ dt.dirs ∧
    osOf (watchOp Platform.inotify .ok dt s p true c e).1.world.log (p ++ r) = 0 :=
  ⟨_, Ex.g1, [Ex.a], [Ex.b], 1, Ex.W, Ex.list, Steps.nil.snoc Ex.gstep1, Ex.good_a, Ex.uW, Ex.list_named,
    by simp [Ex.list, DirTree.NoErr, Entries.NoErr], by decide, by decide, by decide⟩

/-! ### C44: coverage of a changing directory tree -/

/-- The events asked for by the channel's recursive Watches on the path since its last Stop and
since the path was last removed. -/
def askedStep (P : Platform) (G : Nat → Path → Event) : Op → Nat → Path → Event
  | .watch p true c e true => fun d q => if d = c ∧ q = p then G c p ||| e else G d q
  | .watch .. => G
  | .stop c => fun d q => if d = c then 0 else G d q
  | .internal ei => fun d q => if ei.event = P.remove ∧ ei.path <+: q then 0 else G d q
  | .shuffle => G

def asked (P : Platform) (ops : List Op) : Nat → Path → Event := ops.foldl (askedStep P) (fun _ _ => 0)

/-- One step together with the set of directories that exist before and after.  Directories come
and go; every creation and removal is handled by the internal goroutine before the next step, and
directory listings show exactly what exists. -/
inductive DStep (P : Platform) : St → (Path → Prop) → Op → St → (Path → Prop) → Prop
  /-- Watch on one directory; the OS call may fail. -/
  | watch {s D p c e O dt} : GoodPath p → UserEvents P e → dt.Named → D p →
      DStep P s D (.watch p false c e (watchOp P O dt s p false c e).2) (watchOp P O dt s p false c e).1 D
  /-- Recursive Watch. -/
  | watchRec {s D p c e dt} : GoodPath p → UserEvents P e → dt.Named → dt.NoErr → D p →
      (∀ r, r ∈ dt.dirs ↔ D (p ++ r)) →
      DStep P s D (.watch p true c e (watchOp P .ok dt s p true c e).2) (watchOp P .ok dt s p true c e).1 D
  | stop {s D c} : DStep P s D (.stop c) (stop P .ok s c) D
  /-- A directory, with what the listing shows below it, appears in an existing directory. -/
  | mkdir {s D ei dt} : ei.event ≠ P.remove → GoodPath ei.path → ¬ D ei.path → D ei.path.dropLast →
      dt.Named → dt.NoErr →
      DStep P s D (.internal ei) (internal P .ok dt s ei) (fun q => D q ∨ ∃ r ∈ dt.dirs, q = ei.path ++ r)
  /-- A directory disappears with everything below it. -/
  | rmdir {s D ei dt} : ei.event = P.remove → GoodPath ei.path → dt.Named →
      DStep P s D (.internal ei) (internal P .ok dt s ei) (fun q => D q ∧ ¬ ei.path <+: q)
  | shuffle {s D root'} : Shuffle s.root root' → DStep P s D .shuffle { s with root := root' } D

/-- Histories with a set of directories, starting with the empty tree and any set of directories
(closed under parents). -/
inductive DHist (P : Platform) : List Op → St → (Path → Prop) → Prop
  | nil {D} : D [] → (∀ a b, D (a ++ b) → D a) → DHist P [] init D
  | snoc {ops s D op s' D'} : DHist P ops s D → DStep P s D op s' D' → DHist P (ops ++ [op]) s' D'

theorem DStep.step {s s' : St} {D D' : Path → Prop} {op : Op} (h : DStep P s D op s' D') : Step P true s op s' := by
  cases h with
  | watch hp he hd _ => exact Step.watch hp he hd (fun _ h => by cases h)
  | watchRec hp he hd _ _ _ => exact Step.watch hp he hd (fun _ _ => rfl)
  | stop => exact Step.stop (fun _ => rfl)
  | mkdir _ hp _ _ hd _ => exact Step.internal hp hd (fun _ => rfl)
  | rmdir _ hp hd => exact Step.internal hp hd (fun _ => rfl)
  | shuffle h => exact Step.shuffle h

theorem DHist.hist {ops : List Op} {s : St} {D : Path → Prop} (h : DHist P ops s D) : Hist P true ops s := by
  induction h with
  | nil => exact Steps.nil
  | snoc _ h2 ih => exact ih.snoc h2.step

/-- Without listing errors a recursive Watch succeeds. -/
theorem watchrec_ok (O : Oracle) (s : St) {p : Path} (hg : s.root.get? p ≠ none) (c : Nat) (e : Event)
    {dt : DirTree} (hne : dt.NoErr) : (NonRec.watchrec P O dt s p c e).2 = true := by
  obtain ⟨nd, hnd⟩ := Option.ne_none_iff_exists'.1 hg
  unfold NonRec.watchrec
  simp only [hnd]
  split
  · rfl
  split
  · rfl
  · have : (if (WP.dryAdd P (watchAt s.root p) .recCh (e ||| P.create)).1 = 0 then
        dt.addDir (recFunc P O e) s.world nd else
        ((nd.trav true (fun s _ n w => recFunc P O e s n w) s.world []).1,
         (nd.trav true (fun s _ n w => recFunc P O e s n w) s.world []).2, true)).2.2 = true := by
      split
      · exact DirTree.addDir_ok dt hne _ _
      · rfl
    rw [if_pos this]

theorem DStep.cov (hP : P.Facts) {s s' : St} {D D' : Path → Prop} {op : Op} {G : Nat → Path → Event}
    (hs : Shape P s.root) (h : Cov P s.root D G) (hst : DStep P s D op s' D') :
    Cov P s'.root D' (askedStep P G op) := by
  cases hst with
  | @watch p c e O dt hp he hd hD =>
    have := h.watchPlain hP O hs hp hD c he hd
    cases (watchOp P O dt s p false c e).2 <;> exact this
  | @watchRec p c e dt hp he hd hne hD hdirs =>
    have hres : (watchOp P .ok dt s p true c e).2 = true := by
      unfold watchOp
      simp only [if_true]
      exact watchrec_ok .ok _ (Node.add_get_ne_none s.root p) c _ hne
    rw [hres]
    exact h.watchRec hP .ok hs hp hD c he hd hdirs hres
  | stop => exact h.stop hP .ok hs _
  | mkdir hev hp hm hpar hd hne =>
    have := h.mkdir hP .ok hs hev hp hm hpar hd hne
    simpa [askedStep, hev] using this
  | rmdir hev hp hd =>
    have := h.rmdir .ok hs hev hp hd
    simpa [askedStep, hev] using this
  | shuffle hsh => exact h.shuffle hsh

theorem DHist.cov (hP : P.Facts) {ops : List Op} {s : St} {D : Path → Prop} (h : DHist P ops s D) :
    Cov P s.root D (asked P ops) := by
  induction h with
  | nil h0 hpre =>
    refine ⟨hpre, ?_, ?_, by simp [asked]⟩
    · intro q hq
      cases q with
      | nil => exact h0
      | cons b q => exact absurd (by simp [init, Node.new, Node.find, Node.get?, Forest.get?]) hq
    · intro q b v _ hv
      exfalso
      have : watchAt init.root q = [] := by cases q <;> rfl
      unfold recAt at hv; rw [this] at hv; simp at hv
  | snoc h1 h2 ih =>
    have := h2.cov hP (Hist.shape hP h1.hist) ih
    simpa [asked, List.foldl_append] using this

/-- **C44.**  In a history in which directory listings do not fail and every creation and removal is
handled, every existing directory below a recursive Watch of any channel is watched by the OS for
all the events the channel asked for recursively, plus Create, whatever the other channels did. -/
theorem C44_coverage (hP : P.Facts) {ops : List Op} {s : St} {D : Path → Prop} (h : DHist P ops s D)
    {c : Nat} {p r : Path} (ha : asked P ops c p ≠ 0) (hD : D (p ++ r)) :
    asked P ops c p ||| P.create ⊑ osOf s.world.log (p ++ r) := by
  have hc := h.cov hP
  have hg := Hist.good hP h.hist
  obtain ⟨hi, _, ⟨v, hv, hvs⟩⟩ := hc.asked c p ha
  obtain ⟨v', hv', hs'⟩ := hc.chain hv r hD
  have hrecv := (hg.shape.nr (p ++ r)).recv v' hv'
  rw [hg.sync]
  have h1 := sub_total (hg.shape.nr (p ++ r)).inv (k := .recCh) nofun hv'
  have h2 := hP.create_rec
  have h3 := hP.create_omit
  have h4 := hvs.trans hs'
  generalize (watchAt s.root (p ++ r)).total P = t at *
  generalize asked P ops c p = g at *
  clear hv hv' hvs hs' hc hg ha
  ebits

/-- The events of the channel and path were indeed asked for: what `C44_coverage` calls asked is
part of the channel's registration. -/
theorem C44_asked_registered (hP : P.Facts) {ops : List Op} {s : St} {D : Path → Prop} (h : DHist P ops s D)
    {c : Nat} {p : Path} (ha : asked P ops c p ≠ 0) : ∃ v, entry s.root c p = some v ∧ asked P ops c p ⊑ v :=
  ((h.cov hP).asked c p ha).2.1

/-- **C44**, second half.  The creation of a directory is handed to the internal goroutine whenever
it matters: if the dispatcher does not hand it over, handling it would not have changed the tree or
the OS watches. -/
theorem C44_handed_over (hP : P.Facts) {ops : List Op} {s : St} {D : Path → Prop} (h : DHist P ops s D)
    {ei : EventInfo} (hev : ei.event = P.create) (hdir : ei.isDir = some true) (hm : ¬ D ei.path)
    (hpar : D ei.path.dropLast) (hne : ei.path ≠ []) (hcr : P.create ≠ P.remove)
    (hno : toInternal P s.root ei = false) (O : Oracle) (dt : DirTree) :
    internal P O dt s ei = s := by
  have hc := h.cov hP
  have hg := Hist.good hP h.hist
  obtain ⟨q, b, hqb⟩ : ∃ q b, ei.path = q ++ [b] := by
    rcases path_cases ei.path with h1 | h1
    · exact absurd h1 hne
    · exact h1
  rw [hqb, List.dropLast_concat] at hpar
  have hpick := hc.pickSet hP hg.shape (q := q) (b := b) (by rwa [← hqb]) hpar
  rw [← hqb] at hpick
  rcases hpick with ⟨_, h2⟩ | ⟨h1, _⟩
  · unfold internal
    rw [if_neg (by rw [hev]; exact hcr)]
    simp only [h2, if_true]
  · exfalso
    have hq : q ≠ [] := by
      rintro rfl
      rw [recAt_top hg.shape] at h1; simp at h1
    obtain ⟨nd, hnd⟩ := get_of_find_ne (find_of_recAt h1)
    have hrec : nd.watch.isRecursive P = true := by
      have hw : watchAt s.root q = nd.watch := by simp [watchAt, Node.find, hnd]
      have hnr := hg.shape.nr q
      have hrv := hnr.recv _ h1
      have hr0 := hP.recursive_ne
      obtain ⟨i, hi⟩ := Event.ne_zero_iff.1 hr0
      have hoi : BitVec.getLsbD P.omitted i = false := by
        have := hP.rec_omit
        ebits
      have := (hnr.inv.total_bit i).2 ⟨hoi, .recCh, _, nofun, h1, hrv i (by simp [Platform.internal, hi])⟩
      rw [hw] at this
      simp only [WP.isRecursive, decide_eq_true_eq]
      rw [Event.ne_zero_iff]
      exact ⟨i, by simp only [BitVec.getLsbD_and, hi, Bool.and_true]; exact this⟩
    unfold toInternal at hno
    rw [hqb, List.dropLast_concat] at hno
    simp only [Node.walkPath_base _ hq, hnd, hrec, hdir, hev] at hno
    have hcne := hP.create_ne
    have : P.create &&& (P.create ||| P.remove) ≠ 0 := by ebits
    simp at hno
    exact this hno

namespace Ex

/-- The directories `/`, `/a`, `/a/b`. -/
def D0 : Path → Prop := fun q => q <+: [a, b]

theorem d1 : DHist I [.watch [a] true 1 W true] s1 D0 := by
  refine DHist.snoc (s := init) (D := D0) (ops := []) (DHist.nil (by simp [D0]) ?_) ?_
  · rintro x y ⟨z, h⟩; exact ⟨y ++ z, by rw [← h, List.append_assoc]⟩
  · refine DStep.watchRec good_a uW list_named (by simp [list, DirTree.NoErr, Entries.NoErr])
      (by simp [D0]) ?_
    intro r
    simp only [list, DirTree.dirs, Entries.dirs, D0]
    rcases r with _ | ⟨x, _ | ⟨y, r⟩⟩ <;> simp

/-- The directory `/a/b/c` with a directory `d` inside is created. -/
def mk : EventInfo := { event := I.create, path := [a, b, ['c']], isDir := some true }
abbrev mkList : DirTree := .dir (.cons ['d'] true (.dir .nil) .nil)

def d2s : St := internal I .ok mkList s1 mk
def D2 : Path → Prop := fun q => D0 q ∨ ∃ r ∈ mkList.dirs, q = mk.path ++ r

theorem dstep2 : DStep I s1 D0 (.internal mk) d2s D2 :=
  DStep.mkdir (by decide) (by simp [GoodPath, mk]) (by simp [D0, mk]) (by simp [D0, mk])
    (by simp [mkList, DirTree.Named, Entries.Named]) (by simp [mkList, DirTree.NoErr, Entries.NoErr])

theorem d2 : DHist I ([.watch [a] true 1 W true] ++ [.internal mk]) d2s D2 := d1.snoc dstep2

end Ex

example : DHist Ex.I ([.watch [Ex.a] true 1 Ex.W true] ++ [.internal Ex.mk]) Ex.d2s Ex.D2 ∧
    asked Ex.I ([.watch [Ex.a] true 1 Ex.W true] ++ [.internal Ex.mk]) 1 [Ex.a] = Ex.W ∧
    Ex.D2 [Ex.a, Ex.b, ['c'], ['d']] ∧ osOf Ex.d2s.world.log [Ex.a, Ex.b, ['c'], ['d']] = Ex.CW :=
  ⟨Ex.d2, by decide, Or.inr ⟨[['d']], by decide, rfl⟩, by decide⟩

/-- The second half of C44 is about events that are not handed over, here one below a directory
that is not watched recursively. -/
example : toInternal Ex.I Ex.s1.root { event := Ex.I.create, path := [['z'], ['y']], isDir := some true } = false ∧
    toInternal Ex.I Ex.s1.root Ex.mk = true := by decide

/-! ### C16: other channels -/

theorem asked_step_mono {G : Nat → Path → Event} {op : Op} {c : Nat} {p : Path} (h1 : op ≠ .stop c)
    (h2 : ∀ ei, op = .internal ei → ei.event = P.remove → ¬ ei.path <+: p) : G c p ⊑ askedStep P G op c p := by
  match op, h1, h2 with
  | .watch p' true c' e' true, _, _ =>
    simp only [askedStep]
    split
    · next h => rw [h.1, h.2]; exact Event.sub_or_left _ _
    · exact Event.Sub.refl _
  | .watch _ true _ _ false, _, _ => exact Event.Sub.refl _
  | .watch _ false _ _ _, _, _ => exact Event.Sub.refl _
  | .stop c', h1, _ =>
    simp only [askedStep]
    rw [if_neg (by rintro rfl; exact h1 rfl)]
    exact Event.Sub.refl _
  | .internal ei, _, h2 =>
    simp only [askedStep]
    rw [if_neg (fun h => h2 ei rfl h.1 h.2)]
    exact Event.Sub.refl _
  | .shuffle, _, _ => exact Event.Sub.refl _

theorem asked_mono {ops : List Op} (ops' : List Op) {c : Nat} {p : Path}
    (h : ∀ op ∈ ops', op ≠ .stop c ∧ ∀ ei, op = .internal ei → ei.event = P.remove → ¬ ei.path <+: p) :
    asked P ops c p ⊑ asked P (ops ++ ops') c p := by
  unfold asked
  rw [List.foldl_append]
  generalize ops.foldl (askedStep P) (fun _ _ => 0) = G
  induction ops' generalizing G with
  | nil => exact Event.Sub.refl _
  | cons op ops' ih =>
    have h0 := h op (by simp)
    exact (asked_step_mono h0.1 h0.2).trans (ih (fun o ho => h o (by simp [ho])) _)

/-- **C16**, for histories in which directory listings do not fail.  After a recursive Watch of `c`
and any further operations other than Stop(c) and removal of the path (or of a directory above it),
every directory below the path is watched for the events of the Watch plus Create.

Missing from the full statement: histories with a failed recursive Watch, of which it is false, see
`C16_refuted`. -/
theorem C16_survives_partial (hP : P.Facts) {ops ops' : List Op} {s : St} {D : Path → Prop} {p : Path} {c : Nat}
    {e : Event} (h : DHist P (ops ++ [.watch p true c e true] ++ ops') s D) (he : e ≠ 0)
    (hops' : ∀ op ∈ ops', op ≠ .stop c ∧ ∀ ei, op = .internal ei → ei.event = P.remove → ¬ ei.path <+: p)
    {r : Path} (hD : D (p ++ r)) : e ||| P.create ⊑ osOf s.world.log (p ++ r) := by
  have h1 : e ⊑ asked P (ops ++ [.watch p true c e true]) c p := by
    simp only [asked, List.foldl_append, List.foldl_cons, List.foldl_nil, askedStep, and_self, if_true]
    exact Event.sub_or_right _ _
  have h2 := h1.trans (asked_mono ops' hops')
  have h3 : asked P (ops ++ [.watch p true c e true] ++ ops') c p ≠ 0 := by
    intro h0; rw [h0] at h2; exact he (Event.sub_zero h2)
  have h4 := C44_coverage hP h h3 hD
  exact Event.or_sub (h2.trans (Event.Sub.trans (Event.sub_or_left _ _) h4))
    (Event.Sub.trans (Event.sub_or_right _ _) h4)

example : DHist Ex.I ([] ++ [.watch [Ex.a] true 1 Ex.W true] ++ [.internal Ex.mk]) Ex.d2s Ex.D2 ∧
    Ex.D2 ([Ex.a] ++ [Ex.b, ['c']]) ∧ Ex.mk.event ≠ Ex.I.remove :=
  ⟨Ex.d2, Or.inr ⟨[], by decide, rfl⟩, by decide⟩

namespace Ex
/-- After the failed and repeated Watch, channel 2 watches `/a/b`, and is stopped. -/
def g3 : St := (watchOp I .ok list g2 [a, b] false 2 CW).1
def g4 : St := stop I .ok g3 2
theorem gstep3 : Step I true g2 (.watch [a, b] false 2 CW true) g3 :=
  Step.watch (O := .ok) good_ab uCW list_named (fun _ _ => rfl)
theorem gstep4 : Step I true g3 (.stop 2) g4 := Step.stop (fun _ => rfl)
end Ex

/-- **C16** is false of the code after a failed recursive Watch: channel 1 watches `/a/...`, `/a/b`
is covered, and Stop of channel 2 removes the OS watch. -/
theorem C16_refuted : ∃ (ops : List Op) (s s₁ : St) (p r : Path) (c d : Nat) (v : Event),
    Hist Platform.inotify true ops s ∧ Step Platform.inotify true s (.stop d) s₁ ∧ c ≠ d ∧
    entry s.root c p = some (v ||| Platform.inotify.recursive) ∧
    v ||| Platform.inotify.create ⊑ osOf s.world.log (p ++ r) ∧ osOf s₁.world.log (p ++ r) = 0 :=
  ⟨_, Ex.g3, Ex.g4, [Ex.a], [Ex.b], 1, 2, Ex.W,
    ((Steps.nil.snoc Ex.gstep1).snoc Ex.gstep2).snoc Ex.gstep3, Ex.gstep4, by decide, by decide,
    Event.sub_iff_and.2 (by decide), by decide⟩

/-! ### C17: new directories -/

/-- **C17**, for histories in which directory listings do not fail.  A new directory and every
directory listed below it is watched for the events of every recursive Watch above it, plus Create.

Missing from the full statement: histories with a failed recursive Watch, of which it is false, see
`C17_refuted`. -/
theorem C17_new_dir_partial (hP : P.Facts) {ops : List Op} {s : St} {D : Path → Prop} {ei : EventInfo} {dt : DirTree}
    (h : DHist P ops s D) (hev : ei.event ≠ P.remove) (hp : GoodPath ei.path) (hm : ¬ D ei.path)
    (hpar : D ei.path.dropLast) (hd : dt.Named) (hne : dt.NoErr)
    {c : Nat} {p r : Path} (hpre : p <+: ei.path) (ha : asked P ops c p ≠ 0) (hr : r ∈ dt.dirs) :
    asked P ops c p ||| P.create ⊑ osOf (internal P .ok dt s ei).world.log (ei.path ++ r) := by
  have h1 := h.snoc (DStep.mkdir hev hp hm hpar hd hne)
  obtain ⟨t, ht⟩ := hpre
  have h2 : asked P (ops ++ [.internal ei]) c p = asked P ops c p := by
    simp [asked, List.foldl_append, askedStep, hev]
  rw [← h2] at ha ⊢
  have h3 := C44_coverage hP h1 ha (r := t ++ r)
    (by right; exact ⟨r, hr, by rw [← List.append_assoc, ht]⟩)
  rw [← List.append_assoc, ht] at h3
  exact h3

example : DHist Ex.I [.watch [Ex.a] true 1 Ex.W true] Ex.s1 Ex.D0 ∧ Ex.mk.event ≠ Ex.I.remove ∧
    GoodPath Ex.mk.path ∧ ¬ Ex.D0 Ex.mk.path ∧ Ex.D0 Ex.mk.path.dropLast ∧ [Ex.a] <+: Ex.mk.path ∧
    asked Ex.I [.watch [Ex.a] true 1 Ex.W true] 1 [Ex.a] ≠ 0 ∧ [['d']] ∈ Ex.mkList.dirs :=
  ⟨Ex.d1, by decide, by simp [GoodPath, Ex.mk], by simp [Ex.D0, Ex.mk], by simp [Ex.D0, Ex.mk], by decide, by decide, by decide⟩

namespace Ex
abbrev Rn : Event := I.rename
theorem uRn : UserEvents I Rn := by unfold UserEvents; decide
/-- Channel 2 watches `/a/b/...` for Rename. -/
def k1 : St := (watchOp I .ok (.dir .nil) init [a, b] true 2 Rn).1
/-- Channel 1 asks for `/a/...`, Write; listing fails. -/
def k2 : St := (watchOp I .ok .err k1 [a] true 1 W).1
/-- Channel 1 repeats the call, which succeeds. -/
def k3 : St := (watchOp I .ok list k2 [a] true 1 W).1
/-- `/a/b/c` is created. -/
def k4 : St := internal I .ok (.dir .nil) k3 mk
theorem kstep1 : Step I true init (.watch [a, b] true 2 Rn true) k1 :=
  Step.watch (O := .ok) (dt := .dir .nil) good_ab uRn trivial (fun _ _ => rfl)
theorem kstep2 : Step I true k1 (.watch [a] true 1 W false) k2 :=
  Step.watch (O := .ok) (dt := .err) good_a uW trivial (fun _ _ => rfl)
theorem kstep3 : Step I true k2 (.watch [a] true 1 W true) k3 :=
  Step.watch (O := .ok) good_a uW list_named (fun _ _ => rfl)
theorem kstep4 : Step I true k3 (.internal mk) k4 :=
  Step.internal (by simp [GoodPath, mk]) trivial (fun _ => rfl)
end Ex

/-- **C17** is false of the code after a failed recursive Watch: the set used for the new directory
is that of one of the recursive watchpoints above it, not the union. -/
theorem C17_refuted : ∃ (ops : List Op) (s s₁ : St) (ei : EventInfo) (p : Path) (c : Nat) (v : Event),
    Hist Platform.inotify true ops s ∧ Step Platform.inotify true s (.internal ei) s₁ ∧
    ei.event = Platform.inotify.create ∧ toInternal Platform.inotify s.root ei = true ∧
    entry s.root c p = some (v ||| Platform.inotify.recursive) ∧ p <+: ei.path ∧ v ≠ 0 ∧
    osOf s₁.world.log ei.path ≠ 0 ∧ v &&& osOf s₁.world.log ei.path = 0 :=
  ⟨_, Ex.k3, Ex.k4, Ex.mk, [Ex.a], 1, Ex.W,
    ((Steps.nil.snoc Ex.kstep1).snoc Ex.kstep2).snoc Ex.kstep3, Ex.kstep4, rfl, by decide, by decide, by decide,
    by decide, by decide, by decide⟩

/-! ### C19: what Stop leaves -/

/-- **C19**, the part that holds.  After Stop(c), every event the OS watches on a path, other than
Create, is registered by a remaining channel on the path or on a directory above it; and the OS
watches nothing on a path if no channel is registered on it or above it.

Missing from the full statement: "above it" should be restricted to recursive registrations.
`C19_refuted` shows that this is false of the code. -/
theorem C19_minimal_partial (hP : P.Facts) {ops : List Op} {s s₁ : St} {c : Nat} (h : Hist P true ops s)
    (hst : Step P true s (.stop c) s₁) (q : Path) :
    (∀ i, BitVec.getLsbD (osOf s₁.world.log q) i = true → BitVec.getLsbD P.create i = true ∨
      ∃ d r v, r <+: q ∧ entry s₁.root d r = some v ∧ BitVec.getLsbD v i = true) ∧
    ((∀ d r, r <+: q → entry s₁.root d r = none) → osOf s₁.world.log q = 0) := by
  have hg := Hist.good hP h
  have hg₁ := Step.good hP hg hst
  have hs := hg.shape
  have hs₁ := hg₁.shape
  cases hst with
  | @stop _ O hO =>
    have hent := (stop_effect hP O hs c).2
    have hspec := fun q b => watchDelMin_spec hP (hs.nr (q ++ [b])) (hs₁.nr q).minOK c
    -- the internal set
    have hrec : ∀ q v, recAt (stop P O s c).root q = some v →
        (∀ i, BitVec.getLsbD v i = true → BitVec.getLsbD (P.create ||| P.internal) i = true ∨
          ∃ d r v, r <+: q ∧ entry (stop P O s c).root d r = some v ∧ BitVec.getLsbD v i = true) ∧
        ∃ d r v, r <+: q ∧ entry (stop P O s c).root d r = some v := by
      intro q
      induction hn : q.length generalizing q with
      | zero =>
        intro v hv
        have : q = [] := List.length_eq_zero_iff.1 hn
        rw [this, recAt_top hs₁] at hv; simp at hv
      | succ n ih =>
        intro v hv
        rcases path_cases q with rfl | ⟨r, b, rfl⟩
        · simp at hn
        · have ih' := ih r (by simpa using hn)
          unfold recAt at hv
          rw [stop_watchAt O hs] at hv
          split at hv
          · change GoMap.get? (watchDelMin P ((watchAt (stop P O s c).root r).val .recCh) _ _ _).1 _ = _ at hv
            have hmin : (watchAt (stop P O s c).root r).val .recCh = (recAt (stop P O s c).root r).getD 0 := rfl
            constructor
            · intro i hi
              have h1 := ((hspec r b).2.2.2.1 i).1 (by rw [val_of_some hv]; exact hi)
              rcases h1.2.2 with h2 | h2 | ⟨_, d, u, hd, hu, hb⟩
              · cases hr : recAt (stop P O s c).root r with
                | none => rw [hmin, hr] at h2; simp at h2
                | some u =>
                  rw [hmin, hr] at h2
                  rcases (ih' u hr).1 i h2 with h3 | ⟨d, t, w, ht, hw, hb⟩
                  · exact Or.inl h3
                  · exact Or.inr ⟨d, t, w, ht.trans (List.prefix_append _ _), hw, hb⟩
              · exact Or.inl h2
              · exact Or.inr ⟨d, r ++ [b], u, List.prefix_rfl, by rw [hent, if_neg hd]; exact hu, hb⟩
            · have h1 := (not_congr (hspec r b).2.2.2.2).1 (by rw [hv]; simp)
              rw [not_or] at h1
              by_cases h0 : (watchAt (stop P O s c).root r).val .recCh = 0
              · have h2 := fun h3 => h1.2 ⟨h0, h3⟩
                by_contra hno
                apply h2
                intro d u i hd hu _
                exact absurd ⟨d, r ++ [b], u, List.prefix_rfl, by rw [hent, if_neg hd]; exact hu⟩ hno
              · cases hr : recAt (stop P O s c).root r with
                | none => rw [hmin, hr] at h0; exact absurd rfl h0
                | some u =>
                  obtain ⟨d, t, w, ht, hw⟩ := (ih' u hr).2
                  exact ⟨d, t, w, ht.trans (List.prefix_append _ _), hw⟩
          · simp at hv
    rw [hg₁.sync q]
    have hb : ∀ i, BitVec.getLsbD (WP.total P (watchAt (stop P O s c).root q)) i = true →
        BitVec.getLsbD P.internal i = false ∧ ∃ k v, k ≠ Key.nil ∧
          (watchAt (stop P O s c).root q).get? k = some v ∧ BitVec.getLsbD v i = true := by
      intro i hi
      exact (NonRec.total_bit (hs₁.nr q).inv i).1 hi
    constructor
    · intro i hi
      obtain ⟨hni, k, v, hk, hv, hvi⟩ := hb i hi
      cases k with
      | nil => exact absurd rfl hk
      | user d => exact Or.inr ⟨d, q, v, List.prefix_rfl, hv, hvi⟩
      | recCh =>
        rcases (hrec q v hv).1 i hvi with h1 | h1
        · left
          simp only [BitVec.getLsbD_or, Bool.or_eq_true] at h1
          rcases h1 with h1 | h1
          · exact h1
          · rw [hni] at h1; simp at h1
        · exact Or.inr h1
    · intro hnone
      apply Event.zero_of_getLsbD
      intro i
      by_contra hi
      rw [Bool.not_eq_false] at hi
      obtain ⟨_, k, v, hk, hv, hvi⟩ := hb i hi
      cases k with
      | nil => exact absurd rfl hk
      | user d =>
        have := hnone d q List.prefix_rfl
        unfold entry at this; rw [hv] at this; simp at this
      | recCh =>
        obtain ⟨d, r, w, hr, hw⟩ := (hrec q v hv).2
        rw [hnone d r hr] at hw; simp at hw

example : Hist Ex.I true Ex.ops2 Ex.s2 ∧ Step Ex.I true Ex.s2 (.stop 1) Ex.s3 ∧
    osOf Ex.s3.world.log [Ex.a] = 0 ∧ osOf Ex.s3.world.log [Ex.a, Ex.b] = Ex.CW :=
  ⟨Ex.hist2, Ex.step3, by decide, by decide⟩

namespace Ex
/-- Channel 1 watches `/a/...` for Write, channel 2 watches `/a` (not below) for Write; channel 1 is stopped. -/
def m2 : St := (watchOp I .ok list s1 [a] false 2 W).1
def m3 : St := stop I .ok m2 1
theorem mstep2 : Step I true s1 (.watch [a] false 2 W true) m2 :=
  Step.watch (O := .ok) good_a uW list_named (fun _ _ => rfl)
theorem mstep3 : Step I true m2 (.stop 1) m3 := Step.stop (fun _ => rfl)
end Ex

/-- **C19** is false of the code: with only a non-recursive registration on `/a` left, the OS still
watches the subdirectory. -/
theorem C19_refuted : ∃ (ops : List Op) (s s₁ : St) (c : Nat) (q : Path),
    Hist Platform.inotify true ops s ∧ Step Platform.inotify true s (.stop c) s₁ ∧
    (∀ d r v, entry s₁.root d r = some v → r ≠ q ∧ v &&& Platform.inotify.recursive = 0) ∧
    osOf s₁.world.log q ≠ 0 := by
  refine ⟨_, Ex.m2, Ex.m3, 1, [Ex.a, Ex.b], Ex.hist1.snoc Ex.mstep2, Ex.mstep3, ?_, by decide⟩
  intro d r v hv
  obtain ⟨O, dt, hp, he, hd, _, _, hs1⟩ := Ex.step1.watch_inv
  have e1 := (watchOp_effect Ex.hI .ok (good_init Ex.I).shape Ex.good_a true 1 Ex.uW Ex.list_named)
  have e2 := (watchOp_effect Ex.hI .ok e1.1 Ex.good_a false 2 Ex.uW Ex.list_named)
  have e3 := (stop_effect Ex.hI .ok e2.1 1)
  have h3 := e3.2 d r
  change entry Ex.m3.root d r = _ at h3
  rw [h3] at hv
  split at hv
  · simp at hv
  · next hd1 =>
    rw [e2.2] at hv
    split at hv
    · next hdr =>
      obtain ⟨rfl, rfl⟩ := hdr
      refine ⟨by decide, ?_⟩
      have : v = Ex.W := by
        have h5 : entry Ex.m3.root 2 [Ex.a] = some Ex.W := by decide
        rw [h3, if_neg hd1, e2.2, if_pos ⟨rfl, rfl⟩] at h5
        rw [hv] at h5
        exact Option.some.inj h5
      rw [this]; decide
    · rw [e1.2, if_neg (by rintro ⟨h4, _⟩; exact hd1 h4)] at hv
      have : watchAt init.root r = [] := by cases r <;> rfl
      unfold entry at hv; rw [this] at hv; simp at hv

/-! ### C43: the root directory -/

/-- **C43** is false of the code: no event on a top-level path such as `/f` is delivered to anyone,
whatever is registered. -/
theorem C43_refuted (P : Platform) (root : Node) (f : Comp) (ei : EventInfo) (h : ei.path = [f]) :
    sends P root ei = [] ∧ toInternal P root ei = false := by
  simp [sends, toInternal, h, Node.walkPath]

namespace Ex
/-- Channel 1 watches the top-level file `/f` for Write. -/
def r1 : St := (watchOp I .ok list init [f] false 1 W).1
theorem rstep1 : Step I true init (.watch [f] false 1 W true) r1 :=
  Step.watch (O := .ok) (by simp [GoodPath]) uW list_named (fun _ _ => rfl)
end Ex

/-- The registration and the OS watch are there, only the delivery is missing. -/
example : Step Ex.I true init (.watch [Ex.f] false 1 Ex.W true) Ex.r1 ∧ entry Ex.r1.root 1 [Ex.f] = some Ex.W ∧
    osOf Ex.r1.world.log [Ex.f] = Ex.W ∧ sends Ex.I Ex.r1.root { event := Ex.W, path := [Ex.f] } = [] :=
  ⟨Ex.rstep1, by decide, by decide, by decide⟩

/-- **C43** is false of recursive Watch, too.  The root directory has the subdirectories `ab` and `xb`.  A recursive Watch of `/` succeeds,
every call succeeds, but only one of the two is watched: node names below `/` lack their first letter, so both are `b`. -/
theorem C43_collide_refuted :
    let r := watchOp Platform.inotify .ok (.dir (.cons ['a', 'b'] true (.dir .nil) (.cons ['x', 'b'] true (.dir .nil) .nil))) init [[]] true 1
      Platform.inotify.write
    r.2 = true ∧ osOf r.1.world.log [['a', 'b']] ≠ 0 ∧ osOf r.1.world.log [['x', 'b']] = 0 := by decide

/-- **C43**: a channel registered on `/` only, recursively or not, never receives anything, on both trees. -/
theorem C43_deaf_refuted (P : Platform) (root : Node) (c : Nat)
    (h : ∀ q nd v, root.get? q = some nd → (Key.user c, v) ∈ nd.watch → q = [[]]) {ei : EventInfo}
    (hp : ei.path = [[]] ∨ [] ∉ ei.path) : Key.user c ∉ sends P root ei := by
  intro hm
  rcases hp with hp | hp
  · rw [sends_short root (by simp [hp])] at hm; cases hm
  · obtain ⟨_, q, nd, v, hg, hv, hh⟩ := mem_sends hm
    obtain rfl := h q nd v hg hv
    rcases hh with ⟨hh, _⟩ | ⟨hh | hh, _⟩
    · exact hp (List.dropLast_subset _ (hh.subset (List.mem_singleton_self _)))
    · exact hp (List.dropLast_subset _ (hh ▸ List.mem_singleton_self _))
    · exact hp (hh ▸ List.mem_singleton_self _)

/-- Channel 1 watches `/` recursively; every call succeeded, and `/ab` is watched by the OS. -/
example :
    let r := watchOp Platform.inotify .ok (.dir (.cons ['a', 'b'] true (.dir .nil) .nil)) init [[]] true 1 Platform.inotify.write
    r.2 = true ∧ osOf r.1.world.log [[]] ≠ 0 ∧ osOf r.1.world.log [['a', 'b']] ≠ 0 ∧ (watchAt r.1.root [[]]).get? (.user 1) ≠ none ∧
    sends Platform.inotify r.1.root { event := Platform.inotify.write, path := [['a', 'b'], ['f']] } = [] := by decide

end NonRec
end Verif
