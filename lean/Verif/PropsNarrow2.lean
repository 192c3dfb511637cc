/-
Watch never asks the OS watcher for fewer events (C131).
-/
import Verif.PropsNarrow

namespace Verif

/-- The call takes no events away: it sets a watch, or adds events to one and leaves it where it is. -/
def Call.Widens : Call → Prop
  | .watch _ _ | .recWatch _ _ => True
  | .rewatch _ o n => o ⊑ n
  | .recRewatch p p' o n => p = p' ∧ o ⊑ n
  | .unwatch _ | .recUnwatch _ => False

namespace NonRec
variable {P : Platform}

theorem diffOf_widen {a b : Event} (h : a ⊑ b) : (diffOf a b).1 ⊑ (diffOf a b).2 := by
  unfold diffOf
  split
  · exact fun i hi => hi
  · exact h

theorem add_widen (P : Platform) (w : WP) {k : Key} (hk : k ≠ .nil) (e : Event) : (w.add P k e).2.1 ⊑ (w.add P k e).2.2 := by
  rw [add_diffOf P w hk, total_add P w hk]
  exact diffOf_widen (Event.sub_or_left _ _)

theorem diffCall_widen (n : Path) {d : Diff} (h : d.1 ⊑ d.2) : (diffCall n d).Widens := by
  unfold diffCall
  split
  · trivial
  · exact h

theorem recFunc_widen {a : Log} {O : Oracle} {e : Event} {s : World} {n : Path} {w : WP} (h : Each Call.Widens a s.log) :
    Each Call.Widens a (recFunc P O e s n w).1.log := by
  unfold recFunc
  simp only
  split
  · exact h
  · split
    · exact h
    · exact h.trans (Each.one (diffCall_widen n (add_widen P w (by simp) _)))

theorem trav_widen {O : Oracle} {e : Event} (he : P.recursive ⊑ e) {skip : Bool} {nd : Node} {n : Path}
    (hok : nd.OK (NR P) noR n) (s : World) :
    Each Call.Widens s.log (nd.trav skip (fun s _ n w => recFunc P O e s n w) s []).1.log :=
  (Node.trav_os (skip := skip) (fn := fun s (_ : WP) n w => recFunc P O e s n w)
    (os := fun _ _ => true) (tot := fun _ => true) (V := fun t => Each Call.Widens s.log t.log) (Q := NR P) (Q' := NR P)
    (fun s _ n w _ hw => recFunc_nr he hw)
    (fun s _ n w _ _ hs _ => ⟨recFunc_widen hs, rfl, fun _ _ => rfl⟩) (s := s) (nr_nil P) hok
    (Each.refl _ _) (by intro r w _; rfl)).1

theorem addDir_widen {O : Oracle} {e : Event} (he : P.recursive ⊑ e) {d : DirTree} (hd : d.Named) {nd : Node}
    {n : Path} (hn : [] ∉ n) (hok : nd.OK (NR P) noR n) (s : World) :
    Each Call.Widens s.log (d.addDir (recFunc P O e) s nd).1.log :=
  (DirTree.addDir_os (os := fun (_ : World) _ => true) (tot := fun _ => true)
    (V := fun t => Each Call.Widens s.log t.log) (nr_nil P) (fun s n w hw => recFunc_nr he hw)
    (fun s n w _ hs _ => ⟨recFunc_widen hs, rfl, fun _ _ => rfl⟩) hn d hd
    (s := s) hok (Each.refl _ _) (by intro r; rfl)).1

theorem watch_widen (O : Oracle) (s : St) (p : Path) (c : Nat) (e : Event) :
    Each Call.Widens s.world.log (NonRec.watch P O s p c e).1.world.log := by
  unfold NonRec.watch
  simp only
  split
  · exact Each.refl _ _
  · split
    · exact Each.refl _ _
    · split <;> exact Each.one (diffCall_widen p (add_widen P _ (by simp) e))

theorem watchrec_widen (O : Oracle) {s : St} (h : Shape P s.root) {p : Path} (hp : GoodPath p) (c : Nat) {e : Event} (he : P.recursive ⊑ e)
    {d : DirTree} (hd : d.Named) : Each Call.Widens s.world.log (NonRec.watchrec P O d s p c e).1.world.log := by
  unfold NonRec.watchrec
  simp only
  split
  · exact Each.refl _ _
  · split
    · exact Each.refl _ _
    · split
      · exact Each.refl _ _
      · next nd hnd =>
        have hndok : nd.OK (NR P) noR p := by simpa using h.ok.get hp.2 hnd
        have key : Each Call.Widens s.world.log
            (if ((watchAt s.root p).dryAdd P .recCh (e ||| P.create)).1 = 0 then d.addDir (recFunc P O e) s.world nd
            else
              let x := nd.trav true (fun s _ n w => recFunc P O e s n w) s.world []
              (x.1, x.2, true)).1.log := by
          split
          · exact addDir_widen he hd hp.2 hndok _
          · exact trav_widen he hndok _
        generalize (if ((watchAt s.root p).dryAdd P .recCh (e ||| P.create)).1 = 0 then d.addDir (recFunc P O e) s.world nd
            else
              let x := nd.trav true (fun s _ n w => recFunc P O e s n w) s.world []
              (x.1, x.2, true)) = r at key ⊢
        split <;> exact key

/-- **C131, no native recursion: Watch.**  After any history, whatever the OS and the directory listings answer: every call that Watch makes
sets a watch or adds events to one, also if the Watch fails. -/
theorem C131_watch (hP : P.Facts) {rel : Bool} {ops : List Op} {s : St} (h : Hist P rel ops s) (O : Oracle) {dt : DirTree} (hd : dt.Named)
    {p : Path} (hp : GoodPath p) (isrec : Bool) (c : Nat) {e : Event} (he : UserEvents P e) :
    Each Call.Widens s.world.log (watchOp P O dt s p isrec c e).1.world.log := by
  have hs := h.shape hP
  unfold watchOp
  cases isrec with
  | true =>
    simp only [if_true]
    exact watchrec_widen O (s := { s with root := s.root.add p }) (hs.add hp) hp c (recSet_of hP he.1 he.2).hr hd
  | false =>
    simp only [Bool.false_eq_true, if_false]
    exact watch_widen O { s with root := s.root.add p } p c e

/-- **C131, no native recursion: a directory appears.** -/
theorem C131_appears (hP : P.Facts) {rel : Bool} {ops : List Op} {s : St} (h : Hist P rel ops s) (O : Oracle) {dt : DirTree} (hd : dt.Named)
    {ei : EventInfo} (hp : GoodPath ei.path) (he : ei.event ≠ P.remove) :
    Each Call.Widens s.world.log (internal P O dt s ei).world.log := by
  have hs := h.shape hP
  unfold NonRec.internal
  rw [if_neg he]
  simp only
  split
  · exact Each.refl _ _
  · next hne =>
    have h1 := hs.add hp
    split
    · exact Each.refl _ _
    · next nd hnd =>
      have hndok : nd.OK (NR P) noR ei.path := by simpa using h1.ok.get hp.2 hnd
      exact addDir_widen (rec_of_set (pickSet_ok hs.ok hne)) hd hp.2 hndok _

/-- Non-trivial case: a second Watch of a path changes the OS watch; that of a directory that cannot be listed fails and makes a call. -/
example : ∃ s, Hist Ex.I true [.watch [Ex.a] false 1 Ex.W true] s ∧
    (watchOp Ex.I .ok .err s [Ex.a] false 2 Ex.CW).1.world.log.head? = some (.rewatch [Ex.a] Ex.W Ex.CW, true) ∧
    (watchOp Ex.I .ok .err s [Ex.a] true 2 Ex.CW).2 = false ∧
    (watchOp Ex.I .ok .err s [Ex.a] true 2 Ex.CW).1.world.log.length = s.world.log.length + 1 :=
  ⟨_, Steps.nil.snoc (Step.watch (O := .ok) (dt := .dir .nil) Ex.good_a Ex.uW (by simp [DirTree.Named, Entries.Named]) (fun _ h => by simp at h)),
    by decide, by decide, by decide⟩

end NonRec

namespace Rec
open GoMap NonRec

variable {P : Platform}

theorem orDiff_widen {d : Diff} (h : d.1 ⊑ d.2) (t : Event) : (orDiff d t t).1 ⊑ (orDiff d t t).2 := by
  unfold orDiff
  split
  · exact fun i hi => hi
  · dsimp only
    ebits

theorem watchAdd_widen (nd : Node) (c : Nat) (e : Event) : (watchAdd P nd (.user c) e).2.1 ⊑ (watchAdd P nd (.user c) e).2.2 := by
  unfold watchAdd
  simp only
  split
  · exact orDiff_widen (add_widen P _ (by simp) e) _
  · exact add_widen P _ (by simp) e

theorem watchAddInactive_widen (nd : Node) (c : Nat) (e : Event) :
    (watchAddInactive P nd (.user c) e).2.1 ⊑ (watchAddInactive P nd (.user c) e).2.2 :=
  orDiff_widen (add_widen P _ (by simp) e) _

theorem watchUnder_widen (O : Oracle) (s : St) (q p : Path) (isrec : Bool) (c : Nat) (e : Event) :
    Each Call.Widens s.world.log (watchUnder P O s q p isrec c e).1.world.log := by
  simp only [watchUnder]
  have hr : (if q = p then watchAdd P (nodeAt s.root q) (.user c) e else watchAddInactive P (nodeAt s.root q) (.user c) e).2.1 ⊑
      (if q = p then watchAdd P (nodeAt s.root q) (.user c) e else watchAddInactive P (nodeAt s.root q) (.user c) e).2.2 := by
    split
    · exact watchAdd_widen _ c e
    · exact watchAddInactive_widen _ c e
  generalize (if q = p then watchAdd P (nodeAt s.root q) (.user c) e else watchAddInactive P (nodeAt s.root q) (.user c) e) = r at hr ⊢
  split
  · exact Each.refl _ _
  · split
    · exact Each.refl _ _
    · split
      · split <;> exact Each.one (x := (Call.recRewatch _ _ _ _, _)) ⟨rfl, hr⟩
      · split <;> exact Each.one (x := (Call.rewatch _ _ _, _)) hr

/-- **C131, native recursion (partial).**  After any history, whatever the OS answers: every call that Watch of `p` makes sets a watch or adds
events to one and leaves it where it is, or is for `p` and paths below it only.  Missing: that no event is lost when watches below `p` are
replaced by one of `p`, for which see `C131_replace_partial`. -/
theorem C131_native_partial (hP : P.Facts) {rel : Bool} {ops : List ROp} {s : St} (h : RHist P rel ops s) (O : Oracle)
    {p : Path} (hp : GoodPath p) (isrec : Bool) (c : Nat) {e : Event} (he : UserEvents P e) :
    Each (fun x => x.Widens ∨ ∀ q ∈ x.paths, p <+: q) s.world.log (watchOp P O s p isrec c e).1.world.log := by
  cases hpar : parentOf P s.root p with
  | some t =>
    have : (watchOp P O s p isrec c e) = watchUnder P O { s with root := s.root.add p } t p isrec c (if isrec then e ||| P.recursive else e) := by
      unfold watchOp
      simp only [hpar]
    rw [this]
    obtain ⟨d, h1, h2⟩ := watchUnder_widen (P := P) O { s with root := s.root.add p } t p isrec c (if isrec then e ||| P.recursive else e)
    exact ⟨d, h1, fun x hx => .inl (h2 x hx)⟩
  | none =>
    rcases watchOp_near hP h O hp isrec c he with ⟨t, h1, -⟩ | ⟨d, h1, h2⟩
    · rw [hpar] at h1; simp at h1
    · exact ⟨d, h1, fun x hx => .inr (h2 x hx)⟩

/-- Non-trivial case: a Watch below `/a/b` adds to the events of the watch above it. -/
example : RHist Ex.F true [.watch [Ex.a, Ex.b] false 2 Ex.CW true] Ex.s1 ∧
    ((watchOp Ex.F .ok Ex.s1 [Ex.a, Ex.b, Ex.f] false 4 Ex.F.rename).1.world.log.head?.map (·.1.paths) = some [[Ex.a, Ex.b], [Ex.a, Ex.b]]) :=
  ⟨Ex.hist1, by decide⟩

end Rec
end Verif
