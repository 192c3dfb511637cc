/-
The outcomes that the non-recursive tree is told (for C110).
-/
import Verif.PropsLive
import Verif.PlainRun

namespace Verif

/-- The calls of the interface of watchers without recursion. -/
def IsPlain : Call → Prop
  | .watch _ _ | .unwatch _ | .rewatch _ _ _ => True
  | _ => False

/-- Such calls were made, and there was no panic. -/
structure Mild (s s' : World) : Prop where
  pan : s'.panicked = s.panicked
  plain : ∃ new, s'.log = new ++ s.log ∧ ∀ x ∈ new, IsPlain x.1

theorem Mild.refl {s : World} : Mild s s := ⟨rfl, [], rfl, by simp⟩

theorem Mild.trans {a b c : World} (h : Mild a b) (h' : Mild b c) : Mild a c := by
  obtain ⟨h1, n, h2, h3⟩ := h
  obtain ⟨h1', n', h2', h3'⟩ := h'
  refine ⟨h1'.trans h1, n' ++ n, by rw [h2', h2, List.append_assoc], fun x hx => ?_⟩
  rcases List.mem_append.1 hx with hx | hx
  · exact h3' x hx
  · exact h3 x hx

/-- They were answered by the oracle. -/
structure Heard (O : Oracle) (s s' : World) : Prop where
  told : Told O s.log s'.log
  mild : Mild s s'

theorem Heard.refl {O : Oracle} {s : World} : Heard O s s := ⟨.refl, .refl⟩

theorem Heard.trans {O : Oracle} {a b c : World} (h : Heard O a b) (h' : Heard O b c) : Heard O a c := ⟨h.told.trans h'.told, h.mild.trans h'.mild⟩

theorem Heard.exec {O : Oracle} {s : World} {c : Call} (hc : IsPlain c) : Heard O s (s.exec O c).1 :=
  ⟨Told.exec _ _ _, rfl, [_], rfl, by simpa using hc⟩

theorem WP.add_some (P : Platform) (w : WP) (c : Key) (e : Event) (h : (w.add P c e).2 ≠ Diff.none) : (w.add P c e).2.2 ≠ 0 := by
  simp only [WP.add, WP.mkDiff] at h ⊢
  split at h
  · exact absurd rfl h
  · rename_i hne
    rw [if_neg hne]
    intro h0
    apply hne
    dsimp only at h0 ⊢
    generalize WP.val _ _ = a at *
    clear h
    ebits

theorem WP.dryAdd_some (P : Platform) (w : WP) (c : Key) (e : Event) (h : w.dryAdd P c e ≠ Diff.none) : (w.dryAdd P c e).2 ≠ 0 := by
  simp only [WP.dryAdd] at h ⊢
  split at h
  · exact absurd rfl h
  · rename_i hne
    rw [if_neg hne]
    intro h0
    apply hne
    dsimp only at h0 ⊢
    generalize WP.val _ _ = a at *
    clear h
    ebits

theorem NonRec.diffCall_plain (p : Path) (d : Diff) : IsPlain (NonRec.diffCall p d) := by unfold NonRec.diffCall; split <;> trivial

section
variable {O : Oracle}

mutual
theorem Node.trav_told {skip : Bool} {fn : World → WP → Path → WP → World × WP} (hf : ∀ s pw n w, Heard O s (fn s pw n w).1) :
    (nd : Node) → (s : World) → (pw : WP) → Heard O s (nd.trav skip fn s pw).1
  | .mk n w ch, s, pw => by
    simp only [Node.trav]
    exact (hf s pw n w).trans (Forest.trav_told hf ch _ _)
theorem Forest.trav_told {skip : Bool} {fn : World → WP → Path → WP → World × WP} (hf : ∀ s pw n w, Heard O s (fn s pw n w).1) :
    (f : Forest) → (s : World) → (pw : WP) → Heard O s (f.trav skip fn s pw).1
  | .nil, s, pw => by simp only [Forest.trav]; exact .refl
  | .cons b nd rest, s, pw => by
    simp only [Forest.trav]
    split
    · exact Forest.trav_told hf rest s pw
    · exact (Node.trav_told hf nd s pw).trans (Forest.trav_told hf rest _ pw)
end

mutual
theorem DirTree.addDir_told {fn : World → Path → WP → World × WP} (hf : ∀ s n w, Heard O s (fn s n w).1) :
    (d : DirTree) → (s : World) → (nd : Node) → Heard O s (d.addDir fn s nd).1
  | .err, s, .mk n w ch => by simp only [DirTree.addDir]; exact hf s n w
  | .dir es, s, .mk n w ch => by
    simp only [DirTree.addDir]
    exact (hf s n w).trans (Entries.addDir_told hf es n _ _)
theorem Entries.addDir_told {fn : World → Path → WP → World × WP} (hf : ∀ s n w, Heard O s (fn s n w).1) :
    (es : Entries) → (n : Path) → (s : World) → (ch : Forest) → Heard O s (es.addDir fn n s ch).1
  | .nil, n, s, ch => by simp only [Entries.addDir]; exact .refl
  | .cons b isDir sub rest, n, s, ch => by
    simp only [Entries.addDir]
    have h1 := Entries.addDir_told hf rest n s ch
    split
    · exact h1
    · split
      · split
        · exact h1
        · exact h1.trans (DirTree.addDir_told hf sub _ _)
      · exact h1
end

namespace NonRec
variable (P : Platform)

theorem recFunc_told (e : Event) (s : World) (n : Path) (w : WP) : Heard O s (recFunc P O e s n w).1 := by
  unfold recFunc
  dsimp only
  split
  · exact .refl
  · split
    · exact absurd ‹_› (WP.add_some P _ _ _ ‹_›)
    · exact .exec (by first | exact diffCall_plain _ _ | trivial)

theorem watchOp_told (dt : DirTree) (s : St) (p : Path) (isrec : Bool) (c : Nat) (e : Event) :
    Heard O s.world (watchOp P O dt s p isrec c e).1.world := by
  unfold watchOp
  dsimp only
  split
  · unfold watchrec
    dsimp only
    split
    · exact .refl
    · split
      · exact absurd ‹_› (WP.dryAdd_some P _ _ _ ‹_›)
      · split
        · exact .refl
        · split
          · have := DirTree.addDir_told (recFunc_told P (O := O) (e ||| P.recursive)) dt s.world ‹Node›
            split <;> exact this
          · exact Node.trav_told (fun s _ n w => recFunc_told P (e ||| P.recursive) s n w) ‹Node› s.world []
  · unfold watch
    dsimp only
    split
    · exact .refl
    · split
      · exact absurd ‹_› (WP.add_some P _ _ _ ‹_›)
      · split <;> exact .exec (by first | exact diffCall_plain _ _ | trivial)

theorem stop_told (s : St) (c : Nat) : Heard O s.world (stop P O s c).world := by
  unfold stop
  refine Node.trav_told (fun s pw n w => ?_) s.root s.world []
  unfold stopFunc
  split
  · dsimp only
    split
    · exact .refl
    · split <;> exact .exec (by first | exact diffCall_plain _ _ | trivial)
  · exact .refl

theorem internal_told (dt : DirTree) (s : St) (ei : EventInfo) : Heard O s.world (internal P O dt s ei).world := by
  unfold internal
  split
  · split
    · exact .refl
    · refine Node.trav_told (fun s _ n w => ?_) ‹Node› s.world []
      unfold unwatchFunc
      split
      · exact .exec (by first | exact diffCall_plain _ _ | trivial)
      · exact .refl
  · dsimp only
    split
    · exact .refl
    · split
      · exact .refl
      · exact DirTree.addDir_told (recFunc_told P _) dt s.world ‹Node›

end NonRec
end

namespace Plain
open NonRec (Hist Steps Op)

/-- A request can be carried out with any oracle. -/
theorem begins {P : Platform} (O : Oracle) (s : St) {r : Sched.Req} (hr : (Y P).okReq r) :
    ∃ ops t, (Steps P false s ops t ∧ ∃ op, Linux.Fits r op ∧ (ops = [op] ∨ ops = [.shuffle, op])) ∧ Heard O s.world t.world := by
  cases r with
  | watch p isrec c e =>
    exact ⟨_, _, ⟨Steps.nil.snoc (.watch (O := O) (dt := .err) hr.1 hr.2 trivial (fun h => nomatch h)), _, ⟨_, rfl⟩, .inl rfl⟩, NonRec.watchOp_told ..⟩
  | stop c => exact ⟨_, _, ⟨Steps.nil.snoc (.stop (O := O) (fun h => nomatch h)), _, rfl, .inl rfl⟩, NonRec.stop_told ..⟩
  | internal ei =>
    exact ⟨_, _, ⟨Steps.nil.snoc (.internal (O := O) (dt := .err) hr trivial (fun h => nomatch h)), _, rfl, .inl rfl⟩, NonRec.internal_told ..⟩

/-- Every step of the tree makes such calls only, and does not panic. -/
theorem step_mild {P : Platform} {b : Bool} {s t : St} {op : Op} (h : NonRec.Step P b s op t) : Mild s.world t.world := by
  cases h with
  | watch => exact (NonRec.watchOp_told ..).mild
  | stop => exact (NonRec.stop_told ..).mild
  | internal => exact (NonRec.internal_told ..).mild
  | shuffle => exact .refl

theorem steps_mild {P : Platform} {b : Bool} {s t : St} {ops : List Op} (h : Steps P b s ops t) : Mild s.world t.world := by
  induction h with
  | nil => exact .refl
  | snoc _ hs ih => exact ih.trans (step_mild hs)

end Plain
end Verif
