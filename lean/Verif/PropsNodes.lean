/-
The nodes the trees keep (C82).
-/
import Verif.PropsNonRec
import Verif.NonRecCover
import Verif.PropsRec

namespace Verif
open GoMap

/-- The tree has a node (two maps and a string) for the path. -/
def Node.has (nd : Node) (q : Path) : Bool := (nd.get? q).isSome

namespace Node

theorem has_iff {nd : Node} {q : Path} : nd.has q = true ↔ nd.get? q ≠ none := by
  unfold has; cases nd.get? q <;> simp

theorem has_find (nd : Node) (q : Path) : nd.has q = (nd.find q).isSome := by
  unfold has find; cases nd.get? q <;> rfl

theorem add_has (nd : Node) (p q : Path) : (nd.add p).has q = true ↔ q <+: p ∨ nd.has q = true := by
  rw [has_find, has_find, add_find]
  split
  · rename_i h; simp [h]
  · rename_i h; simp [h]

/-- A change of the node at `p` that keeps the nodes below keeps all nodes. -/
theorem update_has {nd : Node} {p : Path} {f : Node → Node} (A : Path → Prop) (hA : ∀ a b, A (a ++ b) → A b)
    (hf : ∀ c, nd.get? p = some c → ∀ r, A r → (f c).has r = c.has r) (q : Path) (hq : A q) : (nd.update p f).has q = nd.has q := by
  cases hc : nd.get? p with
  | none => rw [update_of_none nd p f hc]
  | some c =>
    by_cases h : p <+: q
    · obtain ⟨r, rfl⟩ := h
      have h2 : nd.get? (p ++ r) = c.get? r := by rw [get?_append, hc]; rfl
      have := hf c hc r (hA p r hq)
      unfold has at this ⊢
      rw [update_get_append nd p f hc r, h2]; exact this
    · rw [has_find, has_find, update_find_other nd p f h]

theorem setWatch_has (w : WP) (nd : Node) (q : Path) : (setWatch w nd).has q = nd.has q := by
  obtain ⟨n, w', ch⟩ := nd
  cases q <;> rfl

end Node

mutual
theorem Node.trav_has {σ : Type} {skip : Bool} {fn : σ → WP → Path → WP → σ × WP} {s : σ} {pw : WP} :
    (nd : Node) → ∀ q, (Node.trav skip fn s pw nd).2.has q = nd.has q
  | .mk n w ch, [] => rfl
  | .mk n w ch, b :: q => by
    have := Forest.trav_has (skip := skip) (fn := fn) (s := (fn s pw n w).1) (pw := (fn s pw n w).2) ch b q
    simpa only [Node.trav, Node.has, Node.get?] using this
theorem Forest.trav_has {σ : Type} {skip : Bool} {fn : σ → WP → Path → WP → σ × WP} {s : σ} {pw : WP} :
    (f : Forest) → ∀ b q, (((Forest.trav skip fn s pw f).2.get? b).bind (·.get? q)).isSome = ((f.get? b).bind (·.get? q)).isSome
  | .nil, b, q => rfl
  | .cons b' nd rest, b, q => by
    unfold Forest.trav
    split
    · simp only [Forest.get?]
      split
      · rfl
      · exact Forest.trav_has rest b q
    · simp only [Forest.get?]
      split
      · exact Node.trav_has nd q
      · exact Forest.trav_has rest b q
end

theorem Node.addchild_has {nd : Node} {m : Path} {b : Comp} {q : Path} (h : nd.has q = true) : (nd.addchild m b).has q = true := by
  unfold Node.addchild
  split
  · exact h
  · rename_i hb
    obtain ⟨n, w, ch⟩ := nd
    cases q with
    | nil => rfl
    | cons b' q =>
      simp only [Node.has, Node.get?, Node.child, Forest.get?_put] at h hb ⊢
      by_cases e : b = b'
      · subst e; rw [hb] at h; cases h
      · rw [if_neg e]; exact h

theorem Entries.addChildren_has : (es : Entries) → ∀ {nd : Node} {q : Path}, nd.has q = true → (es.addChildren nd).has q = true
  | .nil, _, _, h => h
  | .cons b isDir sub rest, nd, q, h => by
    simp only [Entries.addChildren]
    refine addChildren_has rest ?_
    split
    · exact Node.addchild_has h
    · exact h

mutual
theorem DirTree.addDir_has {σ : Type} {fn : σ → Path → WP → σ × WP} : (d : DirTree) → ∀ {s : σ} {nd : Node} {q : Path},
    nd.has q = true → (d.addDir fn s nd).2.1.has q = true
  | .err, s, .mk n w ch, q, h => by cases q <;> exact h
  | .dir es, s, .mk n w ch, [], h => rfl
  | .dir es, s, .mk n w ch, b :: q, h => by
    have h1 : (es.addChildren (.mk n (fn s n w).2 ch)).has (b :: q) = true := Entries.addChildren_has es h
    have h2 := Entries.addDir_has (fn := fn) es (n := n) (s := (fn s n w).1) (f := (es.addChildren (.mk n (fn s n w).2 ch)).child) (b := b) (q := q)
    simp only [DirTree.addDir, Node.has, Node.get?] at h1 h2 ⊢
    rw [Node.get?_cons] at h1
    exact h2 h1
theorem Entries.addDir_has {σ : Type} {fn : σ → Path → WP → σ × WP} : (es : Entries) → ∀ {n : Path} {s : σ} {f : Forest} {b : Comp} {q : Path},
    ((f.get? b).bind (·.get? q)).isSome = true → (((es.addDir fn n s f).2.1.get? b).bind (·.get? q)).isSome = true
  | .nil, n, s, f, b, q, h => h
  | .cons b' isDir sub rest, n, s, f, b, q, h => by
    have ih := Entries.addDir_has (fn := fn) rest (n := n) (s := s) h
    simp only [Entries.addDir]
    split
    · exact ih
    split
    · split
      · exact ih
      · rename_i c hc
        simp only [Forest.get?_put]
        by_cases e : joinBase n b' = b
        · rw [if_pos e]
          rw [e] at hc; rw [hc] at ih
          exact DirTree.addDir_has sub ih
        · rw [if_neg e]; exact ih
    · exact ih
end

/-! ### The non-recursive tree -/

namespace NonRec

variable {P : Platform}

/-- **C82, Stop.**  In every state Stop keeps every node. -/
theorem C82_stop_keeps (P : Platform) (O : Oracle) (s : St) (c : Nat) (q : Path) : (stop P O s c).root.has q = s.root.has q :=
  Node.trav_has s.root q

/-- The operation is not the handling of a removal. -/
def NoRemoval (P : Platform) : Op → Prop
  | .internal ei => ei.event ≠ P.remove
  | _ => True

theorem setWatch_update_has {nd : Node} {p : Path} {w : WP} (q : Path) : (nd.update p (Node.setWatch w)).has q = nd.has q :=
  Node.update_has (fun _ => True) (fun _ _ _ => trivial) (fun c _ r _ => Node.setWatch_has w c r) q trivial

theorem watch_has (O : Oracle) (s : St) (p : Path) (c : Nat) (e : Event) (q : Path) : (NonRec.watch P O s p c e).1.root.has q = s.root.has q := by
  unfold NonRec.watch
  simp only
  split
  · exact setWatch_update_has q
  · split
    · exact setWatch_update_has q
    · split
      · exact setWatch_update_has q
      · rw [setWatch_update_has, setWatch_update_has]

theorem update_const_has {nd nd' : Node} {p : Path} {c : Node} (hc : nd.get? p = some c) (h : ∀ r, c.has r = true → nd'.has r = true) (q : Path)
    (hq : nd.has q = true) : (nd.update p (fun _ => nd')).has q = true := by
  by_cases hp : p <+: q
  · obtain ⟨r, rfl⟩ := hp
    have h2 : nd.get? (p ++ r) = c.get? r := by rw [Node.get?_append, hc]; rfl
    unfold Node.has at hq
    rw [h2] at hq
    unfold Node.has
    rw [Node.update_get_append nd p _ hc r]
    exact h r hq
  · rw [Node.has_find, Node.update_find_other nd p _ hp, ← Node.has_find]; exact hq

theorem watchrec_has (O : Oracle) (d : DirTree) (s : St) (p : Path) (c : Nat) (e : Event) (q : Path) (hq : s.root.has q = true) :
    (watchrec P O d s p c e).1.root.has q = true := by
  unfold watchrec
  simp only
  split
  · rw [setWatch_update_has]; exact hq
  · split
    · exact hq
    · split
      · exact hq
      · rename_i nd hnd
        have hkeep : ∀ r : World × Node × Bool, (r = d.addDir (recFunc P O e) s.world nd ∨
            r = ((nd.trav true (fun s _ n w => recFunc P O e s n w) s.world []).1, (nd.trav true (fun s _ n w => recFunc P O e s n w) s.world []).2, true)) →
            (s.root.update p (fun _ => r.2.1)).has q = true := by
          rintro r (rfl | rfl)
          · exact update_const_has hnd (fun r hr => DirTree.addDir_has d hr) q hq
          · exact update_const_has hnd (fun r hr => by rw [Node.trav_has]; exact hr) q hq
        have hr := hkeep _ (by
          show (if ((watchAt s.root p).dryAdd P .recCh (e ||| P.create)).1 = 0 then d.addDir (recFunc P O e) s.world nd
            else ((nd.trav true (fun s _ n w => recFunc P O e s n w) s.world []).1, (nd.trav true (fun s _ n w => recFunc P O e s n w) s.world []).2, true)) = _ ∨ _
          split <;> simp)
        generalize (if ((watchAt s.root p).dryAdd P .recCh (e ||| P.create)).1 = 0 then d.addDir (recFunc P O e) s.world nd
            else ((nd.trav true (fun s _ n w => recFunc P O e s n w) s.world []).1, (nd.trav true (fun s _ n w => recFunc P O e s n w) s.world []).2, true)) = x at hr ⊢
        split
        · rw [setWatch_update_has]; exact hr
        · exact hr

theorem Step.keeps {rel : Bool} {s s' : St} {op : Op} (h : Step P rel s op s') (hn : NoRemoval P op) (q : Path) (hq : s.root.has q = true) :
    s'.root.has q = true := by
  cases h with
  | @watch p isrec c e O dt _ _ _ _ =>
    have h1 : (s.root.add p).has q = true := (Node.add_has _ _ _).mpr (.inr hq)
    unfold watchOp
    simp only
    split
    · exact watchrec_has O dt _ p c _ q h1
    · rw [watch_has]; exact h1
  | stop _ => rw [C82_stop_keeps]; exact hq
  | @internal ei O dt _ _ _ =>
    unfold NonRec.internal
    rw [if_neg hn]
    simp only
    split
    · exact hq
    · split
      · exact hq
      · rename_i nd hnd
        exact update_const_has hnd (fun r hr => DirTree.addDir_has dt hr) q ((Node.add_has _ _ _).mpr (.inr hq))
  | shuffle hsh =>
    rw [Node.has_find] at hq ⊢
    rcases hsh.2 q with ⟨h1, _⟩ | ⟨w, w', _, h2, _⟩
    · rw [h1] at hq; cases hq
    · rw [h2]; rfl

/-- **C82, nodes are kept.**  Whatever is watched and stopped, and whatever calls fail: until the removal of a directory is handled no node goes away.  In particular every
path ever passed to Watch keeps its nodes, whether or not the Watch succeeded and whether or not a channel is registered. -/
theorem C82_kept {rel : Bool} {s₀ s : St} {ops : List Op} (h : Steps P rel s₀ ops s) (hn : ∀ op ∈ ops, NoRemoval P op) :
    (∀ q, s₀.root.has q = true → s.root.has q = true) ∧
    ∀ p isrec c e res, Op.watch p isrec c e res ∈ ops → ∀ q, q <+: p → s.root.has q = true := by
  induction h with
  | nil => exact ⟨fun _ h => h, by simp⟩
  | @snoc ops s op s' _ hs ih =>
    have ih := ih (fun op h => hn op (by simp [h]))
    have hn' := hn op (by simp)
    refine ⟨fun q hq => hs.keeps hn' q (ih.1 q hq), fun p isrec c e res hm q hq => ?_⟩
    rcases List.mem_append.mp hm with hm | hm
    · exact hs.keeps hn' q (ih.2 p isrec c e res hm q hq)
    · rw [List.mem_singleton] at hm
      subst hm
      cases hs with
      | @watch _ _ _ _ O dt _ _ _ _ =>
        have h1 : (s.root.add p).has q = true := (Node.add_has _ _ _).mpr (.inl hq)
        unfold watchOp
        simp only
        split
        · exact watchrec_has O dt _ p c _ q h1
        · rw [watch_has]; exact h1

/-- **C82, removed directories.**  When the removal of a directory is handled, the nodes of it and of everything below go away. -/
theorem C82_removed (O : Oracle) (d : DirTree) (s : St) (ei : EventInfo) (he : ei.event = P.remove) (hp : ei.path ≠ []) (q : Path) (hq : ei.path <+: q) :
    (internal P O d s ei).root.has q = false := by
  unfold NonRec.internal
  rw [if_pos he]
  cases hg : s.root.get? ei.path with
  | none =>
    obtain ⟨r, rfl⟩ := hq
    simp only
    unfold Node.has
    rw [Node.get?_append, hg]; rfl
  | some nd =>
    simp only
    have := Node.del_isSome s.root hp
    rw [hg] at this
    cases hd : s.root.del ei.path with
    | none => rw [hd] at this; cases this
    | some nd' =>
      rw [Node.has_find]
      simp only [Option.getD_some]
      rw [(Node.del_find s.root hd q).1 hq]; rfl

theorem update_const_new {nd nd' : Node} {p : Path} {c : Node} (hc : nd.get? p = some c) {L : List Path} (h : ∀ r, nd'.has r = true → c.has r = true ∨ r ∈ L)
    (q : Path) (hq : (nd.update p (fun _ => nd')).has q = true) : nd.has q = true ∨ ∃ r ∈ L, q = p ++ r := by
  by_cases hp : p <+: q
  · obtain ⟨r, rfl⟩ := hp
    have h2 : nd.get? (p ++ r) = c.get? r := by rw [Node.get?_append, hc]; rfl
    unfold Node.has at hq ⊢
    rw [Node.update_get_append nd p _ hc r] at hq
    rw [h2]
    rcases h r hq with h | h
    · exact .inl h
    · exact .inr ⟨r, h, rfl⟩
  · rw [Node.has_find, Node.update_find_other nd p _ hp, ← Node.has_find] at hq; exact .inl hq

theorem addDir_new {n : Path} (hn : [] ∉ n) {d : DirTree} (hd : d.Named) {σ : Type} {fn : σ → Path → WP → σ × WP} {s : σ} {nd : Node} {Q : WP → Prop}
    (h : nd.OK Q noR n) (r : Path) (hr : (d.addDir fn s nd).2.1.has r = true) : nd.has r = true ∨ r ∈ d.dirs := by
  by_cases hm : r ∈ d.dirs
  · exact .inr hm
  · refine .inl ?_
    rw [Node.has_find] at hr ⊢
    rw [DirTree.addDir_other (Q := fun _ => True) trivial (fun _ _ _ _ => trivial) hn d hd (h.imp (fun _ _ => trivial) (fun _ h => h)) hm] at hr
    exact hr

/-- **C82, no other nodes.**  In every well-formed state a Watch adds nodes only for its path, the directories above, and, if it is recursive, the directories that the scan
finds below; handling a creation only for those of its path. -/
theorem C82_new (O : Oracle) {s : St} (h : Shape P s.root) {dt : DirTree} (hd : dt.Named) (q : Path) :
    (∀ p isrec c e, GoodPath p → (watchOp P O dt s p isrec c e).1.root.has q = true →
      s.root.has q = true ∨ q <+: p ∨ isrec = true ∧ ∃ r ∈ dt.dirs, q = p ++ r) ∧
    ∀ ei : EventInfo, GoodPath ei.path → (internal P O dt s ei).root.has q = true →
      s.root.has q = true ∨ ei.event ≠ P.remove ∧ (q <+: ei.path ∨ ∃ r ∈ dt.dirs, q = ei.path ++ r) := by
  constructor
  · intro p isrec c e hp hq
    have old : (s.root.add p).has q = true → s.root.has q = true ∨ q <+: p := fun h => ((Node.add_has _ _ _).mp h).symm
    cases isrec with
    | false =>
      have : (s.root.add p).has q = true := by simpa only [watchOp, Bool.false_eq_true, if_false, watch_has] using hq
      rcases old this with h | h
      · exact .inl h
      · exact .inr (.inl h)
    | true =>
      suffices hs : (s.root.add p).has q = true ∨ ∃ r ∈ dt.dirs, q = p ++ r by
        rcases hs with h | h
        · rcases old h with h | h
          · exact .inl h
          · exact .inr (.inl h)
        · exact .inr (.inr ⟨rfl, h⟩)
      have hsh := h.add hp
      simp only [watchOp, if_true] at hq
      generalize e ||| P.recursive = e at hq
      unfold watchrec at hq
      simp only at hq
      split at hq
      · rw [setWatch_update_has] at hq; exact .inl hq
      · split at hq
        · exact .inl hq
        · split at hq
          · exact .inl hq
          · rename_i nd hnd
            have hok := hsh.ok.get hp.2 hnd
            have hkeep : ∀ r : World × Node × Bool, (r = dt.addDir (recFunc P O e) s.world nd ∨
                r = ((nd.trav true (fun s _ n w => recFunc P O e s n w) s.world []).1, (nd.trav true (fun s _ n w => recFunc P O e s n w) s.world []).2, true)) →
                ((s.root.add p).update p (fun _ => r.2.1)).has q = true → (s.root.add p).has q = true ∨ ∃ r ∈ dt.dirs, q = p ++ r := by
              rintro r (rfl | rfl) h1
              · exact update_const_new hnd (fun r hr => addDir_new (n := p) hp.2 hd (by simpa using hok) r hr) q h1
              · exact update_const_new hnd (fun r hr => by rw [Node.trav_has] at hr; exact .inl hr) q h1
            have hr := hkeep _ (by
              show (if ((watchAt (s.root.add p) p).dryAdd P .recCh (e ||| P.create)).1 = 0 then dt.addDir (recFunc P O e) s.world nd
                else ((nd.trav true (fun s _ n w => recFunc P O e s n w) s.world []).1,
                  (nd.trav true (fun s _ n w => recFunc P O e s n w) s.world []).2, true)) = _ ∨ _
              split <;> simp)
            generalize (if ((watchAt (s.root.add p) p).dryAdd P .recCh (e ||| P.create)).1 = 0 then dt.addDir (recFunc P O e) s.world nd
                else ((nd.trav true (fun s _ n w => recFunc P O e s n w) s.world []).1,
                  (nd.trav true (fun s _ n w => recFunc P O e s n w) s.world []).2, true)) = x at hr hq
            split at hq
            · rw [setWatch_update_has] at hq; exact hr hq
            · exact hr hq
  · intro ei hp hq
    unfold NonRec.internal at hq
    split at hq
    · refine .inl ?_
      split at hq
      · exact hq
      · simp only at hq
        cases hdl : s.root.del ei.path with
        | none => rw [hdl] at hq; exact hq
        | some nd' =>
          rw [hdl] at hq
          rw [Node.has_find] at hq ⊢
          simp only [Option.getD_some] at hq
          by_cases hpq : ei.path <+: q
          · rw [(Node.del_find s.root hdl q).1 hpq] at hq; cases hq
          · rcases (Node.del_find s.root hdl q).2 hpq with h1 | ⟨h1, _⟩
            · rw [h1] at hq; exact hq
            · rw [h1] at hq; cases hq
    · rename_i hne
      simp only at hq
      split at hq
      · exact .inl hq
      · split at hq
        · exact .inl hq
        · rename_i nd hnd
          have hok := (h.add hp).ok.get hp.2 hnd
          rcases update_const_new hnd (fun r hr => addDir_new (n := ei.path) hp.2 hd (by simpa using hok) r hr) q hq with h1 | h1
          · rcases (Node.add_has _ _ _).mp h1 with h2 | h2
            · exact .inr ⟨hne, .inl h2⟩
            · exact .inl h2
          · exact .inr ⟨hne, .inr h1⟩

/-- The operation is a non-recursive Watch, a Stop or a change of order. -/
def PlainOp : Op → Prop
  | .watch _ isrec _ _ _ => isrec = false
  | .internal _ => False
  | _ => True

/-- **C82, no others.**  Without recursive watches the nodes are those of the paths passed to Watch and of the directories above them. -/
theorem C82_bound_partial {rel : Bool} {s : St} {ops : List Op} (h : Hist P rel ops s) (hn : ∀ op ∈ ops, PlainOp op) (q : Path) :
    s.root.has q = true ↔ q = [] ∨ ∃ p c e res, Op.watch p false c e res ∈ ops ∧ q <+: p := by
  constructor
  · intro hq
    induction h with
    | nil =>
      cases q with
      | nil => exact .inl rfl
      | cons b q => cases hq
    | @snoc ops s op s' _ hs ih =>
      have ih := ih (fun op h => hn op (by simp [h]))
      have hn' := hn op (by simp)
      have old : s.root.has q = true → q = [] ∨ ∃ p c e res, Op.watch p false c e res ∈ ops ++ [op] ∧ q <+: p := by
        intro h1
        rcases ih h1 with h1 | ⟨p, c, e, res, hm, hp⟩
        · exact .inl h1
        · exact .inr ⟨p, c, e, res, by simp [hm], hp⟩
      cases hs with
      | @watch p isrec c e O dt _ _ _ _ =>
        have hf : isrec = false := hn'
        subst hf
        have : (s.root.add p).has q = true := by
          simpa only [watchOp, Bool.false_eq_true, if_false, watch_has] using hq
        rcases (Node.add_has _ _ _).mp this with h1 | h1
        · exact .inr ⟨p, c, e, _, List.mem_append_right _ (List.mem_singleton.mpr rfl), h1⟩
        · exact old h1
      | stop _ => rw [C82_stop_keeps] at hq; exact old hq
      | internal _ _ _ => exact absurd hn' id
      | shuffle hsh =>
        apply old
        rw [Node.has_find] at hq ⊢
        rcases hsh.2 q with ⟨_, h1⟩ | ⟨w, w', h2, _, _⟩
        · rw [h1] at hq; cases hq
        · rw [h2]; rfl
  · rintro (rfl | ⟨p, c, e, res, hm, hp⟩)
    · rfl
    · refine (C82_kept h (fun op ho => ?_)).2 p false c e res hm q hp
      have := hn op ho
      cases op <;> trivial

end NonRec

/-! ### The recursive tree -/

namespace Rec
open NonRec (GoodPath UserEvents)

variable {P : Platform}

/-- The two nodes have the same nodes below, apart from those for the inactive watchpoints. -/
def Same (a b : Node) : Prop := ∀ r, [] ∉ r → a.has r = b.has r

theorem Same.refl (a : Node) : Same a a := fun _ _ => rfl
theorem Same.trans {a b c : Node} (h : Same a b) (h' : Same b c) : Same a c := fun r hr => (h r hr).trans (h' r hr)

theorem same_mk {n n' : Path} {w w' : WP} {ch ch' : Forest} (h : ∀ b, b ≠ [] → ∀ q, [] ∉ q →
    ((ch.get? b).bind (·.get? q)).isSome = ((ch'.get? b).bind (·.get? q)).isSome) : Same (.mk n w ch) (.mk n' w' ch') := by
  intro r hr
  cases r with
  | nil => rfl
  | cons b q =>
    simp only [List.mem_cons, not_or] at hr
    exact h b (Ne.symm hr.1) q hr.2

theorem same_setWatch (w : WP) (nd : Node) : Same (nd.setWatch w) nd := fun r _ => Node.setWatch_has w nd r

theorem same_setInact (w : WP) (nd : Node) : Same (setInact w nd) nd := by
  obtain ⟨n, w', ch⟩ := nd
  refine same_mk fun b hb q _ => ?_
  rw [Forest.get?_put, if_neg (Ne.symm hb)]

theorem same_clean (c : Nat) (nd : Node) : Same (clean c nd) nd := by
  obtain ⟨n, w', ch⟩ := nd
  refine same_mk fun b hb q _ => ?_
  rw [Forest.get?_del, if_neg (Ne.symm hb)]

theorem same_watchAdd (nd : Node) (k : Key) (e : Event) : Same (watchAdd P nd k e).1 nd := same_setWatch _ nd
theorem same_watchAddInactive (nd : Node) (k : Key) (e : Event) : Same (watchAddInactive P nd k e).1 nd := same_setInact _ nd

theorem same_watchDel (nd : Node) (k : Key) (e : Event) : Same (watchDel P nd k e).1 nd := by
  unfold watchDel
  simp only
  split
  · exact (same_setInact _ _).trans (same_setWatch _ nd)
  · exact same_setWatch _ nd

theorem same_foldl (l : WP) (nd : Node) : Same (l.foldl (fun d x => (watchAddInactive P d x.1 x.2).1) nd) nd := by
  induction l generalizing nd with
  | nil => exact Same.refl nd
  | cons x l ih => exact (ih _).trans (same_watchAddInactive nd _ _)

theorem same_watchCopy (src dst : Node) : Same (watchCopy P src dst).1 dst := by
  unfold watchCopy
  simp only
  split
  · split
    · exact same_foldl _ dst
    · exact (same_setInact _ _).trans (same_foldl _ dst)
  · exact same_foldl _ dst

theorem same_update {nd : Node} {p : Path} {f : Node → Node} (hf : ∀ c, nd.get? p = some c → Same (f c) c) : Same (nd.update p f) nd :=
  fun q hq => Node.update_has (fun r => [] ∉ r) (fun a b h hb => h (List.mem_append_right a hb)) (fun c hc r hr => hf c hc r hr) q hq

theorem nodeAt_eq {nd c : Node} {p : Path} (h : nd.get? p = some c) : nodeAt nd p = c := by simp [nodeAt, h]

theorem same_addAt (nd : Node) (p : Path) (c : Nat) (e : Event) : Same (addAt P nd p c e) nd := same_update fun _ _ => same_watchAdd _ _ _

theorem same_watchUnder (O : Oracle) (s : St) (q p : Path) (isrec : Bool) (c : Nat) (e : Event) : Same (watchUnder P O s q p isrec c e).1.root s.root := by
  have h1 : Same (if q = p then watchAdd P (nodeAt s.root q) (.user c) e else watchAddInactive P (nodeAt s.root q) (.user c) e).1 (nodeAt s.root q) := by
    split
    · exact same_watchAdd _ _ _
    · exact same_watchAddInactive _ _ _
  unfold watchUnder
  simp only
  generalize (if q = p then watchAdd P (nodeAt s.root q) (.user c) e else watchAddInactive P (nodeAt s.root q) (.user c) e) = r at h1 ⊢
  have h2 : Same (s.root.update q fun _ => r.1) s.root := same_update fun x hx => by rw [nodeAt_eq hx] at h1; exact h1
  split
  · simp only
    split
    · exact h2
    · exact (same_addAt _ _ _ _).trans h2
  · split
    · exact h2
    · split <;> split <;> first
        | exact (same_addAt _ _ _ _).trans h2
        | exact (same_update fun _ _ => same_watchDel _ _ _).trans h2

theorem same_copyAll (p : Path) (rs : List Path) (s : St) : Same (copyAll P p rs s).root s.root := by
  induction rs generalizing s with
  | nil => exact Same.refl _
  | cons r rs ih =>
    refine (ih _).trans ?_
    exact same_update fun x hx => by
      have := same_watchCopy (P := P) (nodeAt s.root (p ++ r)) (nodeAt s.root p)
      rw [nodeAt_eq hx] at this ⊢
      exact this

theorem same_watchTop (O : Oracle) (s : St) (p : Path) (isrec : Bool) (c : Nat) (e : Event) : Same (watchTop P O s p isrec c e).1.root s.root := by
  unfold watchTop
  split
  · simp only
    have h2 : Same (s.root.update p fun _ => (watchAdd P (nodeAt s.root p) (.user c) e).1) s.root := same_update fun x hx => by
      rw [nodeAt_eq hx]; exact same_watchAdd _ _ _
    split
    · exact h2
    · split
      · split <;> split <;> first
          | exact h2
          | exact (same_update fun _ _ => same_watchDel _ _ _).trans h2
      · exact h2
  · rename_i r _
    simp only
    have h2 := (same_copyAll (P := P) p [r] { s with root := addAt P s.root p c e }).trans (same_addAt _ _ _ _)
    split
    · exact h2
    · exact (same_update fun _ _ => same_clean _ _).trans h2
  · rename_i rs _ _
    simp only
    have h2 := (same_copyAll (P := P) p (nodeAt s.root p).tops { s with root := addAt P s.root p c e }).trans (same_addAt _ _ _ _)
    split
    · exact h2
    · exact (same_update fun _ _ => same_clean _ _).trans h2

theorem same_watchOp (O : Oracle) (s : St) (p : Path) (isrec : Bool) (c : Nat) (e : Event) : Same (watchOp P O s p isrec c e).1.root (s.root.add p) := by
  unfold watchOp
  simp only
  split
  · exact same_watchUnder _ _ _ _ _ _ _
  · exact same_watchTop _ _ _ _ _ _

end Rec

mutual
theorem Node.delAll_same {P : Platform} {c : Nat} : (nd : Node) → Rec.Same (nd.delAll P c) nd
  | .mk n w ch => by
    unfold Node.delAll
    exact (Rec.same_watchDel _ _ _).trans (Rec.same_mk (Forest.delAll_same ch))
theorem Forest.delAll_same {P : Platform} {c : Nat} : (f : Forest) → ∀ b, b ≠ [] → ∀ q, [] ∉ q →
    (((f.delAll P c).get? b).bind (·.get? q)).isSome = ((f.get? b).bind (·.get? q)).isSome
  | .nil, _, _, _, _ => rfl
  | .cons b' nd rest, b, hb, q, hq => by
    simp only [Forest.delAll, Forest.get?]
    split
    · rename_i h
      rw [if_neg (h ▸ hb)]
      exact Node.delAll_same nd q hq
    · exact Forest.delAll_same rest b hb q hq
end

mutual
theorem Node.stopWalk_same {P : Platform} {O : Oracle} {c : Nat} {s : World} : (nd : Node) → Rec.Same (Node.stopWalk P O c s nd).2 nd
  | .mk n w ch => by
    unfold Node.stopWalk
    simp only
    split
    · exact (Rec.same_watchDel _ _ _).trans (Rec.same_mk (Forest.stopWalk_same ch))
    · exact (Node.delAll_same _).trans (Rec.same_watchDel _ _ _)
theorem Forest.stopWalk_same {P : Platform} {O : Oracle} {c : Nat} {s : World} : (f : Forest) → ∀ b, b ≠ [] → ∀ q, [] ∉ q →
    (((Forest.stopWalk P O c s f).2.get? b).bind (·.get? q)).isSome = ((f.get? b).bind (·.get? q)).isSome
  | .nil, _, _, _, _ => rfl
  | .cons b' nd rest, b, hb, q, hq => by
    simp only [Forest.stopWalk, Forest.get?]
    split
    · rename_i h
      rw [if_neg (h ▸ hb)]
      exact Node.stopWalk_same nd q hq
    · exact Forest.stopWalk_same rest b hb q hq
end

namespace Rec
open NonRec (GoodPath UserEvents)

variable {P : Platform}

/-- **C82, the recursive tree.**  After every history, with any calls failing, the nodes are those of all paths ever passed to Watch and of the directories above
them.  Nothing ever goes away. -/
theorem C82_exact {rel : Bool} {s : St} {ops : List ROp} (h : RHist P rel ops s) (q : Path) (hq : [] ∉ q) :
    s.root.has q = true ↔ q = [] ∨ ∃ p isrec c e res, ROp.watch p isrec c e res ∈ ops ∧ q <+: p := by
  induction h with
  | nil =>
    constructor
    · intro h
      cases q with
      | nil => exact .inl rfl
      | cons b q => cases h
    · rintro (rfl | ⟨p, isrec, c, e, res, hm, _⟩)
      · rfl
      · simp at hm
  | @snoc ops s op s' _ hs ih =>
    cases hs with
    | @watch p isrec c e O _ _ =>
      rw [same_watchOp O s p isrec c e q hq, Node.add_has, ih]
      constructor
      · rintro (h | h | ⟨p', isrec', c', e', res, hm, hp⟩)
        · exact .inr ⟨p, isrec, c, e, _, List.mem_append_right _ (List.mem_singleton.mpr rfl), h⟩
        · exact .inl h
        · exact .inr ⟨p', isrec', c', e', res, List.mem_append_left _ hm, hp⟩
      · rintro (h | ⟨p', isrec', c', e', res, hm, hp⟩)
        · exact .inr (.inl h)
        · rcases List.mem_append.mp hm with hm | hm
          · exact .inr (.inr ⟨p', isrec', c', e', res, hm, hp⟩)
          · rw [List.mem_singleton] at hm
            cases hm
            exact .inl hp
    | @stop c O _ =>
      have : (stop P O s c).root.has q = s.root.has q := Node.stopWalk_same s.root q hq
      rw [this, ih]
      simp
    | @shuffle root' hsh =>
      have : root'.has q = s.root.has q := by
        rw [Node.has_find, Node.has_find]
        rcases hsh.2 q with ⟨h1, h2⟩ | ⟨w, w', h1, h2, _⟩ <;> rw [h1, h2] <;> rfl
      simp only
      rw [this, ih]
      simp

theorem unwatchAll_ok (root : Node) (p : Path) (rs : List Path) (w : World) : (unwatchAll P .ok root p rs w).2 = true := by
  induction rs generalizing w with
  | nil => rfl
  | cons r rs ih => simp only [unwatchAll, ih, World.exec, Oracle.ok, Bool.and_true]

theorem watchOp_ok (s : St) (p : Path) (isrec : Bool) (c : Nat) (e : Event) : (watchOp P .ok s p isrec c e).2 = true := by
  unfold watchOp
  simp only
  split
  · unfold watchUnder
    simp only [World.exec, Oracle.ok, if_true]
    (repeat' split) <;> rfl
  · unfold watchTop
    split
    · simp only [World.exec, Oracle.ok, if_true]
      (repeat' split) <;> rfl
    · simp only [World.exec, Oracle.ok, if_true]
    · simp only [World.exec, Oracle.ok, if_true]
      exact unwatchAll_ok _ _ _ _

/-- A program that watches one path after the other and stops each. -/
def oneByOne (e : Event) (ps : List Path) : List ROp := ps.flatMap fun p => [.watch p false 1 e true, .stop 1]

/-- **C82 is false of the recursive tree.**  A program that watches one path at a time and stops it again, with every call succeeding, keeps a node for each path. -/
theorem C82_refuted {e : Event} (he : UserEvents P e) (ps : List Path) (hps : ∀ p ∈ ps, GoodPath p) :
    ∃ s, RHist P true (oneByOne e ps) s ∧ ∀ p ∈ ps, s.root.has p = true := by
  have hist : ∀ s₀, ∃ s, RSteps P true s₀ (oneByOne e ps) s := by
    induction ps with
    | nil => exact fun s₀ => ⟨_, .nil⟩
    | cons p ps ih =>
      intro s
      have h1 : RStep P true s (.watch p false 1 e true) (watchOp P .ok s p false 1 e).1 := by
        have := RStep.watch (P := P) (reliable := true) (s := s) (p := p) (isrec := false) (c := 1) (e := e) (O := .ok) (hps p (by simp)) he
        rwa [watchOp_ok] at this
      have h2 := (RSteps.nil.snoc h1).snoc (RStep.stop (c := 1) (O := .ok) (fun _ => rfl))
      obtain ⟨s', h'⟩ := ih (fun q hq => hps q (by simp [hq])) _
      exact ⟨s', by simpa [oneByOne] using h2.trans h'⟩
  obtain ⟨s, h⟩ := hist init
  refine ⟨s, h, fun p hp => (C82_exact h p (hps p hp).2).mpr (.inr ⟨p, false, 1, e, true, ?_, List.prefix_refl p⟩)⟩
  simp only [oneByOne, List.mem_flatMap]
  exact ⟨p, hp, by simp⟩

end Rec

namespace NonRec

variable {P : Platform}

theorem watchOp_ok (dt : DirTree) (s : St) (p : Path) (c : Nat) (e : Event) : (watchOp P .ok dt s p false c e).2 = true := by
  unfold watchOp NonRec.watch
  simp only [World.exec, Oracle.ok, Bool.false_eq_true, if_false, if_true]
  split <;> (try split) <;> rfl

/-- A program that watches one path after the other and stops each. -/
def oneByOne (e : Event) (ps : List Path) : List Op := ps.flatMap fun p => [.watch p false 1 e true, .stop 1]

/-- **C82 is false of the non-recursive tree** in the same way. -/
theorem C82_refuted {e : Event} (he : UserEvents P e) (ps : List Path) (hps : ∀ p ∈ ps, GoodPath p) :
    ∃ s, Hist P true (oneByOne e ps) s ∧ ∀ p ∈ ps, s.root.has p = true := by
  have hist : ∀ s₀, ∃ s, Steps P true s₀ (oneByOne e ps) s := by
    induction ps with
    | nil => exact fun s₀ => ⟨_, .nil⟩
    | cons p ps ih =>
      intro s
      have h1 : Step P true s (.watch p false 1 e true) (watchOp P .ok .err s p false 1 e).1 := by
        have := Step.watch (P := P) (reliable := true) (s := s) (p := p) (isrec := false) (c := 1) (e := e) (O := .ok) (dt := .err) (hps p (by simp)) he
          (by simp [DirTree.Named]) (fun _ h => by cases h)
        rwa [watchOp_ok] at this
      have h2 := (Steps.nil.snoc h1).snoc (Step.stop (c := 1) (O := .ok) (fun _ => rfl))
      obtain ⟨s', h'⟩ := ih (fun q hq => hps q (by simp [hq])) _
      exact ⟨s', by simpa [oneByOne] using h2.trans h'⟩
  obtain ⟨s, h⟩ := hist init
  refine ⟨s, h, fun p hp => (C82_kept h (fun op ho => ?_)).2 p false 1 e true ?_ p (List.prefix_refl p)⟩
  · simp only [oneByOne, List.mem_flatMap] at ho
    obtain ⟨q, _, hq⟩ := ho
    simp only [List.mem_cons, List.not_mem_nil, or_false] at hq
    rcases hq with rfl | rfl <;> trivial
  · simp only [oneByOne, List.mem_flatMap]
    exact ⟨p, hp, by simp⟩

/-- Two paths are watched and stopped, on Linux; the hypotheses of C82_kept, C82_bound_partial and C82_refuted are met. -/
example : ∃ s, Hist .inotify true (oneByOne 0x2 [[['a'], ['b']], [['c']]]) s ∧ s.root.has [['a']] = true ∧ s.root.has [['d']] = false := by
  have hp : ∀ p ∈ [[['a'], ['b']], [['c']]], GoodPath p := by simp [GoodPath]
  obtain ⟨s, h, h'⟩ := C82_refuted (P := .inotify) (e := 0x2) (by unfold UserEvents; decide) [[['a'], ['b']], [['c']]] hp
  have hpl : ∀ op ∈ oneByOne 0x2 [[['a'], ['b']], [['c']]], PlainOp op := by simp [oneByOne, PlainOp]
  refine ⟨s, h, (C82_bound_partial h hpl _).mpr (.inr ⟨[['a'], ['b']], 1, 0x2, true, by simp [oneByOne], by decide⟩), ?_⟩
  cases hd : s.root.has [['d']] with
  | false => rfl
  | true =>
    rcases (C82_bound_partial h hpl _).mp hd with h1 | ⟨p, c, e, res, hm, h1⟩
    · cases h1
    · simp only [oneByOne, List.flatMap_cons, List.flatMap_nil, List.cons_append, List.nil_append, List.append_nil, List.mem_cons, Op.watch.injEq, reduceCtorEq,
        List.not_mem_nil, or_false, false_or] at hm
      rcases hm with ⟨rfl, _⟩ | ⟨rfl, _⟩ <;> exact absurd h1 (by decide)

end NonRec
end Verif
