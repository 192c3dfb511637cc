/-
Coverage of directories by recursive watches on the non-recursive tree.
-/
import Verif.PropsNonRec

namespace Verif

theorem Node.addchild_find_other (nd : Node) (m : Path) (b : Comp) {r : Path} (hr : r ≠ [b]) :
    (nd.addchild m b).find r = nd.find r := by
  simp only [addchild]
  split
  · rfl
  · next h =>
    cases r with
    | nil => simp [watch]
    | cons b' r =>
      simp only [find_cons, child, Forest.get?_put]
      by_cases e : b = b'
      · subst e
        simp only [child] at h
        simp only [if_true, h, Option.bind_some, Option.bind_none]
        cases r with
        | nil => exact absurd rfl hr
        | cons => simp [find, new, get?, Forest.get?]
      · simp [e]

theorem DirTree.nil_mem_dirs (d : DirTree) : [] ∈ d.dirs := by
  cases d <;> simp [dirs]

theorem Entries.addChildren_find_other {Q : WP → Prop} {R : Node → Prop} (hQ : Q []) {n : Path} (hn : [] ∉ n) :
    (es : Entries) → es.Named → ∀ {nd : Node}, nd.OK Q R n → ∀ {r : Path}, r ∉ es.dirs →
      (es.addChildren nd).find r = nd.find r
  | .nil, _, nd, h, r, hr => rfl
  | .cons b isDir sub rest, hN, nd, h, r, hr => by
    simp only [Entries.Named] at hN
    simp only [dirs, List.mem_append, not_or] at hr
    simp only [addChildren]
    rw [h.name_eq, joinName_eq hn, joinBase_eq hn]
    by_cases hd : isDir = true
    · simp only [hd, if_true] at hr ⊢
      rw [addChildren_find_other hQ hn rest hN.2 (Node.addchild_OK h hQ (hN.1 hd).1) hr.2]
      apply Node.addchild_find_other
      rintro rfl
      exact hr.1 (List.mem_map.2 ⟨[], sub.nil_mem_dirs, rfl⟩)
    · simp only [hd]
      exact addChildren_find_other hQ hn rest hN.2 h hr.2

section
variable {σ : Type} {fn : σ → Path → WP → σ × WP}

mutual
/-- `AddDir` touches nothing but the listed directories. -/
theorem DirTree.addDir_other {Q : WP → Prop} (hQ0 : Q []) (hfn : ∀ s n w, Q w → Q (fn s n w).2)
    {n : Path} (hn : [] ∉ n) : (d : DirTree) → d.Named → ∀ {s : σ} {nd : Node}, nd.OK Q noR n →
      ∀ {r}, r ∉ d.dirs → (d.addDir fn s nd).2.1.find r = nd.find r
  | .err, _, s, .mk n' w ch, h, r, hr => by
    cases r with
    | nil => simp [DirTree.dirs, Entries.dirs] at hr
    | cons b r => simp only [DirTree.addDir, Node.find_cons, Node.child]
  | .dir es, hN, s, .mk n' w ch, h, r, hr => by
    simp only [Node.OK] at h
    obtain ⟨rfl, hw, hc⟩ := h
    cases r with
    | nil => simp [DirTree.dirs, Entries.dirs] at hr
    | cons b r =>
      simp only [DirTree.dirs, Entries.dirs, List.mem_cons, reduceCtorEq, false_or] at hr
      have hok := Node.OK.mk (n := n') (R := noR) (hfn s n' w hw) hc
      have h1 := Entries.addChildren_spec (R := noR) hQ0 hn es hN hok
      have h3 := Entries.addChildren_find_other hQ0 hn es hN hok hr
      have h2 := Entries.addDir_other hQ0 hfn hn es hN (s := (fn s n' w).1) h1.1.child hr
      simp only [DirTree.addDir, Node.find_cons, Node.child] at h3 ⊢
      exact h2.trans h3
theorem Entries.addDir_other {Q : WP → Prop} (hQ0 : Q []) (hfn : ∀ s n w, Q w → Q (fn s n w).2)
    {n : Path} (hn : [] ∉ n) : (es : Entries) → es.Named → ∀ {s : σ} {f : Forest}, f.OK Q noR n →
      ∀ {b r}, b :: r ∉ es.dirs →
        ((es.addDir fn n s f).2.1.get? b).bind (·.find r) = (f.get? b).bind (·.find r)
  | .nil, _, s, f, h, b, r, _ => by simp [Entries.addDir]
  | .cons b' isDir sub rest, hN, s, f, h, b, r, hr => by
    simp only [Entries.Named] at hN
    simp only [DirTree.dirs, Entries.dirs, List.mem_append, not_or] at hr
    have ih := Entries.addDir_other hQ0 hfn hn rest hN.2 (s := s) h hr.2
    have ihok := Entries.addDir_OK hQ0 hfn hn rest hN.2 (s := s) h
    simp only [Entries.addDir]
    split
    · exact ih
    split
    · next hd =>
      have hb := hN.1 hd
      rw [joinBase_eq hn]
      split
      · exact ih
      · next c hc =>
        simp only [Forest.get?_put]
        by_cases e : b' = b
        · subst e
          simp only [hd, if_true, List.mem_map, List.cons.injEq, true_and, exists_eq_right] at hr
          rw [hc] at ih
          simp only [if_true, Option.bind_some] at ih ⊢
          rw [DirTree.addDir_other hQ0 hfn (by simp [hn, Ne.symm hb.1]) sub hb.2 ((ihok.get hc).2 hb.1) hr.1]
          exact ih
        · simp only [e, if_false]; exact ih
    · exact ih
end
end

mutual
/-- The listed directories are closed under prefixes. -/
theorem DirTree.dirs_prefix : (d : DirTree) → ∀ {a r : Path}, r ∈ d.dirs → a <+: r → a ∈ d.dirs
  | .err, a, r, h, ha => by simp [DirTree.dirs, Entries.dirs] at h; subst h; simpa [DirTree.dirs] using ha
  | .dir es, a, r, h, ha => by
    cases a with
    | nil => simp [DirTree.dirs, Entries.dirs]
    | cons b a =>
      simp only [DirTree.dirs, Entries.dirs, List.mem_cons, reduceCtorEq, false_or] at h ⊢
      rcases h with rfl | h
      · simp at ha
      · exact Entries.dirs_prefix es h ha
theorem Entries.dirs_prefix : (es : Entries) → ∀ {b : Comp} {a r : Path}, r ∈ es.dirs → b :: a <+: r → b :: a ∈ es.dirs
  | .nil, b, a, r, h, ha => by simp [DirTree.dirs, Entries.dirs] at h
  | .cons b' isDir sub rest, b, a, r, h, ha => by
    simp only [DirTree.dirs, Entries.dirs, List.mem_append] at h ⊢
    rcases h with h | h
    · left
      split at h
      · next hd =>
        rw [if_pos hd]
        simp only [List.mem_map] at h ⊢
        obtain ⟨r', hr', rfl⟩ := h
        obtain ⟨t, ht⟩ := ha
        simp only [List.cons_append, List.cons.injEq] at ht
        exact ⟨a, DirTree.dirs_prefix sub hr' ⟨t, ht.2⟩, by rw [ht.1]⟩
      · simp at h
    · right; exact Entries.dirs_prefix rest h ha
end

namespace NonRec
open GoMap Spec

variable {P : Platform}

/-- The internal set at a position. -/
def recAt (nd : Node) (q : Path) : Option Event := (watchAt nd q).get? .recCh

theorem recAt_none_of_find {nd : Node} {q : Path} (h : nd.find q = none) : recAt nd q = none := by
  simp [recAt, watchAt, h]

theorem find_of_recAt {nd : Node} {q : Path} {v : Event} (h : recAt nd q = some v) : nd.find q ≠ none := by
  intro h'; rw [recAt_none_of_find h'] at h; simp at h

theorem recAt_val (nd : Node) (q : Path) : (watchAt nd q).val .recCh = (recAt nd q).getD 0 := rfl

theorem recAt_add (nd : Node) (p q : Path) : recAt (nd.add p) q = recAt nd q := by
  unfold recAt; rw [watchAt_add]

/-- The set given to the internal channel by a recursive Watch with `e`. -/
def rset (P : Platform) (e : Event) : Event := e ||| P.omitted ||| P.create

theorem recFunc_rec (P : Platform) (O : Oracle) (e : Event) (s : World) (n : Path) (w : WP) :
    (recFunc P O e s n w).2.get? .recCh = some (w.val .recCh ||| rset P e) := by
  rw [recFunc_snd, WP.get?_add P w (by simp)]; simp [rset]

theorem watchAdd_rec (hP : P.Facts) (w : WP) (c : Nat) {e : Event} (hr : P.recursive ⊑ e) :
    (watchAdd P w c e).get? .recCh = some (w.val .recCh ||| rset P e) := by
  have : e &&& P.recursive ≠ 0 := by have := hP.recursive_ne; ebits
  rw [watchAdd_eq this, WP.get?_add P _ (by simp)]
  simp only [reduceCtorEq, if_false]
  rw [WP.get?_add P _ (by simp)]
  simp only [reduceCtorEq, if_false, if_true, rset, BitVec.or_assoc, BitVec.or_comm P.create]

/-- `AddDir` with the internal callback: the listed directories get the set, all else is untouched. -/
theorem addDir_rec {O : Oracle} {e : Event} (he : P.recursive ⊑ e) {dt : DirTree} (hd : dt.Named) {nd : Node}
    {n : Path} (hn : [] ∉ n) (hok : nd.OK (NR P) noR n) (s : World)
    (hres : (dt.addDir (recFunc P O e) s nd).2.2 = true) (r : Path) :
    (r ∈ dt.dirs → recAt (dt.addDir (recFunc P O e) s nd).2.1 r =
        some ((watchAt nd r).val .recCh ||| rset P e)) ∧
    (r ∉ dt.dirs → (dt.addDir (recFunc P O e) s nd).2.1.find r = nd.find r) := by
  have hQ : ∀ (s : World) n w, NR P w → NR P (recFunc P O e s n w).2 := fun s n w hw => recFunc_nr he hw
  refine ⟨fun hr => ?_, fun hr => DirTree.addDir_other (nr_nil P) hQ hn dt hd hok hr⟩
  obtain ⟨w, hw, hC⟩ := DirTree.addDir_covers (nr_nil P) hQ
    (C := fun w => ∃ v, w.get? .recCh = some v ∧ rset P e ⊑ v)
    (fun s n w => ⟨_, recFunc_rec P O e s n w, by unfold rset; ebits⟩) hn dt hd hok hres r hr
  have h2 := (DirTree.addDir_rel (nr_nil P) hQ
    (Rel := fun w w' => w.val .recCh ⊑ w'.val .recCh ∧ w'.val .recCh ⊑ w.val .recCh ||| rset P e)
    (fun w => ⟨Event.Sub.refl _, Event.sub_or_left _ _⟩)
    (fun a b c h1 h2 => ⟨h1.1.trans h2.1, by
      have h3 := h1.2; have h4 := h2.2
      clear h1 h2
      generalize a.val .recCh = x at *; generalize b.val .recCh = y at *; generalize c.val .recCh = z at *
      generalize rset P e = t at *
      ebits⟩)
    (fun s n w => by
      have := val_of_some (recFunc_rec P O e s n w)
      rw [this]; exact ⟨Event.sub_or_left _ _, Event.Sub.refl _⟩) hn dt hd (s := s) hok r).1
  obtain ⟨v, hv, hsub⟩ := hC
  rw [hw] at h2
  simp only [Option.getD_some, val_of_some hv] at h2
  unfold recAt
  rw [find_some_watchAt hw, hv]
  congr 1
  change ((nd.find r).getD []).val .recCh ⊑ v ∧ v ⊑ ((nd.find r).getD []).val .recCh ||| rset P e at h2
  unfold watchAt
  apply Event.Sub.antisymm h2.2
  exact Event.or_sub h2.1 hsub

/-- The traversal of known nodes. -/
theorem trav_rec {O : Oracle} {e : Event} {skip : Bool} {nd : Node} {n : Path} (hok : nd.OK (NR P) noR n)
    (s : World) (r : Path) :
    recAt (nd.trav skip (fun s _ n w => recFunc P O e s n w) s []).2 r =
      (if nd.find r = none then none else some ((watchAt nd r).val .recCh ||| rset P e)) ∧
    ((nd.trav skip (fun s _ n w => recFunc P O e s n w) s []).2.find r = none ↔ nd.find r = none) := by
  have hfind := Node.trav_find (skip := skip) (s := s) (pw := [])
    (fn := fun s (_ : WP) n w => recFunc P O e s n w)
    (g := fun _ w => (w.add P .recCh (e ||| P.omitted ||| P.create)).1) (fun _ _ _ _ => rfl) hok r
  have key : ∀ (q : Path) (pw : WP) (nd : Node), Node.travW (fun _ w => (w.add P .recCh (e ||| P.omitted ||| P.create)).1) pw nd q =
      (nd.find q).map (fun w => (w.add P .recCh (e ||| P.omitted ||| P.create)).1) := by
    intro q
    induction q with
    | nil => intro pw nd; simp [Node.travW]
    | cons b q ih =>
      intro pw nd
      simp only [Node.travW, Node.find_cons]
      cases nd.child.get? b with
      | none => rfl
      | some c => simp only [Option.bind_some]; exact ih _ c
  rw [key] at hfind
  refine ⟨?_, by rw [hfind]; simp⟩
  unfold recAt watchAt
  rw [hfind]
  cases hf : nd.find r with
  | none => simp
  | some w =>
    simp only [Option.map_some, Option.getD_some, reduceCtorEq, if_false]
    rw [WP.get?_add P w (by simp)]; simp [rset]

/-- `root'` is `root` with the internal set `X` added at the positions in `T`. -/
structure Region (root root' : Node) (T : Path → Prop) (X : Event) : Prop where
  inside : ∀ q, T q → recAt root' q = some ((recAt root q).getD 0 ||| X)
  outside : ∀ q, ¬ T q → recAt root' q = recAt root q
  nodes : ∀ q, root'.find q ≠ none → root.find q ≠ none ∨ T q

theorem find_setWatch_none {nd : Node} {p : Path} (hg : nd.get? p ≠ none) (w : WP) (q : Path) :
    (nd.update p (Node.setWatch w)).find q = none ↔ nd.find q = none := by
  obtain ⟨c, hc⟩ := Option.ne_none_iff_exists'.1 hg
  rw [Node.find_setWatch nd hc]
  split
  · next h => subst h; simp [Node.find, hc]
  · rfl

theorem recAt_setWatch {nd : Node} {p : Path} (hg : nd.get? p ≠ none) (w : WP) (q : Path) :
    recAt (nd.update p (Node.setWatch w)) q = if q = p then GoMap.get? w .recCh else recAt nd q := by
  unfold recAt; rw [watchAt_setWatch hg]; split <;> rfl

theorem find_put {nd : Node} {p : Path} (hg : nd.get? p ≠ none) (nd' : Node) (r : Path) :
    (nd.update p (fun _ => nd')).find (p ++ r) = nd'.find r := by
  obtain ⟨c, hc⟩ := Option.ne_none_iff_exists'.1 hg
  rw [Node.update_find_append nd p _ hc]

/-- What a successful recursive Watch does to the internal sets. -/
theorem watchrec_rec (hP : P.Facts) (O : Oracle) {s : St} (h : Shape P s.root) {p : Path} (hp : GoodPath p)
    (hg : s.root.get? p ≠ none) (c : Nat) {e : Event} (he : RecSet P e) {dt : DirTree} (hd : dt.Named)
    (hres : (NonRec.watchrec P O dt s p c e).2 = true) :
    ((∃ v, recAt s.root p = some v ∧ e ||| P.create ⊑ v) ∧
      Region s.root (NonRec.watchrec P O dt s p c e).1.root (fun _ => False) 0) ∨
    (recAt s.root p = none ∧
      Region s.root (NonRec.watchrec P O dt s p c e).1.root (fun q => ∃ r ∈ dt.dirs, q = p ++ r) (rset P e)) ∨
    ((∃ v, recAt s.root p = some v) ∧
      Region s.root (NonRec.watchrec P O dt s p c e).1.root (fun q => p <+: q ∧ s.root.find q ≠ none) (rset P e)) := by
  have hw := h.nr p
  have hval : ∀ q, (watchAt s.root q).val .recCh = (recAt s.root q).getD 0 := fun q => rfl
  unfold NonRec.watchrec at hres ⊢
  simp only at hres ⊢
  split at hres
  · next h1 =>
    rw [if_pos h1]
    left
    have h2 : (watchAt s.root p).val .recCh &&& ((e ||| P.create) &^ P.internal) = (e ||| P.create) &^ P.internal := by
      simp only [WP.dryAdd] at h1
      split at h1
      · assumption
      · next hne =>
        exfalso
        have h3 := congrArg Prod.fst h1
        have h4 := congrArg Prod.snd h1
        simp only [Diff.none] at h3 h4
        have := he.he
        generalize (watchAt s.root p).val .recCh = x at *
        ebits
    cases hr : recAt s.root p with
    | none =>
      exfalso
      rw [hval, hr] at h2
      have := he.he
      simp only [Option.getD_none] at h2
      ebits
    | some v =>
      have hv := hw.recv v hr
      have hsub : e ||| P.create ⊑ v := by
        rw [hval, hr] at h2
        simp only [Option.getD_some] at h2
        clear h1
        ebits
      refine ⟨⟨v, rfl, hsub⟩, ⟨fun _ h => h.elim, fun q _ => ?_, fun q hq => Or.inl ?_⟩⟩
      · rw [recAt_setWatch hg]
        split
        · next hq =>
          subst hq
          rw [WP.get?_add P _ (by simp)]
          simp only [reduceCtorEq, if_false, if_true]
          rw [val_of_some (watchAdd_rec hP _ c he.hr), hval, hr, Option.getD_some]
          congr 1
          unfold rset
          clear h1 h2 hres
          ebits
        · rfl
      · rwa [Ne, find_setWatch_none hg] at hq
  · next h1 =>
    rw [if_neg h1]
    split at hres
    · next h2 =>
      exfalso
      simp only [WP.dryAdd, Diff.none] at h1 h2
      have := he.he
      split at h1
      · exact h1 rfl
      · next h3 =>
        simp only [h3, if_false] at h2
        generalize (watchAt s.root p).val .recCh = x at *
        ebits
    · next h2 =>
      rw [if_neg h2]
      right
      obtain ⟨nd, hnd⟩ := Option.ne_none_iff_exists'.1 hg
      simp only [hnd] at hres ⊢
      have hndok : nd.OK (NR P) noR p := by simpa using h.ok.get hp.2 hnd
      have hne : ¬ (watchAt s.root p).val .recCh &&& ((e ||| P.create) &^ P.internal) = (e ||| P.create) &^ P.internal := by
        intro h3; apply h1; simp only [WP.dryAdd, h3, if_true]
      have hd1 : (WP.dryAdd P (watchAt s.root p) .recCh (e ||| P.create)).1 = (watchAt s.root p).val .recCh &^ P.internal := by
        simp only [WP.dryAdd, hne, if_false]
      have hfd : ∀ r, s.root.find (p ++ r) = nd.find r := by
        intro r; rw [Node.find_append, hnd]; rfl
      have hrd : ∀ r, recAt s.root (p ++ r) = recAt nd r := by
        intro r; unfold recAt; rw [watchAt_get hnd]
      rw [hd1] at hres ⊢
      by_cases hz : (watchAt s.root p).val .recCh &^ P.internal = 0
      · simp only [if_pos hz] at hres ⊢
        split at hres
        · next hok =>
          rw [if_pos hok]
          left
          have hrn : recAt s.root p = none := by
            cases hr : recAt s.root p with
            | none => rfl
            | some v =>
              have hv := hw.recv v hr
              rw [hval, hr, Option.getD_some] at hz
              have h3 := hP.create_ne
              have h4 := hP.create_rec
              have h5 := hP.create_omit
              clear hne hd1 h1 h2
              exfalso
              ebits
          refine ⟨hrn, ?_⟩
          have key := addDir_rec (O := O) he.hr hd hp.2 hndok s.world hok
          have hg' := get_put_ne hg (dt.addDir (recFunc P O e) s.world nd).2.1
          have hpe : ∀ r, (p : Path) = p ++ r → r = [] := by
            intro r hr; simpa using hr
          refine ⟨?_, ?_, ?_⟩
          · rintro q ⟨r, hr, rfl⟩
            have hk := (key r).1 hr
            rw [recAt_setWatch hg']
            have hx : recAt (s.root.update p fun _ => (dt.addDir (recFunc P O e) s.world nd).2.1) (p ++ r) =
                some ((watchAt nd r).val .recCh ||| rset P e) := by
              unfold recAt; rw [watchAt_put hg]; exact hk
            split
            · next hq =>
              have : r = [] := by simpa using hq
              subst this
              simp only [List.append_nil] at hx ⊢
              rw [watchAdd_rec hP _ c he.hr]
              change some ((recAt _ p).getD 0 ||| _) = _
              rw [hx, Option.getD_some]
              have := hrd []
              simp only [List.append_nil] at this
              rw [this, BitVec.or_assoc, BitVec.or_self]; rfl
            · rw [hx, hrd]; rfl
          · intro q hq
            rw [recAt_setWatch hg', if_neg (by rintro rfl; exact hq ⟨[], dt.nil_mem_dirs, by simp⟩)]
            by_cases hpq : p <+: q
            · obtain ⟨r, rfl⟩ := hpq
              have hr : r ∉ dt.dirs := fun hr => hq ⟨r, hr, rfl⟩
              have hk := (key r).2 hr
              rw [hrd]
              unfold recAt
              rw [watchAt_put hg]
              unfold watchAt; rw [hk]
            · unfold recAt; rw [watchAt_put_other _ _ hpq]
          · intro q hq
            rw [Ne, find_setWatch_none hg'] at hq
            by_cases hpq : p <+: q
            · obtain ⟨r, rfl⟩ := hpq
              by_cases hr : r ∈ dt.dirs
              · exact Or.inr ⟨r, hr, rfl⟩
              · left
                rw [find_put hg, (key r).2 hr] at hq
                rwa [hfd]
            · left; rwa [Node.update_find_other _ _ _ hpq] at hq
        · simp at hres
      · simp only [if_neg hz] at hres ⊢
        · rw [if_pos trivial]
          right
          have hrn : ∃ v, recAt s.root p = some v := by
            cases hr : recAt s.root p with
            | some v => exact ⟨v, rfl⟩
            | none =>
              rw [hval, hr, Option.getD_none] at hz
              exact absurd (by ebits) hz
          refine ⟨hrn, ?_⟩
          have key := trav_rec (O := O) (e := e) (skip := true) hndok s.world
          have hg' := get_put_ne hg (nd.trav true (fun s _ n w => recFunc P O e s n w) s.world []).2
          refine ⟨?_, ?_, ?_⟩
          · rintro q ⟨⟨r, rfl⟩, hf⟩
            have hk := (key r).1
            rw [hfd] at hf
            rw [if_neg hf] at hk
            rw [recAt_setWatch hg']
            have hx : recAt (s.root.update p fun _ => (nd.trav true (fun s _ n w => recFunc P O e s n w) s.world []).2) (p ++ r) =
                some ((watchAt nd r).val .recCh ||| rset P e) := by
              unfold recAt; rw [watchAt_put hg]; exact hk
            split
            · next hq =>
              have : r = [] := by simpa using hq
              subst this
              simp only [List.append_nil] at hx ⊢
              rw [watchAdd_rec hP _ c he.hr]
              change some ((recAt _ p).getD 0 ||| _) = _
              rw [hx, Option.getD_some]
              have := hrd []
              simp only [List.append_nil] at this
              rw [this, BitVec.or_assoc, BitVec.or_self]; rfl
            · rw [hx, hrd]; rfl
          · intro q hq
            rw [recAt_setWatch hg', if_neg (by
              rintro rfl
              exact hq ⟨List.prefix_rfl, by rw [Ne, Node.find_eq_none]; exact hg⟩)]
            by_cases hpq : p <+: q
            · obtain ⟨r, rfl⟩ := hpq
              have hr : nd.find r = none := by
                by_contra hr
                exact hq ⟨List.prefix_append _ _, by rwa [hfd]⟩
              rw [hrd, recAt_none_of_find hr]
              have hk := (key r).1
              rw [if_pos hr] at hk
              unfold recAt
              rw [watchAt_put hg]; exact hk
            · unfold recAt; rw [watchAt_put_other _ _ hpq]
          · intro q hq
            left
            rw [Ne, find_setWatch_none hg'] at hq
            by_cases hpq : p <+: q
            · obtain ⟨r, rfl⟩ := hpq
              rw [find_put hg] at hq
              rw [hfd]; exact fun h => hq ((key r).2.2 h)
            · rw [Node.update_find_other _ _ _ hpq] at hq; exact hq

/-! ### Histories with a set of directories -/

/-- The tree matches the set `D` of existing directories and the events `G` asked for by
recursive Watches. -/
structure Cov (P : Platform) (root : Node) (D : Path → Prop) (G : Nat → Path → Event) : Prop where
  pre : ∀ a b, D (a ++ b) → D a
  own : ∀ q, root.find q ≠ none → D q
  mono : ∀ q b v, D (q ++ [b]) → recAt root q = some v → ∃ v', recAt root (q ++ [b]) = some v' ∧ v ⊑ v'
  asked : ∀ c q, G c q ≠ 0 → G c q &&& P.internal = 0 ∧ (∃ v, entry root c q = some v ∧ G c q ⊑ v) ∧
    ∃ v, recAt root q = some v ∧ G c q ⊑ v

section
variable {G G' : Nat → Path → Event}

theorem Cov.chain {root : Node} {D : Path → Prop} (h : Cov P root D G) {q : Path} {v : Event}
    (hv : recAt root q = some v) (r : Path) (hD : D (q ++ r)) :
    ∃ v', recAt root (q ++ r) = some v' ∧ v ⊑ v' := by
  induction r generalizing q v with
  | nil => exact ⟨v, by simpa using hv, Event.Sub.refl v⟩
  | cons b r ih =>
    have e : q ++ b :: r = (q ++ [b]) ++ r := by simp
    rw [e] at hD ⊢
    obtain ⟨u, hu, hs⟩ := h.mono _ _ _ (h.pre _ _ hD) hv
    obtain ⟨v', hv', hs'⟩ := ih hu hD
    exact ⟨v', hv', hs.trans hs'⟩

theorem Cov.region {root root' : Node} {D D' : Path → Prop} {T : Path → Prop} {X : Event}
    (h : Cov P root D G) (hR : Region root root' T X)
    (hpre : ∀ a b, D' (a ++ b) → D' a) (hDD : ∀ q, D q → D' q) (hT : ∀ q, T q → D' q)
    (hup : ∀ q b, D' (q ++ [b]) → T q → T (q ++ [b]))
    (hold : ∀ q b u, D' (q ++ [b]) → T q → recAt root q = some u → D (q ++ [b]))
    (hedge : ∀ q b v, D' (q ++ [b]) → T (q ++ [b]) → ¬ T q → recAt root q = some v →
      v ⊑ (recAt root (q ++ [b])).getD 0 ||| X)
    (hnew : ∀ q b v, D' (q ++ [b]) → ¬ T (q ++ [b]) → ¬ T q → recAt root q = some v → D (q ++ [b]))
    (huser : ∀ c q, G' c q ≠ 0 → G' c q &&& P.internal = 0 ∧ (∃ v, entry root' c q = some v ∧ G' c q ⊑ v) ∧
      (G' c q = G c q ∨ ∃ v, recAt root' q = some v ∧ G' c q ⊑ v)) : Cov P root' D' G' where
  pre := hpre
  own := fun q hq => (hR.nodes q hq).elim (fun h' => hDD q (h.own q h')) (hT q)
  mono := by
    intro q b v hD hv
    by_cases hq : T q
    · refine ⟨_, hR.inside _ (hup q b hD hq), ?_⟩
      have h1 := hR.inside q hq
      rw [hv] at h1
      obtain rfl := Option.some.inj h1
      cases hr : recAt root q with
      | none => simp only [Option.getD_none, BitVec.ofNat_eq_ofNat, BitVec.zero_or]; exact Event.sub_or_right _ _
      | some u =>
        obtain ⟨u', hu', hs⟩ := h.mono q b u (hold q b u hD hq hr) hr
        rw [hu', Option.getD_some, Option.getD_some]
        exact Event.or_sub (hs.trans (Event.sub_or_left _ _)) (Event.sub_or_right _ _)
    · have hv' := hv
      rw [hR.outside q hq] at hv'
      by_cases hqb : T (q ++ [b])
      · exact ⟨_, hR.inside _ hqb, hedge q b v hD hqb hq hv'⟩
      · obtain ⟨u', hu', hs⟩ := h.mono q b v (hnew q b v hD hqb hq hv') hv'
        exact ⟨u', by rw [hR.outside _ hqb]; exact hu', hs⟩
  asked := by
    intro c q hg
    obtain ⟨h0, h1, h2⟩ := huser c q hg
    refine ⟨h0, h1, ?_⟩
    rcases h2 with h2 | h2
    · rw [h2] at hg ⊢
      obtain ⟨u, hu, hs⟩ := (h.asked c q hg).2.2
      by_cases hq : T q
      · exact ⟨_, hR.inside q hq, by rw [hu]; exact hs.trans (Event.sub_or_left _ _)⟩
      · exact ⟨u, by rw [hR.outside q hq]; exact hu, hs⟩
    · exact h2

theorem Cov.add {root : Node} {D : Path → Prop} (h : Cov P root D G) {p : Path} (hp : D p) :
    Cov P (root.add p) D G where
  pre := h.pre
  own := by
    intro q hq
    by_cases h1 : root.find q = none
    · rw [Node.add_find] at hq
      by_cases h2 : q <+: p
      · obtain ⟨r, rfl⟩ := h2; exact h.pre _ _ hp
      · simp [h1, h2] at hq
    · exact h.own q h1
  mono := by simpa only [recAt_add] using h.mono
  asked := by simpa only [recAt_add, entry, watchAt_add] using h.asked

theorem Cov.watchRec (hP : P.Facts) (O : Oracle) {s : St} {D : Path → Prop} (hs : Shape P s.root)
    (h : Cov P s.root D G)
    {p : Path} (hp : GoodPath p) (hD : D p) (c : Nat) {e : Event} (he : UserEvents P e) {dt : DirTree}
    (hd : dt.Named) (hdirs : ∀ r, r ∈ dt.dirs ↔ D (p ++ r))
    (hres : (watchOp P O dt s p true c e).2 = true) :
    Cov P (watchOp P O dt s p true c e).1.root D
      (fun d q => if d = c ∧ q = p then G c p ||| e else G d q) := by
  have hs1 := hs.add hp
  have h1 := h.add hD
  have hg := Node.add_get_ne_none s.root p
  have hset := recSet_of hP he.1 he.2
  have hent := (watchOp_effect hP O hs hp true c he hd).2
  rw [hres] at hent
  simp only [if_true] at hent
  -- the entries
  have huser : (∃ v, recAt (watchOp P O dt s p true c e).1.root p = some v ∧
        (recAt (s.root.add p) p).getD 0 ||| e ⊑ v) →
      ∀ d q, (if d = c ∧ q = p then G c p ||| e else G d q) ≠ 0 →
      (if d = c ∧ q = p then G c p ||| e else G d q) &&& P.internal = 0 ∧
      (∃ v, entry (watchOp P O dt s p true c e).1.root d q = some v ∧
        (if d = c ∧ q = p then G c p ||| e else G d q) ⊑ v) ∧
      ((if d = c ∧ q = p then G c p ||| e else G d q) = G d q ∨
        ∃ v, recAt (watchOp P O dt s p true c e).1.root q = some v ∧
          (if d = c ∧ q = p then G c p ||| e else G d q) ⊑ v) := by
    rintro ⟨u, hu, hus⟩ d q hne
    rw [hent]
    by_cases hdq : d = c ∧ q = p
    · obtain ⟨rfl, rfl⟩ := hdq
      simp only [and_self, if_true]
      have hGe : G d q &&& P.internal = 0 ∧ G d q ⊑ (watchAt s.root q).val (.user d) ∧
          G d q ⊑ (recAt (s.root.add q) q).getD 0 := by
        by_cases h0 : G d q = 0
        · rw [h0]; exact ⟨by ebits, Event.zero_sub _, Event.zero_sub _⟩
        · obtain ⟨hi, ⟨v, hv, hvs⟩, ⟨w, hw, hws⟩⟩ := h.asked d q h0
          refine ⟨hi, ?_, ?_⟩
          · rw [val_of_some hv]; exact hvs
          · rw [recAt_add, hw]; exact hws
      have hi := he.2
      refine ⟨?_, ⟨_, rfl, ?_⟩, Or.inr ⟨u, hu, ?_⟩⟩
      · have := hGe.1; clear hGe; ebits
      · have := hGe.2.1
        generalize (watchAt s.root q).val (.user d) = y at *
        clear hGe hus; ebits
      · have := hGe.2.2
        exact Event.Sub.trans (Event.or_sub (this.trans (Event.sub_or_left _ _)) (Event.sub_or_right _ _)) hus
    · simp only [hdq, if_false] at hne ⊢
      obtain ⟨hi, h3, _⟩ := h.asked d q hne
      exact ⟨hi, h3, Or.inl trivial⟩
  unfold watchOp at hres huser ⊢
  simp only [if_true] at hres huser ⊢
  have key := watchrec_rec hP O (s := { s with root := s.root.add p }) hs1 hp hg c hset hd hres
  simp only at key
  rcases key with ⟨⟨v, hv, hsub⟩, hR⟩ | ⟨hnone, hR⟩ | ⟨⟨v, hv⟩, hR⟩
  · refine h1.region hR h.pre (fun _ h => h) (by simp) (by simp) (by simp) (by simp)
      (fun q b v hD _ _ _ => hD) (huser ⟨v, by rw [hR.outside _ (by simp)]; exact hv, ?_⟩)
    rw [hv, Option.getD_some]
    clear hent huser hR
    ebits
  · have hT : ∀ q, (∃ r ∈ dt.dirs, q = p ++ r) ↔ p <+: q ∧ D q := by
      intro q
      constructor
      · rintro ⟨r, hr, rfl⟩; exact ⟨List.prefix_append _ _, (hdirs r).1 hr⟩
      · rintro ⟨⟨r, rfl⟩, hq⟩; exact ⟨r, (hdirs r).2 hq, rfl⟩
    simp only [hT] at hR
    refine h1.region hR h.pre (fun _ h => h) (fun q h => h.2)
      (fun q b hqb hq => ⟨hq.1.trans (List.prefix_append _ _), hqb⟩)
      (fun q b u hqb _ _ => hqb) ?_ (fun q b v hD _ _ _ => hD)
      (huser ⟨_, hR.inside p ⟨List.prefix_rfl, hD⟩, ?_⟩)
    · intro q b v hqb hT hnT hv
      exfalso
      have hq : q ++ [b] = p := by
        rcases List.prefix_concat_iff.1 hT.1 with h3 | h3
        · exact h3.symm
        · exact absurd ⟨h3, h.pre _ _ hqb⟩ hnT
      obtain ⟨v', hv', _⟩ := h1.mono q b v hqb hv
      rw [hq, hnone] at hv'; simp at hv'
    · rw [hnone]; unfold rset; ebits
  · have hfind : ∀ q, p <+: q → D q → (s.root.add p).find q ≠ none := by
      rintro q ⟨r, rfl⟩ hq
      obtain ⟨v', hv', _⟩ := h1.chain hv r hq
      exact find_of_recAt hv'
    have hfp := hfind p List.prefix_rfl hD
    refine h1.region hR h.pre (fun _ h => h) (fun q hq => h1.own q hq.2)
      (fun q b hqb hq => ⟨hq.1.trans (List.prefix_append _ _), hfind _ (hq.1.trans (List.prefix_append _ _)) hqb⟩)
      (fun q b u hqb _ _ => hqb) ?_ (fun q b v hD _ _ _ => hD)
      (huser ⟨_, hR.inside p ⟨List.prefix_rfl, hfp⟩, ?_⟩)
    · intro q b u hqb hT hnT hu
      obtain ⟨v', hv', hs'⟩ := h1.mono q b u hqb hu
      rw [hv', Option.getD_some]
      exact hs'.trans (Event.sub_or_left _ _)
    · rw [hv, Option.getD_some]; unfold rset
      clear hent huser hR
      ebits

theorem Cov.watchPlain (hP : P.Facts) (O : Oracle) {s : St} {D : Path → Prop} (hs : Shape P s.root)
    (h : Cov P s.root D G) {p : Path} (hp : GoodPath p) (hD : D p) (c : Nat) {e : Event} (he : UserEvents P e)
    {dt : DirTree} (hd : dt.Named) : Cov P (watchOp P O dt s p false c e).1.root D G := by
  have h1 := h.add hD
  have hg := Node.add_get_ne_none s.root p
  have hent := (watchOp_effect hP O hs hp false c he hd).2
  have hR : Region (s.root.add p) (watchOp P O dt s p false c e).1.root (fun _ => False) 0 := by
    have hset : ∀ (nd : Node) (w : WP), nd.get? p ≠ none → GoMap.get? w .recCh = recAt nd p →
        Region nd (nd.update p (Node.setWatch w)) (fun _ => False) 0 := by
      intro nd w hg hw
      refine ⟨fun _ h => h.elim, fun q _ => ?_, fun q hq => Or.inl ?_⟩
      · rw [recAt_setWatch hg]; split
        · next hq => rw [hw, hq]
        · rfl
      · rwa [Ne, find_setWatch_none hg] at hq
    have hadd : GoMap.get? ((watchAt (s.root.add p) p).add P (.user c) e).1 .recCh = recAt (s.root.add p) p := by
      rw [WP.get?_add P _ (by simp)]; simp [recAt]
    unfold watchOp NonRec.watch
    simp only [Bool.false_eq_true, if_false]
    split
    · exact hset _ _ hg hadd
    split
    · exact hset _ _ hg hadd
    split
    · exact hset _ _ hg hadd
    · have r1 := hset _ _ hg hadd
      have r2 := hset _ (WP.del P ((watchAt (s.root.add p) p).add P (.user c) e).1 (.user c)
        (Diff.event ((watchAt (s.root.add p) p).add P (.user c) e).2)).1 (get_setWatch_ne hg
          ((watchAt (s.root.add p) p).add P (.user c) e).1) (by
        rw [WP.get?_del_ne_nil P _ (by simp) _ (by simp), recAt_setWatch hg]
        simp)
      exact ⟨fun _ h => h.elim, fun q hq => (r2.outside q hq).trans (r1.outside q hq),
        fun q hq => (r2.nodes q hq).elim (fun h => r1.nodes q h) Or.inr⟩
  refine h1.region hR h.pre (fun _ h => h) (by simp) (by simp) (by simp) (by simp)
      (fun q b v hD _ _ _ => hD) ?_
  intro d q hne
  obtain ⟨hi, ⟨v, hv, hvs⟩, _⟩ := h.asked d q hne
  refine ⟨hi, ?_, Or.inl rfl⟩
  rw [hent]
  split
  · next hdq =>
    obtain ⟨rfl, rfl⟩ := hdq
    split
    · refine ⟨_, rfl, ?_⟩
      rw [val_of_some hv]
      exact hvs.trans (Event.Sub.trans (Event.sub_or_left _ _) (Event.sub_or_left _ _))
    · simp only [Bool.false_eq_true, if_false]
      obtain ⟨v', h5, h6⟩ := rolledBack_ge (hs.nr q) d he hv
      exact ⟨v', h5, hvs.trans h6⟩
  · exact ⟨v, hv, hvs⟩

/-- Stop, position by position. -/
theorem stop_watchAt (O : Oracle) {s : St} (h : Shape P s.root) (c : Nat) (q : Path) (b : Comp) :
    watchAt (stop P O s c).root (q ++ [b]) =
      if (watchAt s.root (q ++ [b])).length ≠ 0 then
        (watchDelMin P ((recAt (stop P O s c).root q).getD 0) (watchAt s.root (q ++ [b])) (.user c) allEvents).1
      else [] := by
  have hfind : ∀ q, (stop P O s c).root.find q = Node.travW (fun pw w => if w.length ≠ 0 then
      (watchDelMin P (pw.val .recCh) w (.user c) allEvents).1 else w) [] s.root q :=
    fun q => Node.trav_find (fun s pw n w => stopFunc_snd P O c s pw n w) h.ok q
  have h1 := hfind (q ++ [b])
  rw [Node.travW_append, ← hfind q] at h1
  unfold watchAt
  rw [h1]
  cases hf : s.root.find (q ++ [b]) with
  | none => simp
  | some w =>
    have hq : (stop P O s c).root.find q ≠ none := by
      intro hn
      rw [hn, Option.bind_none] at h1
      have := Node.travW_isSome (fun pw w => if w.length ≠ 0 then
          (watchDelMin P (pw.val .recCh) w (.user c) allEvents).1 else w) [] s.root (q ++ [b])
      rw [← hfind, h1, hf] at this
      simp at this
    obtain ⟨u, hu⟩ := Option.ne_none_iff_exists'.1 hq
    simp only [hu, Option.bind_some, Option.map_some, Option.getD_some]
    unfold recAt watchAt
    rw [hu, Option.getD_some]
    split
    · rfl
    · next hl => exact List.length_eq_zero_iff.1 (by simpa using hl)

theorem path_cases (q : Path) : q = [] ∨ ∃ r b, q = r ++ [b] := by
  by_cases h : q = []
  · exact Or.inl h
  · exact Or.inr ⟨q.dropLast, q.getLast h, (List.dropLast_concat_getLast h).symm⟩

theorem recAt_top {nd : Node} (h : Shape P nd) : recAt nd [] = none := by
  unfold recAt; rw [watchAt_nil, h.top]; rfl

theorem stop_find_none (O : Oracle) {s : St} (h : Shape P s.root) (c : Nat) (q : Path) :
    (stop P O s c).root.find q = none ↔ s.root.find q = none := by
  have hfind : (stop P O s c).root.find q = Node.travW (fun pw w => if w.length ≠ 0 then
      (watchDelMin P (pw.val .recCh) w (.user c) allEvents).1 else w) [] s.root q :=
    Node.trav_find (fun s pw n w => stopFunc_snd P O c s pw n w) h.ok q
  have := Node.travW_isSome (fun pw w => if w.length ≠ 0 then
      (watchDelMin P (pw.val .recCh) w (.user c) allEvents).1 else w) [] s.root q
  rw [← hfind] at this
  cases h1 : (stop P O s c).root.find q <;> cases h2 : s.root.find q <;> simp [h1, h2] at this ⊢

theorem Cov.stop (hP : P.Facts) (O : Oracle) {s : St} {D : Path → Prop} (hs : Shape P s.root)
    (h : Cov P s.root D G) (c : Nat) :
    Cov P (stop P O s c).root D (fun d q => if d = c then 0 else G d q) := by
  obtain ⟨hs', hent⟩ := stop_effect hP O hs c
  have hspec := fun q b => watchDelMin_spec hP (hs.nr (q ++ [b])) (hs'.nr q).minOK c
  have hlen : ∀ q v, recAt s.root q = some v → (watchAt s.root q).length ≠ 0 := by
    intro q v hv hl
    have := List.length_eq_zero_iff.1 hl
    unfold recAt at hv; rw [this] at hv; simp at hv
  have hrec : ∀ q b v, recAt s.root (q ++ [b]) = some v → recAt (NonRec.stop P O s c).root (q ++ [b]) =
      GoMap.get? (watchDelMin P ((watchAt (NonRec.stop P O s c).root q).val .recCh) (watchAt s.root (q ++ [b])) (.user c) allEvents).1 .recCh := by
    intro q b v hv
    conv_lhs => unfold recAt
    rw [stop_watchAt O hs, if_pos (hlen _ v hv)]
    rfl
  have hback : ∀ q v, recAt (NonRec.stop P O s c).root q = some v → ∃ u, recAt s.root q = some u := by
    intro q v hv
    rcases path_cases q with rfl | ⟨r, b, rfl⟩
    · rw [recAt_top hs'] at hv; simp at hv
    · unfold recAt at hv
      rw [stop_watchAt O hs] at hv
      split at hv
      · by_contra hn
        have hn' : (watchAt s.root (r ++ [b])).get? .recCh = none := by
          cases hr : (watchAt s.root (r ++ [b])).get? .recCh with
          | none => rfl
          | some u => exact absurd ⟨u, hr⟩ hn
        have := (hspec r b).2.2.2.2.2 (Or.inl hn')
        change GoMap.get? (watchDelMin P ((watchAt (NonRec.stop P O s c).root r).val .recCh) _ _ _).1 _ = _ at hv
        rw [this] at hv; simp at hv
      · simp at hv
  refine ⟨h.pre, fun q hq => h.own q (by rwa [Ne, stop_find_none O hs] at hq), ?_, ?_⟩
  · intro q b v hD hv
    obtain ⟨u, hu⟩ := hback q v hv
    obtain ⟨u', hu', _⟩ := h.mono q b u hD hu
    have hmin : (watchAt (NonRec.stop P O s c).root q).val .recCh = v := val_of_some hv
    have hv0 : v ≠ 0 := by
      have := (hs'.nr q).recv v hv
      have := hP.create_ne
      ebits
    have hne : recAt (NonRec.stop P O s c).root (q ++ [b]) ≠ none := by
      rw [hrec q b u' hu']
      intro hn
      rcases (hspec q b).2.2.2.2.1 hn with h1 | h1
      · change recAt s.root (q ++ [b]) = none at h1
        rw [hu'] at h1; simp at h1
      · rw [hmin] at h1; exact hv0 h1.1
    obtain ⟨v', hv'⟩ := Option.ne_none_iff_exists'.1 hne
    refine ⟨v', hv', ?_⟩
    intro i hi
    rw [hrec q b u' hu'] at hv' hne
    have := ((hspec q b).2.2.2.1 i).2 ⟨by
      change recAt s.root (q ++ [b]) ≠ none
      rw [hu']; simp, hne, Or.inl (by rw [hmin]; exact hi)⟩
    rwa [val_of_some hv'] at this
  · intro d q hne
    by_cases hdc : d = c
    · simp [hdc] at hne
    simp only [hdc, if_false] at hne ⊢
    obtain ⟨hi, ⟨v, hv, hvs⟩, ⟨u, hu, hus⟩⟩ := h.asked d q hne
    refine ⟨hi, ⟨v, by rw [hent, if_neg hdc]; exact hv, hvs⟩, ?_⟩
    rcases path_cases q with rfl | ⟨r, b, rfl⟩
    · rw [recAt_top hs] at hu; simp at hu
    · have hval : (watchAt s.root (r ++ [b])).val .recCh = u := val_of_some hu
      have hne' : recAt (NonRec.stop P O s c).root (r ++ [b]) ≠ none := by
        rw [hrec r b u hu]
        intro hn
        rcases (hspec r b).2.2.2.2.1 hn with h1 | h1
        · change recAt s.root (r ++ [b]) = none at h1
          rw [hu] at h1; simp at h1
        · obtain ⟨i, hbi⟩ := Event.ne_zero_iff.1 hne
          rcases h1.2 d v i hdc hv (hvs i hbi) with h2 | h2
          · have : BitVec.getLsbD (G d (r ++ [b]) &&& P.internal) i = true := by simp [hbi, h2]
            rw [hi] at this; simp at this
          · rw [hval, hus i hbi] at h2; simp at h2
      obtain ⟨v', hv'⟩ := Option.ne_none_iff_exists'.1 hne'
      refine ⟨v', hv', ?_⟩
      intro i hbi
      rw [hrec r b u hu] at hv' hne'
      have := ((hspec r b).2.2.2.1 i).2 ⟨by
        change recAt s.root (r ++ [b]) ≠ none
        rw [hu]; simp, hne', Or.inr (Or.inr ⟨by rw [hval]; exact hus i hbi, d, v, hdc, hv, hvs i hbi⟩)⟩
      rwa [val_of_some hv'] at this

/-! #### Creation and removal of directories -/

theorem pickSet_max (P : Platform) (ws : List WP) (e : Event) :
    e ≤ ws.foldl (fun eset (w : WP) => if w.val .recCh ≠ 0 ∧ w.val .recCh > eset then w.val .recCh else eset) e ∧
    ∀ w ∈ ws, w.val .recCh ≤ ws.foldl (fun eset (w : WP) => if w.val .recCh ≠ 0 ∧ w.val .recCh > eset then w.val .recCh else eset) e := by
  induction ws generalizing e with
  | nil => simp
  | cons w ws ih =>
    simp only [List.foldl_cons]
    have hz : ∀ x y : Event, ¬ (x ≠ 0 ∧ x > y) → x ≤ y := by
      intro x y hxy
      by_cases h0 : x = 0
      · subst h0; exact BitVec.le_def.2 (by simp)
      · have : ¬ x > y := fun h => hxy ⟨h0, h⟩
        exact BitVec.not_lt.1 this
    split
    · next hw =>
      have h1 := ih (w.val .recCh)
      refine ⟨BitVec.le_trans (BitVec.le_of_lt hw.2) h1.1, ?_⟩
      intro w' hw'
      rcases List.mem_cons.1 hw' with rfl | hw'
      · exact h1.1
      · exact h1.2 w' hw'
    · next hw =>
      have h1 := ih e
      refine ⟨h1.1, ?_⟩
      intro w' hw'
      rcases List.mem_cons.1 hw' with rfl | hw'
      · exact BitVec.le_trans (hz _ _ hw) h1.1
      · exact h1.2 w' hw'

theorem onPath_of_prefix {nd c : Node} {p r : Path} (hr : r <+: p) (hne : r ≠ p) (h : nd.get? r = some c) :
    c ∈ onPath nd p := by
  simp only [onPath, List.mem_append]
  left
  rw [Node.walkPath_visited, List.mem_filterMap]
  refine ⟨r.length, ?_, ?_⟩
  · simp only [List.mem_range]
    rcases Nat.lt_or_ge r.length p.length with h1 | h1
    · exact h1
    · exact absurd (hr.eq_of_length (Nat.le_antisymm hr.length_le h1)) hne
  · rw [List.prefix_iff_eq_take.1 hr] at h
    simpa using h

theorem get_of_find_ne {nd : Node} {q : Path} (h : nd.find q ≠ none) : ∃ c, nd.get? q = some c := by
  rw [Ne, Node.find_eq_none] at h
  exact Option.ne_none_iff_exists'.1 h

theorem find_prefix {nd : Node} {a b : Path} (h : nd.find (a ++ b) ≠ none) : nd.find a ≠ none := by
  intro hn
  rw [Node.find_eq_none] at hn
  rw [Node.find_append, hn] at h
  exact h rfl

/-- The set picked for a new directory is that of its parent. -/
theorem Cov.pickSet (hP : P.Facts) {root : Node} {D : Path → Prop} (hs : Shape P root) (h : Cov P root D G)
    {q : Path} {b : Comp} (hm : ¬ D (q ++ [b])) (hq : D q) :
    (recAt root q = none ∧ NonRec.pickSet P ((onPath root (q ++ [b])).map Node.watch) = P.internal) ∨
    (recAt root q = some (NonRec.pickSet P ((onPath root (q ++ [b])).map Node.watch)) ∧
      NonRec.pickSet P ((onPath root (q ++ [b])).map Node.watch) ≠ P.internal) := by
  have hpath : ∀ c ∈ onPath root (q ++ [b]), ∃ r, r <+: q ∧ root.get? r = some c := by
    intro c hc
    obtain ⟨r, hr, hg⟩ := mem_onPath hc
    rcases List.prefix_concat_iff.1 hr with rfl | hr
    · exact absurd (h.own _ (by simp [Node.find, hg])) hm
    · exact ⟨r, hr, hg⟩
  have hgt : ∀ v, (P.create ||| P.internal) ⊑ v → v ≠ P.internal := by
    intro v hv hvi
    have h1 := hP.create_ne
    have h2 := hP.create_rec
    have h3 := hP.create_omit
    subst hvi
    ebits
  set X := NonRec.pickSet P ((onPath root (q ++ [b])).map Node.watch) with hX
  have hmax := pickSet_max P ((onPath root (q ++ [b])).map Node.watch) P.internal
  change P.internal ≤ X ∧ ∀ w ∈ _, _ ≤ X at hmax
  cases hr : recAt root q with
  | none =>
    left
    refine ⟨rfl, ?_⟩
    rcases pickSet_ge P ((onPath root (q ++ [b])).map Node.watch) P.internal with h1 | ⟨w, hw, h0, h1⟩
    · exact h1
    · exfalso
      obtain ⟨c, hc, rfl⟩ := List.mem_map.1 hw
      obtain ⟨r, ⟨t, rfl⟩, hg⟩ := hpath c hc
      have h2 : recAt root r = none := by
        cases h2 : recAt root r with
        | none => rfl
        | some v =>
          obtain ⟨v', hv', _⟩ := h.chain h2 t hq
          rw [hr] at hv'; simp at hv'
      apply h0
      have : watchAt root r = c.watch := by simp [watchAt, Node.find, hg]
      rw [← this]
      exact WP.val_eq_zero_of_none h2
  | some v =>
    right
    have hv := (hs.nr q).recv v hr
    obtain ⟨c, hc⟩ := get_of_find_ne (find_of_recAt hr)
    have hcw : c.watch.val .recCh = v := by
      have : watchAt root q = c.watch := by simp [watchAt, Node.find, hc]
      rw [← this]; exact val_of_some hr
    have hvX : v ≤ X := by
      rw [← hcw]
      exact hmax.2 _ (List.mem_map.2 ⟨c, onPath_of_prefix (List.prefix_append _ _) (by simp) hc, rfl⟩)
    have hXv : X = v := by
      rcases pickSet_ge P ((onPath root (q ++ [b])).map Node.watch) P.internal with h1 | ⟨w, hw, h0, h1⟩
      · change X = _ at h1
        exfalso
        rw [h1] at hvX
        exact hgt v hv (BitVec.le_antisymm hvX (Event.Sub.le (Event.Sub.trans (Event.sub_or_right _ _) hv)))
      · change X = _ at h1
        obtain ⟨c', hc', rfl⟩ := List.mem_map.1 hw
        obtain ⟨r, ⟨t, rfl⟩, hg⟩ := hpath c' hc'
        have hw : watchAt root r = c'.watch := by simp [watchAt, Node.find, hg]
        rw [← hw] at h1 h0
        cases h2 : recAt root r with
        | none => exact absurd (WP.val_eq_zero_of_none h2) h0
        | some u =>
          obtain ⟨v', hv', hs'⟩ := h.chain h2 t hq
          rw [hr] at hv'
          obtain rfl := Option.some.inj hv'
          rw [val_of_some h2] at h1
          rw [h1] at hvX ⊢
          exact BitVec.le_antisymm hs'.le hvX
    exact ⟨by rw [hXv], by rw [hXv]; exact hgt v hv⟩

theorem Cov.mkdir (hP : P.Facts) (O : Oracle) {s : St} {D : Path → Prop} (hs : Shape P s.root)
    (h : Cov P s.root D G) {ei : EventInfo} (hev : ei.event ≠ P.remove) (hp : GoodPath ei.path)
    (hm : ¬ D ei.path) (hpar : D ei.path.dropLast) {dt : DirTree} (hd : dt.Named) (hne : dt.NoErr) :
    Cov P (internal P O dt s ei).root (fun q => D q ∨ ∃ r ∈ dt.dirs, q = ei.path ++ r) G := by
  obtain ⟨q₀, b₀, hqb⟩ : ∃ q b, ei.path = q ++ [b] := by
    rcases path_cases ei.path with h1 | h1
    · exact absurd h1 hp.1
    · exact h1
  rw [hqb, List.dropLast_concat] at hpar
  have hent := (internal_effect O hs hp hd).2
  have hpick := h.pickSet hP hs (q := q₀) (b := b₀) (by rwa [← hqb]) hpar
  rw [← hqb] at hpick
  have hnotD : ∀ r, ¬ D (ei.path ++ r) := fun r hr => hm (h.pre _ _ hr)
  have hnoR : ∀ r, recAt s.root (ei.path ++ r) = none := by
    intro r
    cases h1 : recAt s.root (ei.path ++ r) with
    | none => rfl
    | some v => exact absurd (h.own _ (find_of_recAt h1)) (hnotD r)
  have hpre : ∀ a b, (D (a ++ b) ∨ ∃ r ∈ dt.dirs, a ++ b = ei.path ++ r) → D a ∨ ∃ r ∈ dt.dirs, a = ei.path ++ r := by
    rintro a b (h1 | ⟨r, hr, h1⟩)
    · exact Or.inl (h.pre _ _ h1)
    · rcases List.append_eq_append_iff.1 h1 with ⟨t, h2, h3⟩ | ⟨t, h2, h3⟩
      · rw [hqb] at h2
        rcases List.prefix_concat_iff.1 ⟨t, h2.symm⟩ with h4 | h4
        · right
          exact ⟨[], dt.nil_mem_dirs, by rw [h4, hqb, List.append_nil]⟩
        · left
          obtain ⟨u, rfl⟩ := h4
          exact h.pre _ _ hpar
      · right
        exact ⟨t, dt.dirs_prefix hr ⟨b, h3.symm⟩, h2⟩
  have hcase : (recAt s.root q₀ = none ∧ (internal P O dt s ei).root = s.root) ∨
      (∃ X, recAt s.root q₀ = some X ∧
        Region s.root (internal P O dt s ei).root (fun q => ∃ r ∈ dt.dirs, q = ei.path ++ r) (rset P X)) := by
    unfold internal
    rw [if_neg hev]
    rcases hpick with ⟨h1, h2⟩ | ⟨h1, h2⟩
    · left
      simp only [h2, if_true]
      exact ⟨h1, trivial⟩
    · right
      refine ⟨_, h1, ?_⟩
      simp only [h2, if_false]
      have hset := pickSet_ok hs.ok h2
      have h3 := hs.add hp
      have hg := Node.add_get_ne_none s.root ei.path
      obtain ⟨nd, hnd⟩ := Option.ne_none_iff_exists'.1 hg
      simp only [hnd]
      have hndok : nd.OK (NR P) noR ei.path := by simpa using h3.ok.get hp.2 hnd
      have hfd : ∀ r, (s.root.add ei.path).find (ei.path ++ r) = nd.find r := by
        intro r; rw [Node.find_append, hnd]; rfl
      have hrd : ∀ r, recAt s.root (ei.path ++ r) = recAt nd r := by
        intro r; rw [← recAt_add s.root ei.path]; unfold recAt; rw [watchAt_get hnd]
      have key := addDir_rec (O := O) (rec_of_set hset) hd hp.2 hndok s.world (DirTree.addDir_ok dt hne _ _)
      refine ⟨?_, ?_, ?_⟩
      · rintro q ⟨r, hr, rfl⟩
        rw [hrd]
        unfold recAt
        rw [watchAt_put hg]
        exact (key r).1 hr
      · intro q hq
        by_cases hpq : ei.path <+: q
        · obtain ⟨r, rfl⟩ := hpq
          have hr : r ∉ dt.dirs := fun hr => hq ⟨r, hr, rfl⟩
          rw [hrd]
          unfold recAt
          rw [watchAt_put hg]
          unfold watchAt; rw [(key r).2 hr]
        · unfold recAt; rw [watchAt_put_other _ _ hpq, watchAt_add]
      · intro q hq
        by_cases hpq : ei.path <+: q
        · obtain ⟨r, rfl⟩ := hpq
          by_cases hr : r ∈ dt.dirs
          · exact Or.inr ⟨r, hr, rfl⟩
          · left
            rw [find_put hg, (key r).2 hr, ← hfd, Node.add_find] at hq
            split at hq
            · next hx =>
              have : r = [] := by
                have := hx.length_le
                rw [List.length_append] at this
                exact List.length_eq_zero_iff.1 (by omega)
              subst this
              exact absurd dt.nil_mem_dirs hr
            · exact hq
        · left
          rw [Node.update_find_other _ _ _ hpq, Node.add_find] at hq
          split at hq
          · next hx =>
            rw [hqb] at hx hpq
            rcases List.prefix_concat_iff.1 hx with rfl | ⟨t, rfl⟩
            · exact absurd List.prefix_rfl hpq
            · exact find_prefix (find_of_recAt h1)
          · exact hq
  have huser : ∀ c q, G c q ≠ 0 → G c q &&& P.internal = 0 ∧
      (∃ v, entry (internal P O dt s ei).root c q = some v ∧ G c q ⊑ v) ∧
      (G c q = G c q ∨ ∃ v, recAt (internal P O dt s ei).root q = some v ∧ G c q ⊑ v) := by
    intro c q hg
    obtain ⟨hi, h1, _⟩ := h.asked c q hg
    refine ⟨hi, ?_, Or.inl rfl⟩
    rw [hent, if_neg (fun h => hev h.1)]; exact h1
  have hedge' : ∀ q b v, (∃ r ∈ dt.dirs, q ++ [b] = ei.path ++ r) → (¬ ∃ r ∈ dt.dirs, q = ei.path ++ r) →
      recAt s.root q = some v → q = q₀ := by
    rintro q b v ⟨r, hr, h1⟩ hn hv
    rcases path_cases r with rfl | ⟨r', b', rfl⟩
    · rw [hqb, List.append_nil] at h1
      exact (List.append_inj' h1 rfl).1
    · exfalso
      rw [← List.append_assoc] at h1
      have h2 := (List.append_inj' h1 rfl).1
      exact hn ⟨r', dt.dirs_prefix hr (List.prefix_append _ _), h2⟩
  rcases hcase with ⟨h1, h2⟩ | ⟨X, h1, hR⟩
  · rw [h2] at huser ⊢
    have hR : Region s.root s.root (fun _ => False) 0 := ⟨fun _ h => h.elim, fun _ _ => rfl, fun _ h => Or.inl h⟩
    refine h.region hR hpre (fun _ h => Or.inl h) (fun _ h => h.elim) (fun _ _ _ h => h.elim)
      (fun _ _ _ _ h _ => h.elim) (fun _ _ _ _ h _ _ => h.elim) ?_ huser
    intro q b v hD _ _ hv
    rcases hD with hD | hD
    · exact hD
    · exfalso
      by_cases hn : ∃ r ∈ dt.dirs, q = ei.path ++ r
      · obtain ⟨r, _, rfl⟩ := hn
        rw [hnoR] at hv; simp at hv
      · rw [hedge' q b v hD hn hv, h1] at hv; simp at hv
  · refine h.region hR hpre (fun _ h => Or.inl h) (fun _ h => Or.inr h) ?_ ?_ ?_ ?_ huser
    · rintro q b (h2 | h2) ⟨r, hr, rfl⟩
      · rw [List.append_assoc] at h2; exact absurd h2 (hnotD _)
      · exact h2
    · rintro q b u _ ⟨r, hr, rfl⟩ h2
      rw [hnoR] at h2; simp at h2
    · intro q b v _ h2 h3 hv
      have := hedge' q b v h2 h3 hv
      subst this
      rw [h1] at hv
      obtain rfl := Option.some.inj hv
      refine Event.Sub.trans ?_ (Event.sub_or_right _ _)
      unfold rset
      rw [BitVec.or_assoc]; exact Event.sub_or_left _ _
    · rintro q b v (h2 | h2) h3 _ _
      · exact h2
      · exact absurd h2 h3

theorem Cov.rmdir (O : Oracle) {s : St} {D : Path → Prop} (hs : Shape P s.root)
    (h : Cov P s.root D G) {ei : EventInfo} (hev : ei.event = P.remove) (hp : GoodPath ei.path)
    {dt : DirTree} (hd : dt.Named) :
    Cov P (internal P O dt s ei).root (fun q => D q ∧ ¬ ei.path <+: q)
      (fun c q => if ei.path <+: q then 0 else G c q) := by
  have hent := (internal_effect O hs hp hd).2
  have hfind : ∀ q, (ei.path <+: q → (internal P O dt s ei).root.find q = none) ∧
      (¬ ei.path <+: q → watchAt (internal P O dt s ei).root q = watchAt s.root q) ∧
      ((internal P O dt s ei).root.find q ≠ none → s.root.find q ≠ none) := by
    intro q
    unfold internal
    rw [if_pos hev]
    split
    · next hnone => exact ⟨prefix_of_get hnone, fun _ => rfl, fun h => h⟩
    · next nd hnd =>
      have hsome := Node.del_isSome s.root hp.1
      rw [hnd] at hsome
      obtain ⟨root', hroot'⟩ := Option.isSome_iff_exists.1 hsome
      rw [hroot']
      simp only [Option.getD_some]
      have h1 := Node.del_find s.root hroot' q
      refine ⟨h1.1, fun hq => ?_, ?_⟩
      · rw [hs.del_watchAt hroot', if_neg hq]
      · intro h2
        by_cases hq : ei.path <+: q
        · exact absurd (h1.1 hq) h2
        · rcases h1.2 hq with h3 | h3
          · rwa [h3] at h2
          · exact absurd h3.1 h2
  have hrec : ∀ q, ¬ ei.path <+: q → recAt (internal P O dt s ei).root q = recAt s.root q := by
    intro q hq; unfold recAt; rw [(hfind q).2.1 hq]
  refine ⟨?_, ?_, ?_, ?_⟩
  · rintro a b ⟨h1, h2⟩
    exact ⟨h.pre _ _ h1, fun h3 => h2 (h3.trans (List.prefix_append _ _))⟩
  · intro q hq
    exact ⟨h.own q ((hfind q).2.2 hq), fun h1 => hq ((hfind q).1 h1)⟩
  · rintro q b v ⟨hD, hn⟩ hv
    have hq : ¬ ei.path <+: q := fun h1 => hn (h1.trans (List.prefix_append _ _))
    rw [hrec _ hq] at hv
    rw [hrec _ hn]
    exact h.mono q b v hD hv
  · intro c q hg
    by_cases hq : ei.path <+: q
    · simp [hq] at hg
    · simp only [hq, if_false] at hg ⊢
      rw [hent, if_neg (fun h => hq h.2), hrec q hq]
      exact h.asked c q hg

theorem Cov.shuffle {root root' : Node} {D : Path → Prop} (h : Cov P root D G) (hs : Shuffle root root') :
    Cov P root' D G := by
  have hr : ∀ q, recAt root' q = recAt root q := fun q => hs.get q .recCh
  have he : ∀ c q, entry root' c q = entry root c q := fun c q => hs.get q (.user c)
  refine ⟨h.pre, fun q hq => h.own q ?_, ?_, ?_⟩
  · rcases hs.2 q with ⟨_, h2⟩ | ⟨w, w', h1, _⟩
    · exact absurd h2 hq
    · rw [h1]; simp
  · simpa only [hr] using h.mono
  · simpa only [hr, he] using h.asked

end

end NonRec
end Verif