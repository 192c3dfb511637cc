/-
The calls to the OS watcher that a Watch makes are for its own path and what is below it, or for the one watch
above it that covers it (C128).  The outcomes of the calls and of the listings are arbitrary.
-/
import Verif.PropsGap

namespace Verif
open GoMap

/-- The paths a call is for (watcher.go:22-85). -/
def Call.paths : Call → List Path
  | .watch p _ | .unwatch p | .rewatch p _ _ | .recWatch p _ | .recUnwatch p => [p]
  | .recRewatch p p' _ _ => [p, p']

/-- From `a` to `b` there are only calls for paths in `A`. -/
def Only (A : Path → Prop) (a b : Log) : Prop := ∃ d, b = d ++ a ∧ ∀ x ∈ d, ∀ q ∈ x.1.paths, A q

namespace Only
variable {A B : Path → Prop} {a b c : Log}

theorem refl (A : Path → Prop) (a : Log) : Only A a a := ⟨[], rfl, by simp⟩

theorem cons (h : Only A a b) {x : Call × Bool} (hx : ∀ q ∈ x.1.paths, A q) : Only A a (x :: b) := by
  obtain ⟨d, rfl, h1⟩ := h
  exact ⟨x :: d, rfl, List.forall_mem_cons.2 ⟨hx, h1⟩⟩

theorem trans (h : Only A a b) (h' : Only A b c) : Only A a c := by
  obtain ⟨d, rfl, h1⟩ := h
  obtain ⟨d', rfl, h2⟩ := h'
  exact ⟨d' ++ d, by simp, List.forall_mem_append.2 ⟨h2, h1⟩⟩

theorem mono (h : Only A a b) (hAB : ∀ q, A q → B q) : Only B a b := by
  obtain ⟨d, rfl, h1⟩ := h
  exact ⟨d, rfl, fun x hx q hq => hAB q (h1 x hx q hq)⟩

/-- Something that no call for a path in `A` changes is the same at every moment. -/
theorem still {α : Type} {v : Log → α} (h : Only A a b)
    (hv : ∀ l x, (∀ q ∈ x.1.paths, A q) → v (x :: l) = v l) : Still v a b := by
  obtain ⟨d, rfl, h1⟩ := h
  induction d with
  | nil => exact Still.refl v a
  | cons x d ih =>
    rw [List.forall_mem_cons] at h1
    have h2 := ih h1.2
    refine ⟨h2.1.trans (List.suffix_cons _ _), fun l hl => ?_⟩
    rcases amid_cons (b := d ++ a) hl with h3 | h3
    · rw [h3, hv _ _ h1.1]; exact h2.end_
    · exact h2.2 l h3

end Only

theorem osOf_away {q : Path} (l : Log) (x : Call × Bool) (h : q ∉ x.1.paths) : osOf (x :: l) q = osOf l q := by
  obtain ⟨c, ok⟩ := x
  cases c <;> cases ok <;> simp_all [osOf, Call.paths, eq_comm]

theorem osRec_away {q : Path} (l : Log) (x : Call × Bool) (h : q ∉ x.1.paths) : osRec (x :: l) q = osRec l q := by
  obtain ⟨c, ok⟩ := x
  cases c <;> cases ok <;> simp_all [osRec, Call.paths]

namespace NonRec
variable {P : Platform}

theorem diffCall_paths (n : Path) (d : Diff) : ∀ q ∈ (diffCall n d).paths, q = n := by
  unfold diffCall
  split <;> simp [Call.paths]

theorem recFunc_only {A : Path → Prop} {a : Log} {O : Oracle} {e : Event} {s : World} {n : Path} {w : WP} (h : Only A a s.log)
    (hn : A n) : Only A a (recFunc P O e s n w).1.log := by
  unfold recFunc
  simp only
  split
  · exact h
  · split
    · exact h
    · exact h.cons fun q hq => by rw [diffCall_paths _ _ q hq]; exact hn

theorem trav_only {O : Oracle} {e : Event} (he : P.recursive ⊑ e) {skip : Bool} {nd : Node} {n : Path}
    (hok : nd.OK (NR P) noR n) (s : World) :
    Only (n <+: ·) s.log (nd.trav skip (fun s _ n w => recFunc P O e s n w) s []).1.log :=
  (Node.trav_os (skip := skip) (fn := fun s (_ : WP) n w => recFunc P O e s n w)
    (os := fun _ p => decide (n <+: p)) (tot := fun _ => true) (V := fun t => Only (n <+: ·) s.log t.log) (Q := NR P) (Q' := NR P)
    (fun s _ n w _ hw => recFunc_nr he hw)
    (fun s _ n w _ _ hs ho => ⟨recFunc_only hs (of_decide_eq_true ho), ho, fun _ _ => rfl⟩) (s := s) (nr_nil P) hok
    (Only.refl _ _) (by intro r w _; simp)).1

theorem addDir_only {O : Oracle} {e : Event} (he : P.recursive ⊑ e) {d : DirTree} (hd : d.Named) {nd : Node}
    {n : Path} (hn : [] ∉ n) (hok : nd.OK (NR P) noR n) (s : World) :
    Only (n <+: ·) s.log (d.addDir (recFunc P O e) s nd).1.log :=
  (DirTree.addDir_os (os := fun (_ : World) p => decide (n <+: p)) (tot := fun _ => true)
    (V := fun t => Only (n <+: ·) s.log t.log) (nr_nil P) (fun s n w hw => recFunc_nr he hw)
    (fun s n w _ hs ho => ⟨recFunc_only hs (of_decide_eq_true ho), ho, fun _ _ => rfl⟩) hn d hd
    (s := s) hok (Only.refl _ _) (by intro r; simp)).1

theorem watch_only (O : Oracle) (s : St) (p : Path) (c : Nat) (e : Event) :
    Only (· = p) s.world.log (NonRec.watch P O s p c e).1.world.log := by
  unfold NonRec.watch
  simp only
  split
  · exact Only.refl _ _
  · split
    · exact Only.refl _ _
    · split <;> exact (Only.refl _ _).cons (diffCall_paths _ _)

theorem watchrec_only (O : Oracle) {s : St} (h : Shape P s.root) {p : Path} (hp : GoodPath p) (c : Nat) {e : Event} (he : P.recursive ⊑ e)
    {d : DirTree} (hd : d.Named) : Only (p <+: ·) s.world.log (NonRec.watchrec P O d s p c e).1.world.log := by
  unfold NonRec.watchrec
  simp only
  split
  · exact Only.refl _ _
  · split
    · exact Only.refl _ _
    · split
      · exact Only.refl _ _
      · next nd hnd =>
        have hndok : nd.OK (NR P) noR p := by simpa using h.ok.get hp.2 hnd
        have key : Only (p <+: ·) s.world.log
            (if ((watchAt s.root p).dryAdd P .recCh (e ||| P.create)).1 = 0 then d.addDir (recFunc P O e) s.world nd
            else
              let x := nd.trav true (fun s _ n w => recFunc P O e s n w) s.world []
              (x.1, x.2, true)).1.log := by
          split
          · exact addDir_only he hd hp.2 hndok _
          · exact trav_only he hndok _
        generalize (if ((watchAt s.root p).dryAdd P .recCh (e ||| P.create)).1 = 0 then d.addDir (recFunc P O e) s.world nd
            else
              let x := nd.trav true (fun s _ n w => recFunc P O e s n w) s.world []
              (x.1, x.2, true)) = r at key ⊢
        split <;> exact key

/-- **C128, no native recursion: Watch.**  After any history, whatever the OS answers: the calls made by Watch are for its path, and for a
recursive Watch also for paths below it. -/
theorem C128_watch (hP : P.Facts) {rel : Bool} {ops : List Op} {s : St} (h : Hist P rel ops s) (O : Oracle) {dt : DirTree} (hd : dt.Named)
    {p : Path} (hp : GoodPath p) (isrec : Bool) (c : Nat) {e : Event} (he : UserEvents P e) :
    Only (fun q => q = p ∨ isrec = true ∧ p <+: q) s.world.log (watchOp P O dt s p isrec c e).1.world.log := by
  have hs := h.shape hP
  unfold watchOp
  cases isrec with
  | true =>
    simp only [if_true]
    exact (watchrec_only O (s := { s with root := s.root.add p }) (hs.add hp) hp c (recSet_of hP he.1 he.2).hr hd).mono
      fun q hq => .inr ⟨by simp, hq⟩
  | false =>
    simp only [Bool.false_eq_true, if_false]
    exact (watch_only O { s with root := s.root.add p } p c e).mono fun q hq => .inl hq

/-- **C128, no native recursion: a directory appears or goes.**  The calls made for it are for the directory and paths below it. -/
theorem C128_internal (hP : P.Facts) {rel : Bool} {ops : List Op} {s : St} (h : Hist P rel ops s) (O : Oracle) {dt : DirTree} (hd : dt.Named)
    {ei : EventInfo} (hp : GoodPath ei.path) :
    Only (ei.path <+: ·) s.world.log (internal P O dt s ei).world.log := by
  have hs := h.shape hP
  unfold NonRec.internal
  split
  · split
    · exact Only.refl _ _
    · next nd hnd =>
      have hndok : nd.OK (NR P) noR ei.path := by simpa using hs.ok.get hp.2 hnd
      exact (Node.trav_os (skip := false) (fn := unwatchFunc O)
        (os := fun _ p => decide (ei.path <+: p)) (tot := fun _ => true) (V := fun t => Only (ei.path <+: ·) s.world.log t.log)
        (Q := NR P) (Q' := NR P)
        (fun s _ n w _ hw => by unfold unwatchFunc; split <;> exact hw)
        (fun s _ n w _ _ hs ho => ⟨by
          unfold unwatchFunc
          split
          · exact hs.cons fun q hq => by
              simp only [Call.paths, List.mem_singleton] at hq; subst hq; exact of_decide_eq_true ho
          · exact hs, ho, fun _ _ => rfl⟩) (s := s.world) (nr_nil P) hndok
        (Only.refl _ _) (by intro r w _; simp)).1
  · simp only
    split
    · exact Only.refl _ _
    · next hne =>
      have h1 := hs.add hp
      split
      · exact Only.refl _ _
      · next nd hnd =>
        have hndok : nd.OK (NR P) noR ei.path := by simpa using h1.ok.get hp.2 hnd
        exact addDir_only (rec_of_set (pickSet_ok hs.ok hne)) hd hp.2 hndok _

/-- **C128, no native recursion: the OS watches.**  At every moment of a Watch of `p` the OS watches of the paths that are not below `p` are
as they were; the same while the appearance or the removal of a directory is handled. -/
theorem C128_os (hP : P.Facts) {rel : Bool} {ops : List Op} {s : St} (h : Hist P rel ops s) (O : Oracle) {dt : DirTree} (hd : dt.Named)
    {p q : Path} (hp : GoodPath p) (hq : ¬ p <+: q) :
    (∀ isrec c e, UserEvents P e → Still (fun l => osOf l q) s.world.log (watchOp P O dt s p isrec c e).1.world.log) ∧
    (∀ ei : EventInfo, ei.path = p → Still (fun l => osOf l q) s.world.log (internal P O dt s ei).world.log) := by
  refine ⟨fun isrec c e he => ?_, fun ei hei => ?_⟩
  · exact (C128_watch hP h O hd hp isrec c he).still fun l x hx => osOf_away l x fun hc => by
      rcases hx q hc with h1 | h1
      · exact hq (h1 ▸ List.prefix_refl _)
      · exact hq h1.2
  · subst hei
    exact (C128_internal hP h O hd hp).still fun l x hx => osOf_away l x fun hc => hq (hx q hc)

/-- Non-trivial case: `/a` and `/a/b` are watched; a Watch of `/a/b` makes a call, which fails. -/
example : Hist Ex.I true Ex.ops2 Ex.s2 ∧ osOf Ex.s2.world.log [Ex.a, Ex.b] ≠ 0 ∧ ¬ [Ex.a, Ex.b] <+: [Ex.a] ∧ osOf Ex.s2.world.log [Ex.a] ≠ 0 ∧
    (watchOp Ex.I (fun _ _ => false) .err Ex.s2 [Ex.a, Ex.b] false 7 Ex.I.rename).1.world.log ≠ Ex.s2.world.log := by
  refine ⟨Ex.hist2, ?_, ?_, ?_, ?_⟩ <;> decide

end NonRec

namespace Rec
open NonRec
variable {P : Platform}

theorem unwatchAll_near (O : Oracle) {Q : WP → Prop} {root : Node} (hok : ROK Q root) {p : Path} (hp : [] ∉ p) :
    (rs : List Path) → (w : World) → (∀ r ∈ rs, [] ∉ r ∧ root.get? (p ++ r) ≠ none) →
    Only (p <+: ·) w.log (unwatchAll P O root p rs w).1.log
  | [], w, _ => Only.refl _ _
  | r :: rs, w, hr => by
    obtain ⟨hr1, hr2⟩ := hr r (by simp)
    have hname : (nodeAt root (p ++ r)).name = p ++ r := nodeAt_name hok (by simp [hp, hr1]) hr2
    simp only [unwatchAll, hname]
    refine ((Only.refl _ w.log).cons ?_).trans (unwatchAll_near O hok hp rs _ fun r' hr' => hr r' (by simp [hr']))
    intro q hq
    have : q = p ++ r := by
      simp only at hq
      split at hq <;> simpa [Call.paths] using hq
    rw [this]; exact List.prefix_append _ _

/-- The calls made by Watch, by whether there is a watch above. -/
theorem watchOp_near (hP : P.Facts) {rel : Bool} {ops : List ROp} {s : St} (h : RHist P rel ops s) (O : Oracle)
    {p : Path} (hp : GoodPath p) (isrec : Bool) (c : Nat) {e : Event} (he : UserEvents P e) :
    (∃ t, parentOf P s.root p = some t ∧ t <+: p ∧ Only (· = t) s.world.log (watchOp P O s p isrec c e).1.world.log) ∨
    Only (p <+: ·) s.world.log (watchOp P O s p isrec c e).1.world.log := by
  have hrok := h.rok hP
  have hok : ROK (RW P) (s.root.add p) := Node.add_OK hrok (RW.nil P) hp.2
  have hg := Node.add_get_ne_none s.root p
  have hE := storable hP he isrec
  unfold watchOp
  simp only
  cases hpar : parentOf P s.root p with
  | some t =>
    obtain ⟨h1, h2, h3⟩ := parentOf_some hpar
    have htn : [] ∉ t := fun hc => hp.2 (h1.subset hc)
    have hgt : (s.root.add p).get? t ≠ none := by
      refine tot_ne_find (P := P) ?_
      have : tot P (s.root.add p) t = tot P s.root t := by simp [tot, watchAt_add]
      rw [this]; exact h2
    have hname : (nodeAt (s.root.add p) t).name = t := nodeAt_name hok htn hgt
    refine .inl ⟨t, rfl, h1, ?_⟩
    simp only [watchUnder]
    have hrn : (if t = p then watchAdd P (nodeAt (s.root.add p) t) (.user c) (if isrec = true then e ||| P.recursive else e)
        else watchAddInactive P (nodeAt (s.root.add p) t) (.user c) (if isrec = true then e ||| P.recursive else e)).1.name = t := by
      split
      · rw [watchAdd_name, hname]
      · rw [watchAddInactive_name, hname]
    generalize (if t = p then watchAdd P (nodeAt (s.root.add p) t) (.user c) (if isrec = true then e ||| P.recursive else e)
        else watchAddInactive P (nodeAt (s.root.add p) t) (.user c) (if isrec = true then e ||| P.recursive else e)) = r at hrn ⊢
    rw [hrn]
    split
    · exact Only.refl _ _
    · split
      · exact Only.refl _ _
      · split <;> split <;> exact (Only.refl _ _).cons (by simp [Call.paths])
  | none =>
    right
    have hrw : ∀ r, RW P (watchAt (s.root.add p) r) := fun r => ROK.watchAt hok (RW.nil P) r
    have hok1 : ROK (RW P) (addAt P (s.root.add p) p c (setOf P isrec e)) := addAt_ok hok hp.2 ((hrw _).add c hE.omitted hE.ne0)
    have hg1 : (addAt P (s.root.add p) p c (setOf P isrec e)).get? p ≠ none := addAt_get hg
    have hcopy := fun rs => copyAll_eff (P := P) hp.2 rs (s := { s with root := addAt P (s.root.add p) p c (setOf P isrec e) }) hok1 hg1 (RW.nil P)
      (fun _ _ _ h1 h2 h3 => RW.copied h1 h2 h3)
    have htops : ∀ rs, ∀ r ∈ (nodeAt (s.root.add p) p).tops, [] ∉ r ∧
        (copyAll P p rs { s with root := addAt P (s.root.add p) p c (setOf P isrec e) }).root.get? (p ++ r) ≠ none := by
      intro rs r hr
      obtain ⟨h1, h2, -⟩ := (mem_tops_at hok hp.2 r).1 hr
      refine ⟨h1, (hcopy rs).2.1 _ ?_⟩
      by_cases hr0 : r = []
      · subst hr0; simpa using hg1
      · refine find_ne_of_watchAt ?_
        have := addAt_watchAt (P := P) hg c (setOf P isrec e) (p ++ r)
        rw [this, if_neg (by simpa using hr0)]
        exact h2
    show Only (p <+: ·) s.world.log (watchTop P O { s with root := s.root.add p } p isrec c (setOf P isrec e)).1.world.log
    unfold watchTop
    split
    · have hname : (watchAdd P (nodeAt (s.root.add p) p) (.user c) (setOf P isrec e)).1.name = p := by
        rw [watchAdd_name]; exact nodeAt_name hok hp.2 hg
      simp only [hname]
      split
      · exact Only.refl _ _
      · split
        · split <;> split <;> exact (Only.refl _ _).cons (by simp [Call.paths])
        · exact Only.refl _ _
    · next r hr =>
      have hc := hcopy [r]
      have h1 := htops [r] r (by simp [hr])
      have hn1 := nodeAt_name hc.1 (by simp [hp.2, h1.1]) h1.2
      have hn2 := nodeAt_name hc.1 hp.2 (hc.2.1 p hg1)
      simp only [hn1, hn2]
      have hx : ∀ x : Bool, Only (p <+: ·) s.world.log ((Call.recRewatch (p ++ r) p
          (watchTotal P (nodeAt (copyAll P p [r] { s with root := addAt P (s.root.add p) p c (setOf P isrec e) }).root (p ++ r)))
          (watchTotal P (nodeAt (copyAll P p [r] { s with root := addAt P (s.root.add p) p c (setOf P isrec e) }).root p)), x) ::
          (copyAll P p [r] { s with root := addAt P (s.root.add p) p c (setOf P isrec e) }).world.log) := by
        intro x
        rw [hc.2.2.2]
        exact (Only.refl _ _).cons (by simp [Call.paths])
      split <;> exact hx _
    · have hc := hcopy (nodeAt (s.root.add p) p).tops
      have hn2 := nodeAt_name hc.1 hp.2 (hc.2.1 p hg1)
      simp only [hn2]
      have hx : ∀ x : Bool, Only (p <+: ·) s.world.log ((Call.recWatch p
          (watchTotal P (nodeAt (copyAll P p (nodeAt (s.root.add p) p).tops
            { s with root := addAt P (s.root.add p) p c (setOf P isrec e) }).root p)), x) ::
          (copyAll P p (nodeAt (s.root.add p) p).tops { s with root := addAt P (s.root.add p) p c (setOf P isrec e) }).world.log) := by
        intro x
        rw [hc.2.2.2]
        exact (Only.refl _ _).cons (by simp [Call.paths])
      split
      · exact (hx _).trans (unwatchAll_near O hc.1 hp.2 _ _ (htops _))
      · exact hx _

/-- **C128, native recursion: Watch.**  After any history, whatever the OS answers: the calls made by Watch of `p` are all for one path above
`p` or `p` itself, or all for `p` and paths below it. -/
theorem C128_native (hP : P.Facts) {rel : Bool} {ops : List ROp} {s : St} (h : RHist P rel ops s) (O : Oracle)
    {p : Path} (hp : GoodPath p) (isrec : Bool) (c : Nat) {e : Event} (he : UserEvents P e) :
    (∃ t, t <+: p ∧ Only (· = t) s.world.log (watchOp P O s p isrec c e).1.world.log) ∨
    Only (p <+: ·) s.world.log (watchOp P O s p isrec c e).1.world.log :=
  (watchOp_near hP h O hp isrec c he).imp_left fun ⟨t, _, h1⟩ => ⟨t, h1⟩

/-- **C128, native recursion: the OS watches.**  At every moment of a Watch of `p` the OS watches of the paths that are neither above nor below
`p` are as they were. -/
theorem C128_native_os (hP : P.Facts) {rel : Bool} {ops : List ROp} {s : St} (h : RHist P rel ops s) (O : Oracle)
    {p q : Path} (hp : GoodPath p) (h1 : ¬ p <+: q) (h2 : ¬ q <+: p) (isrec : Bool) (c : Nat) {e : Event} (he : UserEvents P e) :
    Still (fun l => osRec l q) s.world.log (watchOp P O s p isrec c e).1.world.log := by
  rcases C128_native hP h O hp isrec c he with ⟨t, ht, h3⟩ | h3
  · exact h3.still fun l x hx => osRec_away l x fun hc => h2 (by rw [hx q hc]; exact ht)
  · exact h3.still fun l x hx => osRec_away l x fun hc => h1 (hx q hc)

namespace NearEx
/-- `/a/f` is watched besides `/a/b`. -/
def s2 : St := (watchOp Ex.F .ok Ex.s1 [Ex.a, Ex.f] false 3 Ex.W).1
theorem good_af : GoodPath [Ex.a, Ex.f] := by simp [GoodPath]
theorem hist2 : RHist Ex.F true ([.watch [Ex.a, Ex.b] false 2 Ex.CW true] ++ [.watch [Ex.a, Ex.f] false 3 Ex.W true]) s2 :=
  Ex.hist1.snoc (RStep.watch (O := .ok) good_af Ex.uW)

/-- Non-trivial case: a Watch below `/a/b` makes a call for the watch above it and none for `/a/f`; a Watch of `/a` makes calls for `/a` and for both below it. -/
example : osRec s2.world.log [Ex.a, Ex.f] ≠ none ∧
    (watchOp Ex.F .ok s2 [Ex.a, Ex.b, Ex.f] false 4 Ex.F.rename).1.world.log.head?.map (·.1.paths) = some [[Ex.a, Ex.b], [Ex.a, Ex.b]] ∧
    (watchOp Ex.F .ok s2 [Ex.a] true 4 Ex.W).1.world.log.length = s2.world.log.length + 3 := by
  refine ⟨?_, ?_, ?_⟩ <;> decide

end NearEx
end Rec
end Verif
