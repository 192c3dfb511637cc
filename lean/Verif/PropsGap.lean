/-
What the OS watches are while a call runs: no call for one channel takes a watch away from another, even
for a moment (C89).
-/
import Verif.PropsNonRec
import Verif.PropsRecSync
import Verif.RecEx

namespace Verif
open GoMap

/-! ### Logs between two logs

The log is newest first, so the logs that occur while a call runs are the suffixes of the log after it that
extend the log before it. -/

/-- `l` occurs while a call runs that takes the log from `a` to `b`. -/
def Amid (a b l : Log) : Prop := a <:+ l ∧ l <:+ b

theorem Amid.same {a l : Log} (h : Amid a a l) : l = a := h.2.eq_of_length_le h.1.length_le

theorem amid_cons {a b l : Log} {x : Call × Bool} : Amid a (x :: b) l → l = x :: b ∨ Amid a b l := by
  rintro ⟨h1, h2⟩
  rcases List.suffix_cons_iff.1 h2 with h | h
  · exact .inl h
  · exact .inr ⟨h1, h⟩

theorem amid_split {a b c l : Log} (h : Amid a c l) (hbc : b <:+ c) : Amid a b l ∨ Amid b c l := by
  rcases List.suffix_or_suffix_of_suffix h.2 hbc with h1 | h1
  · exact .inl ⟨h.1, h1⟩
  · exact .inr ⟨h1, h.2⟩

section
variable {α : Type}

/-- The quantity `v` stays the same from `a` to `b`. -/
def Still (v : Log → α) (a b : Log) : Prop := a <:+ b ∧ ∀ l, Amid a b l → v l = v a

/-- The quantity `v` changes at most once from `a` to `b`. -/
def OneChange (v : Log → α) (a b : Log) : Prop := a <:+ b ∧ ∀ l, Amid a b l → v l = v a ∨ v l = v b

variable {v : Log → α} {a b c : Log}

theorem Still.refl (v : Log → α) (a : Log) : Still v a a := ⟨List.suffix_rfl, fun _ h => by rw [h.same]⟩

theorem Still.one (h : Still v a b) : OneChange v a b := ⟨h.1, fun l hl => .inl (h.2 l hl)⟩

theorem Still.end_ (h : Still v a b) : v b = v a := h.2 b ⟨h.1, List.suffix_rfl⟩

theorem Still.trans (h1 : Still v a b) (h2 : Still v b c) : Still v a c := by
  refine ⟨h1.1.trans h2.1, fun l hl => ?_⟩
  rcases amid_split hl h2.1 with h | h
  · exact h1.2 l h
  · rw [h2.2 l h, h1.end_]

theorem Still.then_one (h1 : Still v a b) (h2 : OneChange v b c) : OneChange v a c := by
  refine ⟨h1.1.trans h2.1, fun l hl => ?_⟩
  rcases amid_split hl h2.1 with h | h
  · exact .inl (h1.2 l h)
  · rw [← h1.end_]; exact h2.2 l h

theorem OneChange.then_still (h1 : OneChange v a b) (h2 : Still v b c) : OneChange v a c := by
  refine ⟨h1.1.trans h2.1, fun l hl => ?_⟩
  rcases amid_split hl h2.1 with h | h
  · rw [h2.end_]; exact h1.2 l h
  · exact .inr (by rw [h2.2 l h, h2.end_])

theorem OneChange.call (v : Log → α) (a : Log) (x : Call × Bool) : OneChange v a (x :: a) := by
  refine ⟨List.suffix_cons _ _, fun l hl => ?_⟩
  rcases amid_cons hl with h | h
  · exact .inr (by rw [h])
  · exact .inl (by rw [h.same])

theorem Still.call {a : Log} {x : Call × Bool} (h : v (x :: a) = v a) : Still v a (x :: a) := by
  refine ⟨List.suffix_cons _ _, fun l hl => ?_⟩
  rcases amid_cons hl with h1 | h1
  · rw [h1, h]
  · rw [h1.same]

end

/-! ### Walks that make at most one call for each node -/

section
variable {α : Type} {v : Path → Log → α} {skip : Bool} {fn : World → WP → Path → WP → World × WP}

mutual
theorem Node.trav_one
    (hfn : ∀ s pw n w, (fn s pw n w).1.log = s.log ∨ ∃ x, (fn s pw n w).1.log = x :: s.log ∧
      ∀ l q, q ≠ n → v q (x :: l) = v q l)
    {Q : WP → Prop} {n : Path} : (nd : Node) → (s : World) → (pw : WP) → nd.OK Q noR n → ∀ q,
      OneChange (v q) s.log (nd.trav skip fn s pw).1.log ∧
      (¬ n <+: q → Still (v q) s.log (nd.trav skip fn s pw).1.log)
  | .mk n' w ch, s, pw, h, q => by
    simp only [Node.OK] at h
    obtain ⟨rfl, _, hc⟩ := h
    simp only [Node.trav]
    have h2 := Forest.trav_one hfn ch (fn s pw n' w).1 (fn s pw n' w).2 hc q
    have h0 : OneChange (v q) s.log (fn s pw n' w).1.log ∧ (q ≠ n' → Still (v q) s.log (fn s pw n' w).1.log) := by
      rcases hfn s pw n' w with h | ⟨x, h, hx⟩
      · rw [h]; exact ⟨(Still.refl _ _).one, fun _ => Still.refl _ _⟩
      · rw [h]; exact ⟨OneChange.call _ _ _, fun hq => Still.call (hx _ _ hq)⟩
    constructor
    · by_cases hq : q = n'
      · refine h0.1.then_still (h2.2 ?_)
        subst hq
        intro b r _ e
        have := congrArg List.length e
        simp at this
      · exact (h0.2 hq).then_one h2.1
    · intro hq
      refine (h0.2 (by rintro rfl; simp at hq)).trans (h2.2 ?_)
      rintro b r _ rfl
      simp at hq
theorem Forest.trav_one
    (hfn : ∀ s pw n w, (fn s pw n w).1.log = s.log ∨ ∃ x, (fn s pw n w).1.log = x :: s.log ∧
      ∀ l q, q ≠ n → v q (x :: l) = v q l)
    {Q : WP → Prop} {n : Path} : (f : Forest) → (s : World) → (pw : WP) → f.OK Q noR n → ∀ q,
      OneChange (v q) s.log (f.trav skip fn s pw).1.log ∧
      ((∀ b r, b ∈ f.keys → q ≠ n ++ b :: r) → Still (v q) s.log (f.trav skip fn s pw).1.log)
  | .nil, s, pw, _, q => by simp only [Forest.trav]; exact ⟨(Still.refl _ _).one, fun _ => Still.refl _ _⟩
  | .cons b nd rest, s, pw, h, q => by
    simp only [Forest.OK] at h
    have hb : b ≠ [] := h.2.1
    have hsk : (skip && b == []) = false := by simp [hb]
    simp only [Forest.trav, hsk, Bool.false_eq_true, if_false]
    have h1 := Node.trav_one hfn nd s pw (h.2.2.1 hb) q
    have h2 := Forest.trav_one hfn rest (nd.trav skip fn s pw).1 pw h.2.2.2 q
    constructor
    · by_cases hq : n ++ [b] <+: q
      · refine h1.1.then_still (h2.2 ?_)
        rintro b' r hb' rfl
        have : b' = b := by
          obtain ⟨t, ht⟩ := hq
          simp only [List.append_assoc, List.cons_append, List.nil_append, List.append_cancel_left_eq,
            List.cons.injEq] at ht
          exact ht.1.symm
        subst this
        exact h.1 hb'
      · exact (h1.2 hq).then_one h2.1
    · intro hq
      refine (h1.2 ?_).trans (h2.2 fun b' r hb' => hq b' r (by simp [Forest.keys, hb']))
      rintro ⟨t, ht⟩
      exact hq b t (by simp [Forest.keys]) (by rw [← ht]; simp)
end
end

/-! ### The tree for watchers without native recursion -/

namespace NonRec

variable {P : Platform}

/-- From `a` to `b` no watch loses an event. -/
def Grows (a b : Log) : Prop :=
  a <:+ b ∧ ∀ l, Amid a b l → ∀ q, osOf a q ⊑ osOf l q ∧ osOf l q ⊑ osOf b q

theorem Grows.refl (a : Log) : Grows a a :=
  ⟨List.suffix_rfl, fun l h q => by rw [h.same]; exact ⟨Event.Sub.refl _, Event.Sub.refl _⟩⟩

theorem Grows.all {a b : Log} (h : Grows a b) (q : Path) : osOf a q ⊑ osOf b q :=
  (h.2 b ⟨h.1, List.suffix_rfl⟩ q).1

theorem Grows.cons {a b : Log} (h : Grows a b) {x : Call × Bool} (hx : ∀ q, osOf b q ⊑ osOf (x :: b) q) :
    Grows a (x :: b) := by
  refine ⟨h.1.trans (List.suffix_cons _ _), fun l hl q => ?_⟩
  rcases amid_cons hl with h1 | h1
  · rw [h1]; exact ⟨(h.all q).trans (hx q), Event.Sub.refl _⟩
  · exact ⟨(h.2 l h1 q).1, (h.2 l h1 q).2.trans (hx q)⟩

theorem recFunc_grows {a : Log} {e : Event} {s : World} {n : Path} {w : WP} (ha : Grows a s.log)
    (ho : osOf s.log n = w.total P) : Grows a (recFunc P .ok e s n w).1.log := by
  unfold recFunc
  simp only [add_diffOf P w (k := .recCh) nofun, diffOf_none]
  split
  · exact ha
  · next h1 =>
    rw [diffOf_ne h1]
    split
    · exact ha
    · refine ha.cons fun q => ?_
      rw [show (Oracle.ok s.log (diffCall n (w.total P, (w.add P .recCh (e ||| P.omitted ||| P.create)).1.total P))) = true
        from rfl, osOf_diffCall]
      split
      · next hq =>
        subst hq
        rw [ho, total_add P w (by simp)]
        exact Event.sub_or_left _ _
      · exact Event.Sub.refl _

/-- The invariant of the walks that add. -/
def Grown (P : Platform) (a : Log) (s : World) : Prop := Fine P s ∧ Grows a s.log

theorem recFunc_grown {a : Log} {e : Event} {s : World} {n : Path} {w : WP} (h : Grown P a s)
    (ho : osOf s.log n = w.total P) :
    Grown P a (recFunc P .ok e s n w).1 ∧
    osOf (recFunc P .ok e s n w).1.log n = (recFunc P .ok e s n w).2.total P ∧
    ∀ q, q ≠ n → osOf (recFunc P .ok e s n w).1.log q = osOf s.log q :=
  have h1 := recFunc_os h.1 ho
  ⟨⟨h1.1, recFunc_grows h.2 ho⟩, h1.2⟩

theorem trav_grows {e : Event} (he : P.recursive ⊑ e) {skip : Bool} {nd : Node} {n : Path}
    (hok : nd.OK (NR P) noR n) {s : World} (hs : Fine P s)
    (hos : ∀ r, osOf s.log (n ++ r) = (watchAt nd r).total P) :
    Grows s.log (nd.trav skip (fun s _ n w => recFunc P .ok e s n w) s []).1.log :=
  (Node.trav_os (skip := skip) (fn := fun s (_ : WP) n w => recFunc P .ok e s n w)
    (os := fun s p => osOf s.log p) (tot := fun w => w.total P) (V := Grown P s.log) (Q := NR P) (Q' := NR P)
    (fun s _ n w _ hw => recFunc_nr he hw) (fun s _ n w _ _ hs ho => recFunc_grown hs ho) (s := s) (nr_nil P) hok
    ⟨hs, Grows.refl _⟩ (by intro r w hw; rw [hos r]; simp [watchAt, hw])).1.2

theorem addDir_grows {e : Event} (he : P.recursive ⊑ e) {d : DirTree} (hd : d.Named) {nd : Node}
    {n : Path} (hn : [] ∉ n) (hok : nd.OK (NR P) noR n) {s : World} (hs : Fine P s)
    (hos : ∀ r, osOf s.log (n ++ r) = (watchAt nd r).total P) :
    Grows s.log (d.addDir (recFunc P .ok e) s nd).1.log :=
  (DirTree.addDir_os (os := fun (s : World) p => osOf s.log p) (tot := fun w => w.total P)
    (V := Grown P s.log) (nr_nil P) (fun s n w hw => recFunc_nr he hw) (fun s n w _ hs ho => recFunc_grown hs ho) hn d hd
    (s := s) hok ⟨hs, Grows.refl _⟩ hos).1.2

/-- While a call runs every watch holds at least what it held before and holds after, and no more than what
it held before or holds after. -/
def Steady (a b : Log) : Prop :=
  a <:+ b ∧ ∀ l, Amid a b l → ∀ q, (osOf a q &&& osOf b q) ⊑ osOf l q ∧ osOf l q ⊑ (osOf a q ||| osOf b q)

theorem and_sub_left (x y : Event) : (x &&& y) ⊑ x := by ebits
theorem and_sub_right (x y : Event) : (x &&& y) ⊑ y := by ebits

theorem Grows.steady {a b : Log} (h : Grows a b) : Steady a b :=
  ⟨h.1, fun l hl q => ⟨(and_sub_left _ _).trans (h.2 l hl q).1, (h.2 l hl q).2.trans (Event.sub_or_right _ _)⟩⟩

theorem steady_of_one {a b : Log} (hab : a <:+ b) (h : ∀ q, OneChange (fun l => osOf l q) a b) : Steady a b := by
  refine ⟨hab, fun l hl q => ?_⟩
  rcases (h q).2 l hl with h1 | h1 <;> simp only at h1 <;> rw [h1]
  · exact ⟨and_sub_left _ _, Event.sub_or_left _ _⟩
  · exact ⟨and_sub_right _ _, Event.sub_or_right _ _⟩

theorem steady_call (a : Log) (x : Call × Bool) : Steady a (x :: a) :=
  steady_of_one (List.suffix_cons _ _) fun _ => OneChange.call _ _ _

theorem steady_refl (a : Log) : Steady a a := (Grows.refl a).steady

theorem watch_steady (O : Oracle) (s : St) (p : Path) (c : Nat) (e : Event) :
    Steady s.world.log (NonRec.watch P O s p c e).1.world.log := by
  unfold NonRec.watch
  simp only
  split
  · exact steady_refl _
  · split
    · exact steady_refl _
    · split
      · exact steady_call _ _
      · exact steady_call _ _

theorem watchrec_steady {s : St} (h : Good P s) {p : Path} (hp : GoodPath p) (c : Nat) {e : Event} (he : RecSet P e)
    {d : DirTree} (hd : d.Named) : Steady s.world.log (NonRec.watchrec P .ok d s p c e).1.world.log := by
  unfold NonRec.watchrec
  simp only
  split
  · exact steady_refl _
  · split
    · exact steady_refl _
    · split
      · exact steady_refl _
      · next nd hnd =>
        have hndok : nd.OK (NR P) noR p := by simpa using h.ok.get hp.2 hnd
        have hos : ∀ r, osOf s.world.log (p ++ r) = (watchAt nd r).total P := by
          intro r; rw [h.sync, watchAt_get hnd]
        have key : Grows s.world.log
            (if ((watchAt s.root p).dryAdd P .recCh (e ||| P.create)).1 = 0 then d.addDir (recFunc P .ok e) s.world nd
            else
              let x := nd.trav true (fun s _ n w => recFunc P .ok e s n w) s.world []
              (x.1, x.2, true)).1.log := by
          split
          · exact addDir_grows he.hr hd hp.2 hndok h.fine hos
          · exact trav_grows he.hr hndok h.fine hos
        generalize (if ((watchAt s.root p).dryAdd P .recCh (e ||| P.create)).1 = 0 then d.addDir (recFunc P .ok e) s.world nd
            else
              let x := nd.trav true (fun s _ n w => recFunc P .ok e s n w) s.world []
              (x.1, x.2, true)) = r at key ⊢
        split <;> exact key.steady

theorem stop_steady {s : St} (h : Shape P s.root) (O : Oracle) (c : Nat) :
    Steady s.world.log (NonRec.stop P O s c).world.log := by
  have := Node.trav_one (v := fun q l => osOf l q) (skip := false) (fn := stopFunc P O c) (by
    intro s pw n w
    unfold stopFunc
    split
    · simp only
      split
      · exact .inl rfl
      · split
        · refine .inr ⟨_, rfl, fun l q hq => ?_⟩
          cases O s.log (.unwatch n) <;> simp [osOf, Ne.symm hq]
        · refine .inr ⟨_, rfl, fun l q hq => ?_⟩
          generalize O s.log _ = b
          cases b <;> simp [osOf, Ne.symm hq]
    · exact .inl rfl) s.root s.world [] h.ok
  exact steady_of_one (this []).1.1 fun q => (this q).1

theorem internal_steady {s : St} (h : Good P s) {ei : EventInfo} (hp : GoodPath ei.path)
    {d : DirTree} (hd : d.Named) : Steady s.world.log (NonRec.internal P .ok d s ei).world.log := by
  unfold NonRec.internal
  split
  · split
    · exact steady_refl _
    · next nd hnd =>
      have hndok : nd.OK (NR P) noR ei.path := by simpa using h.ok.get hp.2 hnd
      have := Node.trav_one (v := fun q l => osOf l q) (skip := false) (fn := unwatchFunc .ok) (by
        intro s pw n w
        unfold unwatchFunc
        split
        · refine .inr ⟨_, rfl, fun l q hq => ?_⟩
          simp [osOf, Oracle.ok, Ne.symm hq]
        · exact .inl rfl) nd s.world [] hndok
      exact steady_of_one (this []).1.1 fun q => (this q).1
  · simp only
    split
    · exact steady_refl _
    · next hne =>
      have h1 := h.add hp
      split
      · exact steady_refl _
      · next nd hnd =>
        have hndok : nd.OK (NR P) noR ei.path := by simpa using h1.ok.get hp.2 hnd
        exact (addDir_grows (rec_of_set (pickSet_ok h.ok hne)) hd hp.2 hndok h.fine (by
          intro r
          have := h1.sync (ei.path ++ r)
          rw [watchAt_get hnd] at this
          exact this)).steady

theorem Step.steady (hP : P.Facts) {s s' : St} {op : Op} (h : Good P s) (hs : Step P true s op s') :
    Steady s.world.log s'.world.log := by
  cases hs with
  | @watch p isrec c e O dt hp he hd hO =>
    unfold NonRec.watchOp
    cases isrec with
    | true => rw [hO rfl rfl]; exact watchrec_steady (h.add hp) hp c (recSet_of hP he.1 he.2) hd
    | false => exact watch_steady (P := P) O { s with root := s.root.add p } p c e
  | @stop c O hO => exact stop_steady h.shape O c
  | @internal ei O dt hp hd hO => rw [hO rfl]; exact internal_steady h hp hd
  | shuffle _ => exact steady_refl _

/-- **C89, during one call.**  While a Watch, a Stop or the handling of a directory event runs, every OS watch includes at
every moment what it has both before and after, and nothing that it has neither before nor after: no call takes a watch
away and sets it again, or sets one for a moment. -/
theorem C89_nonrec_between (hP : P.Facts) {ops : List Op} {s s' : St} {op : Op} (h : Hist P true ops s)
    (hs : Step P true s op s') {l : Log} (h1 : s.world.log <:+ l) (h2 : l <:+ s'.world.log) (q : Path) :
    (osOf s.world.log q &&& osOf s'.world.log q) ⊑ osOf l q ∧
    osOf l q ⊑ (osOf s.world.log q ||| osOf s'.world.log q) :=
  (Step.steady hP (Hist.good hP h) hs).2 l ⟨h1, h2⟩ q

theorem Steps.suffix (hP : P.Facts) {ops : List Op} {s₀ s : St} (h₀ : Good P s₀) (h : Steps P true s₀ ops s) :
    s₀.world.log <:+ s.world.log := by
  induction h with
  | nil => exact List.suffix_rfl
  | snoc h1 h2 ih => exact ih.trans (Step.steady hP (Steps.good hP h₀ h1) h2).1

/-- **C89.**  From the return of a successful Watch until Stop of that channel or removal of the path (or of a directory
above), the OS watch on the path includes all the events at every moment, whatever calls other goroutines make for other
channels meanwhile: also between the OS calls of one Watch, of one Stop or of the handling of one directory event. -/
theorem C89_nonrec (hP : P.Facts) {ops ops' : List Op} {s s₁ s₂ : St} {p : Path} {isrec : Bool} {c : Nat} {e : Event}
    (h : Hist P true ops s) (hw : Step P true s (.watch p isrec c e true) s₁) (hlater : Steps P true s₁ ops' s₂)
    (hops' : ∀ op ∈ ops', op ≠ .stop c ∧ ∀ ei, op = .internal ei → ei.event = P.remove → ¬ ei.path <+: p)
    {l : Log} (h1 : s₁.world.log <:+ l) (h2 : l <:+ s₂.world.log) : e ⊑ osOf l p := by
  have hg₁ := Step.good hP (Hist.good hP h) hw
  induction hlater with
  | nil =>
    rw [Amid.same ⟨h1, h2⟩]
    exact C14_backed hP h hw .nil (by simp)
  | @snoc ops'' s₃ op s₄ h3 h4 ih =>
    have hst := Step.steady hP (Steps.good hP hg₁ h3) h4
    have hops3 : ∀ op ∈ ops'', op ≠ .stop c ∧ ∀ ei, op = .internal ei → ei.event = P.remove → ¬ ei.path <+: p :=
      fun o ho => hops' o (by simp [ho])
    rcases amid_split ⟨h1, h2⟩ hst.1 with hl | hl
    · exact ih hops3 hl.2
    · refine Event.Sub.trans ?_ (hst.2 l hl p).1
      have h5 := C14_backed hP h hw h3 hops3
      have h6 := C14_backed hP h hw (h3.snoc h4) hops'
      generalize osOf s₃.world.log p = x at *
      generalize osOf s₄.world.log p = y at *
      clear hst ih hops' hops3 h4 h3 hw h
      ebits

namespace GapEx

/-- Channel 2 watches `/a` for Create. -/
def s1 : St := (watchOp Ex.I .ok Ex.list init [Ex.a] false 2 Ex.I.create).1
/-- Channel 1 watches `/a/...` for Write: two OS calls, one for `/a` and one for `/a/b`. -/
def s2 : St := (watchOp Ex.I .ok Ex.list s1 [Ex.a] true 1 Ex.W).1

theorem step1 : Step Ex.I true init (.watch [Ex.a] false 2 Ex.I.create true) s1 :=
  Step.watch (O := .ok) Ex.good_a (by unfold UserEvents; decide) Ex.list_named (fun _ _ => rfl)
theorem step2 : Step Ex.I true s1 (.watch [Ex.a] true 1 Ex.W true) s2 :=
  Step.watch (O := .ok) Ex.good_a Ex.uW Ex.list_named (fun _ _ => rfl)

end GapEx

/-- Non-trivial case: the recursive Watch of channel 1 makes two OS calls, and channel 2 has its watch between them too. -/
example : Step Ex.I true init (.watch [Ex.a] false 2 Ex.I.create true) GapEx.s1 ∧
    Steps Ex.I true GapEx.s1 [.watch [Ex.a] true 1 Ex.W true] GapEx.s2 ∧
    ∃ l, GapEx.s1.world.log <:+ l ∧ l <:+ GapEx.s2.world.log ∧ l ≠ GapEx.s1.world.log ∧ l ≠ GapEx.s2.world.log ∧
      Ex.I.create ⊑ osOf l [Ex.a] :=
  ⟨GapEx.step1, Steps.nil.snoc GapEx.step2,
    ⟨GapEx.s2.world.log.tail, by decide, by decide, by decide, by decide, by decide⟩⟩

end NonRec

/-! ### The tree for watchers with native recursion -/

namespace Spec

/-- The OS reports the events `E` at `x`: there is a watch on `x`, on its directory, or a recursive one above, that has
them. -/
def Sees (log : Log) (x : Path) (E : Event) : Prop :=
  ∃ t E' f, t <+: x ∧ osRec log t = some (E', f) ∧ E ⊑ E' ∧ (f = true ∨ t = x ∨ t = x.dropLast)

end Spec

namespace Rec
open Spec

variable {P : Platform}

/-- Some watch at or above `x` has the property `φ`. -/
def Over (φ : Path → Event × Bool → Prop) (x : Path) (log : Log) : Prop :=
  ∃ t v, t <+: x ∧ osRec log t = some v ∧ φ t v

theorem Over.mono {φ : Path → Event × Bool → Prop} {x : Path} {a b : Log}
    (h : ∀ t v, osRec a t = some v → osRec b t = some v) : Over φ x a → Over φ x b := by
  rintro ⟨t, v, h1, h2, h3⟩
  exact ⟨t, v, h1, h t v h2, h3⟩

/-- The watches at and above a path. -/
def onWay (x : Path) (log : Log) : Nat → Option (Event × Bool) := fun i => osRec log (x.take i)

theorem onWay_eq {x : Path} {a b : Log} : onWay x a = onWay x b ↔ ∀ t, t <+: x → osRec a t = osRec b t := by
  constructor
  · intro h t ht
    have := congrFun h t.length
    simp only [onWay] at this
    rwa [← List.prefix_iff_eq_take.1 ht] at this
  · intro h
    funext i
    exact h _ (List.take_prefix i x)

theorem Over.congr {φ : Path → Event × Bool → Prop} {x : Path} {a b : Log} (h : onWay x a = onWay x b) :
    Over φ x a → Over φ x b := by
  rintro ⟨t, v, h1, h2, h3⟩
  exact ⟨t, v, h1, by rw [← onWay_eq.1 h t h1]; exact h2, h3⟩

theorem stopCall_other (nd : Node) (d : Diff) (ok : Bool) (l : Log) {q : Path} (hq : q ≠ nd.name) :
    osRec ((stopCall P nd d, ok) :: l) q = osRec l q := by
  unfold stopCall
  cases ok with
  | false => simp [osRec]
  | true => split <;> split <;> simp [osRec, hq]

mutual
theorem stopWalk_one (O : Oracle) (c : Nat) {Q : WP → Prop} {R : Node → Prop} {n : Path} :
    (nd : Node) → (s : World) → nd.OK Q R n → ∀ x,
      OneChange (onWay x) s.log (nd.stopWalk P O c s).1.log ∧
      (¬ n <+: x → Still (onWay x) s.log (nd.stopWalk P O c s).1.log)
  | .mk n' w ch, s, h, x => by
    have hn : (Node.mk n' w ch).name = n := h.name_eq
    simp only [Node.stopWalk]
    split
    · have := stopWalkF_one O c ch s h.child x
      refine ⟨this.1, fun hx => this.2 ?_⟩
      rintro b _ _ ⟨t, rfl⟩
      simp at hx
    · split
      · exact ⟨(Still.refl _ _).one, fun _ => Still.refl _ _⟩
      · refine ⟨OneChange.call _ _ _, fun hx => Still.call (onWay_eq.2 fun t ht => stopCall_other _ _ _ _ ?_)⟩
        rintro rfl
        rw [watchDel_name, hn] at ht
        exact hx ht
theorem stopWalkF_one (O : Oracle) (c : Nat) {Q : WP → Prop} {R : Node → Prop} {n : Path} :
    (f : Forest) → (s : World) → f.OK Q R n → ∀ x,
      OneChange (onWay x) s.log (f.stopWalk P O c s).1.log ∧
      ((∀ b, b ≠ [] → b ∈ f.keys → ¬ n ++ [b] <+: x) → Still (onWay x) s.log (f.stopWalk P O c s).1.log)
  | .nil, s, _, x => by simp only [Forest.stopWalk]; exact ⟨(Still.refl _ _).one, fun _ => Still.refl _ _⟩
  | .cons b nd rest, s, h, x => by
    simp only [Forest.OK] at h
    simp only [Forest.stopWalk]
    by_cases hb : b = []
    · simp only [if_pos hb]
      have h2 := stopWalkF_one O c rest s h.2.2.2 x
      exact ⟨h2.1, fun hx => h2.2 fun b' h0 hb' => hx b' h0 (by simp [Forest.keys, hb'])⟩
    · simp only [if_neg hb]
      have h1 := stopWalk_one O c nd s (h.2.2.1 hb) x
      have h2 := stopWalkF_one O c rest (nd.stopWalk P O c s).1 h.2.2.2 x
      constructor
      · by_cases hq : n ++ [b] <+: x
        · refine h1.1.then_still (h2.2 ?_)
          rintro b' h0 hb' hx'
          have : b' = b := by
            have h3 := List.prefix_of_prefix_length_le hx' hq (by simp)
            have h4 := h3.eq_of_length (by simp)
            simpa using h4
          subst this
          exact h.1 hb'
        · exact (h1.2 hq).then_one h2.1
      · intro hx
        refine (h1.2 (hx b hb (by simp [Forest.keys]))).trans
          (h2.2 fun b' h0 hb' => hx b' h0 (by simp [Forest.keys, hb']))
end

/-- What the two kinds of call have in common: after the first OS call of a Watch watches are only removed, and a Stop
changes the watches at and above a path at most once. -/
def Smooth (a b : Log) : Prop :=
  a <:+ b ∧ ∀ l, Amid a b l → ∀ x φ, Over φ x a → Over φ x b → Over φ x l

theorem smooth_refl (a : Log) : Smooth a a := ⟨List.suffix_rfl, fun l hl x φ h _ => by rw [hl.same]; exact h⟩

theorem smooth_call (a : Log) (x : Call × Bool) : Smooth a (x :: a) := by
  refine ⟨List.suffix_cons _ _, fun l hl x φ h1 h2 => ?_⟩
  rcases amid_cons hl with h | h
  · rw [h]; exact h2
  · rw [h.same]; exact h1

theorem watchUnder_smooth (O : Oracle) (s : St) (q p : Path) (isrec : Bool) (c : Nat) (e : Event) :
    Smooth s.world.log (watchUnder P O s q p isrec c e).1.world.log := by
  unfold watchUnder
  simp only
  generalize (if q = p then watchAdd P (nodeAt s.root q) (.user c) e
    else watchAddInactive P (nodeAt s.root q) (.user c) e) = r
  split
  · exact smooth_refl _
  · split
    · exact smooth_refl _
    · split <;> split <;> exact smooth_call _ _

theorem copyAll_log (p : Path) : (rs : List Path) → (s : St) → (copyAll P p rs s).world.log = s.world.log
  | [], s => rfl
  | r :: rs, s => by
    simp only [copyAll]
    rw [copyAll_log p rs]
    simp only
    split <;> rfl

/-- Unwatching removes watches and sets none. -/
theorem unwatchAll_shrinks (O : Oracle) (root : Node) (p : Path) : (rs : List Path) → (w : World) →
    w.log <:+ (unwatchAll P O root p rs w).1.log ∧
    ∀ l, Amid w.log (unwatchAll P O root p rs w).1.log l → ∀ t v,
      osRec (unwatchAll P O root p rs w).1.log t = some v → osRec l t = some v
  | [], w => ⟨List.suffix_rfl, fun l hl t v h => by rw [hl.same]; exact h⟩
  | r :: rs, w => by
    simp only [unwatchAll]
    generalize hc : (if watchIsRecursive P (nodeAt root (p ++ r)) then Call.recUnwatch (nodeAt root (p ++ r)).name
      else .unwatch (nodeAt root (p ++ r)).name) = call
    have ih := unwatchAll_shrinks O root p rs (w.exec O call).1
    refine ⟨(List.suffix_cons _ _).trans ih.1, fun l hl t v h => ?_⟩
    rcases amid_split hl ih.1 with h1 | h1
    · rcases amid_cons h1 with h2 | h2
      · rw [h2]
        exact ih.2 _ ⟨List.suffix_rfl, ih.1⟩ t v h
      · rw [h2.same]
        have h3 := ih.2 _ ⟨List.suffix_rfl, ih.1⟩ t v h
        simp only [World.exec] at h3
        generalize O w.log call = ok at h3
        cases ok with
        | false => simpa [osRec] using h3
        | true =>
          rw [← hc] at h3
          split at h3 <;> simp only [osRec, Bool.not_true, Bool.false_eq_true, if_false] at h3 <;> split at h3 <;>
            first | exact h3 | simp at h3
    · exact ih.2 l h1 t v h

theorem watchTop_smooth (O : Oracle) (s : St) (p : Path) (isrec : Bool) (c : Nat) (e : Event) :
    Smooth s.world.log (watchTop P O s p isrec c e).1.world.log := by
  unfold watchTop
  split
  · simp only
    split
    · exact smooth_refl _
    · split
      · split <;> split <;> exact smooth_call _ _
      · exact smooth_refl _
  · next r _ =>
    simp only
    have h := copyAll_log (P := P) p [r] { s with root := addAt P s.root p c e }
    generalize copyAll P p [r] { s with root := addAt P s.root p c e } = s1 at h ⊢
    split <;> (simp only [World.exec]; rw [h]; exact smooth_call _ _)
  · generalize (nodeAt s.root p).tops = rs
    simp only
    have h := copyAll_log (P := P) p rs { s with root := addAt P s.root p c e }
    generalize copyAll P p rs { s with root := addAt P s.root p c e } = s1 at h ⊢
    simp only at h
    split
    · rw [← h]
      generalize hx : World.exec O s1.world _ = x
      have hx1 : s1.world.log <:+ x.1.log ∧ ∀ l, Amid s1.world.log x.1.log l → l = x.1.log ∨ l = s1.world.log := by
        rw [← hx]
        refine ⟨List.suffix_cons _ _, fun l hl => ?_⟩
        rcases amid_cons hl with h | h
        · exact .inl h
        · exact .inr h.same
      have h1 := unwatchAll_shrinks (P := P) O s1.root p rs x.1
      refine ⟨hx1.1.trans h1.1, fun l hl y φ ha hb => ?_⟩
      rcases amid_split hl h1.1 with h2 | h2
      · rcases hx1.2 l h2 with h3 | h3
        · rw [h3]; exact hb.mono (h1.2 _ ⟨List.suffix_rfl, h1.1⟩)
        · rw [h3]; exact ha
      · exact hb.mono (h1.2 l h2)
    · simp only [World.exec]; rw [h]; exact smooth_call _ _

theorem RStep.smooth {rel : Bool} {s s' : St} {op : ROp} {Q : WP → Prop} (h : ROK Q s.root) (hs : RStep P rel s op s') :
    Smooth s.world.log s'.world.log := by
  cases hs with
  | @watch p isrec c e O hp he =>
    unfold watchOp
    simp only
    split
    · exact watchUnder_smooth (P := P) O { s with root := s.root.add p } _ p isrec c _
    · exact watchTop_smooth (P := P) O { s with root := s.root.add p } p isrec c _
  | @stop c O hO =>
    have h1 := stopWalk_one (P := P) O c s.root s.world h
    refine ⟨(h1 []).1.1, fun l hl x φ ha hb => ?_⟩
    rcases (h1 x).1.2 l hl with h2 | h2
    · exact ha.congr h2.symm
    · exact hb.congr h2.symm
  | shuffle _ => exact smooth_refl _

/-- **C89 for watchers with native recursion, during one call.**  Whatever the outcomes of the OS calls: if the OS reports
the events at a path before a Watch or Stop and after it, then it does at every moment while the call runs — although the
watch that does may be another one. -/
theorem C89_rec_between (hP : P.Facts) {rel : Bool} {ops : List ROp} {s s' : St} {op : ROp} (h : RHist P rel ops s)
    (hs : RStep P rel s op s') {l : Log} (h1 : s.world.log <:+ l) (h2 : l <:+ s'.world.log) {x : Path} {E : Event}
    (ha : Sees s.world.log x E) (hb : Sees s'.world.log x E) : Sees l x E := by
  have hok : ROK (RW P) s.root := RHist.rok hP h
  obtain ⟨t, E1, f1, a1, a2, a3⟩ := ha
  obtain ⟨t', E2, f2, b1, b2, b3⟩ := hb
  obtain ⟨t, v, c1, c2, c3⟩ := (RStep.smooth hok hs).2 l ⟨h1, h2⟩ x
    (fun t v => E ⊑ v.1 ∧ (v.2 = true ∨ t = x ∨ t = x.dropLast)) ⟨t, (E1, f1), a1, a2, a3⟩ ⟨t', (E2, f2), b1, b2, b3⟩
  exact ⟨t, v.1, v.2, c1, c2, c3⟩

/-- A call that is not Stop of the channel takes nothing out of its row of the table. -/
theorem rregOf_keep {ops : List ROp} {op : ROp} {c : Nat} (hc : op ≠ .stop c) {q : Path} {E : Event} {f : Bool}
    (h : rregOf ops c q = some (E, f)) : ∃ E' f', rregOf (ops ++ [op]) c q = some (E', f') ∧ E ⊑ E' := by
  simp only [rregOf, List.foldl_append, List.foldl_cons, List.foldl_nil] at h ⊢
  generalize List.foldl rregStep Reg.empty ops = r at h
  cases op with
  | watch p isrec d e res =>
    cases res with
    | false => exact ⟨E, f, h, Event.Sub.refl _⟩
    | true =>
      simp only [rregStep, if_true, Reg.watch]
      split
      · next hd =>
        obtain ⟨rfl, rfl⟩ := hd
        rw [h]
        exact ⟨_, _, rfl, Event.sub_or_left _ _⟩
      · exact ⟨E, f, h, Event.Sub.refl _⟩
  | stop d =>
    have hd : c ≠ d := by rintro rfl; exact hc rfl
    simp only [rregStep, Reg.stop, if_neg hd]
    exact ⟨E, f, h, Event.Sub.refl _⟩
  | shuffle => exact ⟨E, f, h, Event.Sub.refl _⟩

/-- **C89 for watchers with native recursion, partial.**  After a harmless history (`SafeHist`, see C26) everything a
channel asked for is covered by OS watches at every moment while a harmless Watch, or a harmless Stop of another channel,
runs.  Missing: histories with a harmful operation, after which it may not be covered at all (`C26_refuted`). -/
theorem C89_rec_partial (hP : P.Facts) {ops : List ROp} {s s' : St} {op : ROp} (h : SafeHist P ops s)
    (hs : RStep P true s op s') (hsafe : Safe (rregOf ops) s.world.log op) {c : Nat} (hc : op ≠ .stop c) {l : Log}
    (h1 : s.world.log <:+ l) (h2 : l <:+ s'.world.log) : Covered (rregOf ops) l c := by
  intro q E f hE
  have ha := mirror_covered (C26_mirror_partial hP h).1 c q E f hE
  obtain ⟨E', f', hE', hsub⟩ := rregOf_keep hc hE
  have hb := mirror_covered (C26_mirror_partial hP (h.snoc hs hsafe)).1 c q E' f' hE'
  obtain ⟨t, E1, f1, a1, a2, a3⟩ := ha
  obtain ⟨t', E2, f2, b1, b2, b3⟩ := hb
  obtain ⟨t, v, c1, c2, c3⟩ := (RStep.smooth (RHist.rok hP h.hist.1) hs).2 l ⟨h1, h2⟩ q (fun _ v => E ⊑ v.1)
    ⟨t, (E1, f1), a1, a2, a3⟩ ⟨t', (E2, f2), b1, b2, hsub.trans b3⟩
  exact ⟨t, v.1, v.2, c1, c2, c3⟩

namespace GapEx

/-- `/a/b` for channel 2 and `/a/f` for channel 3. -/
def s1 : St := (watchOp Ex.F .ok Ex.s1 [Ex.a, Ex.f] false 3 Ex.W).1
/-- Channel 1 watches `/a/...`: the OS is asked to watch `/a`, then to drop the two others. -/
def s2 : St := (watchOp Ex.F .ok s1 [Ex.a] true 1 Ex.W).1

theorem step1 : RStep Ex.F true Ex.s1 (.watch [Ex.a, Ex.f] false 3 Ex.W true) s1 :=
  RStep.watch (O := .ok) (by simp [NonRec.GoodPath]) Ex.uW
theorem step2 : RStep Ex.F true s1 (.watch [Ex.a] true 1 Ex.W true) s2 := RStep.watch (O := .ok) Ex.good_a Ex.uW
theorem hist1 : RHist Ex.F true [.watch [Ex.a, Ex.b] false 2 Ex.CW true, .watch [Ex.a, Ex.f] false 3 Ex.W true] s1 :=
  Ex.hist1.snoc step1
theorem safe1 : SafeHist Ex.F [.watch [Ex.a, Ex.b] false 2 Ex.CW true, .watch [Ex.a, Ex.f] false 3 Ex.W true] s1 :=
  (watchOnly_safe Ex.hF hist1 (by simp [ROp.isWatch])).1
theorem safeOp : Safe (rregOf [.watch [Ex.a, Ex.b] false 2 Ex.CW true, .watch [Ex.a, Ex.f] false 3 Ex.W true]) s1.world.log
    (.watch [Ex.a] true 1 Ex.W true) := by
  refine ⟨rfl, .inr fun x _ hx => ?_⟩
  have hl : s1.world.log = [(.watch [Ex.a, Ex.f] Ex.W, true), (.watch [Ex.a, Ex.b] Ex.CW, true)] := by decide
  rw [hl] at hx
  simp only [osRec, Bool.not_true, Bool.false_eq_true, if_false] at hx
  split at hx
  · next h => subst h; exact ⟨3, by decide⟩
  · split at hx
    · next h => subst h; exact ⟨2, by decide⟩
    · simp at hx

end GapEx

/-- Non-trivial case: the third Watch makes three OS calls, and at each of the two moments between them what channel 2 asked
for is covered, first by two watches and then by the new one alone. -/
example : SafeHist Ex.F [.watch [Ex.a, Ex.b] false 2 Ex.CW true, .watch [Ex.a, Ex.f] false 3 Ex.W true] GapEx.s1 ∧
    RStep Ex.F true GapEx.s1 (.watch [Ex.a] true 1 Ex.W true) GapEx.s2 ∧
    Safe (rregOf [.watch [Ex.a, Ex.b] false 2 Ex.CW true, .watch [Ex.a, Ex.f] false 3 Ex.W true]) GapEx.s1.world.log
      (.watch [Ex.a] true 1 Ex.W true) ∧
    GapEx.s2.world.log.length = GapEx.s1.world.log.length + 3 ∧
    osRec GapEx.s2.world.log.tail.tail [Ex.a] = some (Ex.CW, true) ∧
    osRec GapEx.s2.world.log.tail.tail [Ex.a, Ex.b] = some (Ex.CW, false) ∧
    osRec GapEx.s2.world.log [Ex.a, Ex.b] = none :=
  ⟨GapEx.safe1, GapEx.step2, GapEx.safeOp, by decide, by decide, by decide, by decide⟩

end Rec
end Verif
