/-
The invariant of the non-recursive tree: the watchpoints are consistent and the OS watches
(as denoted by the log of calls) mirror the totals.
-/
import Verif.NonRecWP

namespace Verif

theorem Node.find_setWatch (nd : Node) {p : Path} {c : Node} (hg : nd.get? p = some c) (w : WP)
    (q : Path) : (nd.update p (Node.setWatch w)).find q = if q = p then some w else nd.find q := by
  by_cases hq : p <+: q
  · obtain ⟨r, rfl⟩ := hq
    rw [update_find_append nd p _ hg, find_append, hg]
    cases r with
    | nil => cases c; simp [setWatch, watch]
    | cons b r =>
      have : p ++ b :: r ≠ p := by
        intro e; have := congrArg List.length e; simp at this
      rw [if_neg this]
      cases c; simp [setWatch, find_cons, child]
  · rw [update_find_other nd p _ hq, if_neg]
    rintro rfl; simp at hq

theorem Node.setWatch_OK {Q : WP → Prop} {R : Node → Prop} {n : Path} {nd : Node}
    (h : nd.OK Q R n) {w : WP} (hw : Q w) : (Node.setWatch w nd).OK Q R n := by
  cases nd with
  | mk n' w' ch =>
    have hn : n' = n := h.name_eq
    subst hn
    exact OK.mk hw h.child

theorem Node.get?_of_find {nd : Node} {q : Path} {w : WP} (h : nd.find q = some w) :
    ∃ c, nd.get? q = some c ∧ c.watch = w := by
  simpa [find, Option.map_eq_some_iff] using h

mutual
theorem Node.trav_fst {σ : Type} {skip : Bool} {fn fn' : σ → WP → Path → WP → σ × WP}
    (h : ∀ s pw pw' n w, (fn s pw n w).1 = (fn' s pw' n w).1) (s : σ) (pw pw' : WP) :
    (nd : Node) → (Node.trav skip fn s pw nd).1 = (Node.trav skip fn' s pw' nd).1
  | .mk n w ch => by
    simp only [Node.trav]
    rw [h s pw pw' n w]
    exact Forest.trav_fst h _ _ _ ch
theorem Forest.trav_fst {σ : Type} {skip : Bool} {fn fn' : σ → WP → Path → WP → σ × WP}
    (h : ∀ s pw pw' n w, (fn s pw n w).1 = (fn' s pw' n w).1) (s : σ) (pw pw' : WP) :
    (f : Forest) → (Forest.trav skip fn s pw f).1 = (Forest.trav skip fn' s pw' f).1
  | .nil => by simp [Forest.trav]
  | .cons b nd rest => by
    simp only [Forest.trav]
    split
    · exact Forest.trav_fst h _ _ _ rest
    · rw [Node.trav_fst h s pw pw' nd]
      exact Forest.trav_fst h _ _ _ rest
end

namespace NonRec
open GoMap

variable {P : Platform}

/-- A path of the model other than the root: `/a/b/…` with non-empty components. -/
def GoodPath (p : Path) : Prop := p ≠ [] ∧ [] ∉ p

/-- The calls are valid and no `panic` was reached. -/
def Fine (P : Platform) (s : World) : Prop := ValidLog P s.log ∧ s.panicked = false

/-- The invariant. -/
structure Good (P : Platform) (s : St) : Prop where
  ok : s.root.OK (NR P) noR []
  top : s.root.watch = []
  sync : ∀ p, osOf s.world.log p = (watchAt s.root p).total P
  fine : Fine P s.world

theorem watchAt_nr {nd : Node} {n : Path} (h : nd.OK (NR P) noR n) (q : Path) :
    NR P (watchAt nd q) := by
  unfold watchAt
  cases hf : nd.find q with
  | none => exact nr_nil P
  | some w => exact h.find_Q hf

theorem watchAt_add (nd : Node) (p q : Path) : watchAt (nd.add p) q = watchAt nd q := by
  unfold watchAt
  rw [Node.add_find]; split <;> simp

theorem watchAt_setWatch {nd : Node} {p : Path} (hg : nd.get? p ≠ none) (w : WP) (q : Path) :
    watchAt (nd.update p (Node.setWatch w)) q = if q = p then w else watchAt nd q := by
  obtain ⟨c, hc⟩ := Option.ne_none_iff_exists'.1 hg
  unfold watchAt
  rw [Node.find_setWatch nd hc]; split <;> simp

theorem watchAt_get {nd : Node} {p : Path} {c : Node} (hg : nd.get? p = some c) (r : Path) :
    watchAt nd (p ++ r) = watchAt c r := by
  unfold watchAt; rw [Node.find_append, hg]; rfl

theorem watchAt_nil (nd : Node) : watchAt nd [] = nd.watch := by simp [watchAt]

theorem watchAt_put {nd : Node} {p : Path} (hg : nd.get? p ≠ none) (nd' : Node) (r : Path) :
    watchAt (nd.update p (fun _ => nd')) (p ++ r) = watchAt nd' r := by
  obtain ⟨c, hc⟩ := Option.ne_none_iff_exists'.1 hg
  unfold watchAt; rw [Node.update_find_append nd p _ hc]

theorem watchAt_put_other (nd : Node) {p q : Path} (nd' : Node) (h : ¬ p <+: q) :
    watchAt (nd.update p (fun _ => nd')) q = watchAt nd q := by
  unfold watchAt; rw [Node.update_find_other nd p _ h]

/-! ### Single calls -/

theorem diffCall_valid {n : Path} {os : Path → Event} {a b : Event} (ha : os n = a) (hab : a ≠ b)
    (hb : b ≠ 0) (hi : b &&& P.internal = 0) : (diffCall n (a, b)).Valid P os := by
  unfold diffCall
  split
  · next h => exact ⟨ha.trans h, hb, hi⟩
  · next h => exact ⟨ha, h, hb, hab, hi⟩

theorem osOf_diffCall (n : Path) (a b : Event) (l : Log) (q : Path) :
    osOf ((diffCall n (a, b), true) :: l) q = if n = q then b else osOf l q := by
  unfold diffCall; split <;> simp [osOf]

theorem osOf_fail (c : Call) (l : Log) : osOf ((c, false) :: l) = osOf l := by
  funext q; cases c <;> simp [osOf]

/-- The call for a changed total, with the oracle's answer. -/
theorem exec_diffCall (O : Oracle) {s : World} (hs : Fine P s) {n : Path} {a b : Event}
    (ha : osOf s.log n = a) (hab : a ≠ b) (hb : b ≠ 0) (hi : b &&& P.internal = 0) :
    Fine P (s.exec O (diffCall n (a, b))).1 ∧
    ∀ q, osOf (s.exec O (diffCall n (a, b))).1.log q =
      if (s.exec O (diffCall n (a, b))).2 = true ∧ n = q then b else osOf s.log q := by
  have hv := diffCall_valid (P := P) ha hab hb hi
  refine ⟨⟨⟨hv, hs.1⟩, hs.2⟩, ?_⟩
  intro q
  simp only [World.exec]
  rcases Bool.eq_false_or_eq_true (O s.log (diffCall n (a, b))) with h | h
  · simp only [h, true_and]; rw [osOf_diffCall]
  · simp only [h, Bool.false_eq_true, false_and, if_false]; rw [osOf_fail]

theorem exec_stop (hP : P.Facts) {s : World} (hs : Fine P s) {n : Path} {a b : Event}
    (ha : osOf s.log n = a) (hab : a ≠ b) (ha0 : a ≠ 0) (hi : b &&& P.internal = 0) :
    let s' := if b = 0 then (s.exec .ok (.unwatch n)).1 else (s.exec .ok (.rewatch n a b)).1
    Fine P s' ∧ ∀ q, osOf s'.log q = if n = q then b else osOf s.log q := by
  intro s'
  by_cases hb : b = 0
  · have : s' = (s.exec .ok (.unwatch n)).1 := by simp [s', hb]
    rw [this]
    refine ⟨⟨⟨fun h => ha0 (ha.symm.trans h), hs.1⟩, hs.2⟩, ?_⟩
    intro q; simp [World.exec, Oracle.ok, osOf, hb]
  · have : s' = (s.exec .ok (.rewatch n a b)).1 := if_neg hb
    rw [this]
    refine ⟨⟨⟨⟨ha, ha0, hb, hab, hi⟩, hs.1⟩, hs.2⟩, ?_⟩
    intro q; simp [World.exec, Oracle.ok, osOf]

/-! ### The callbacks -/

theorem or_sub_left (a b : Event) (h : a ||| b = 0) : a = 0 := by ebits

theorem recFunc_snd (P : Platform) (O : Oracle) (e : Event) (s : World) (n : Path) (w : WP) :
    (recFunc P O e s n w).2 = (w.add P .recCh (e ||| P.omitted ||| P.create)).1 := rfl

/-- Event sets handed to `recFunc` contain the recursive bit. -/
theorem recSet_ok {e : Event} (he : P.recursive ⊑ e) :
    (P.create ||| P.internal) ⊑ (e ||| P.omitted ||| P.create) := by ebits

theorem recFunc_nr {O : Oracle} {e : Event} (he : P.recursive ⊑ e) {s : World} {n : Path} {w : WP}
    (h : NR P w) : NR P (recFunc P O e s n w).2 := by
  rw [recFunc_snd]; exact h.add_rec (recSet_ok he)

theorem recFunc_os {e : Event} {s : World} {n : Path} {w : WP}
    (hs : Fine P s) (ho : osOf s.log n = w.total P) :
    Fine P (recFunc P .ok e s n w).1 ∧
    osOf (recFunc P .ok e s n w).1.log n = (recFunc P .ok e s n w).2.total P ∧
    ∀ q, q ≠ n → osOf (recFunc P .ok e s n w).1.log q = osOf s.log q := by
  rw [recFunc_snd]
  unfold recFunc
  simp only [add_diffOf P w (k := .recCh) nofun, diffOf_none]
  set w' := (w.add P .recCh (e ||| P.omitted ||| P.create)).1 with hw'
  by_cases h1 : w.total P = w'.total P
  · rw [if_pos h1]
    exact ⟨hs, by rw [ho, h1], fun _ _ => rfl⟩
  · simp only [h1, if_false, diffOf_ne h1]
    have hne : w'.total P ≠ 0 := by
      intro h0
      rw [hw', total_add P w (by simp)] at h0
      have := or_sub_left _ _ h0
      apply h1
      rw [this, hw', total_add P w (by simp), h0]
    simp only [hne, if_false]
    have := exec_diffCall (P := P) .ok hs ho h1 hne (total_internal P w')
    refine ⟨this.1, ?_, ?_⟩
    · rw [this.2]; simp [World.exec, Oracle.ok]
    · intro q hq
      rw [this.2]; simp [Ne.symm hq]

theorem stopFunc_snd (P : Platform) (O : Oracle) (c : Nat) (s : World) (pw : WP) (n : Path) (w : WP) :
    (stopFunc P O c s pw n w).2 = if w.length ≠ 0 then
      (watchDelMin P (pw.val .recCh) w (.user c) allEvents).1 else w := by
  unfold stopFunc; split <;> rfl

theorem stopFunc_nr (hP : P.Facts) {O : Oracle} {c : Nat} {s : World} {pw : WP} {n : Path} {w : WP}
    (hpw : NR P pw) (h : NR P w) : NR P (stopFunc P O c s pw n w).2 := by
  rw [stopFunc_snd]
  split
  · exact (watchDelMin_spec hP h hpw.minOK c).1
  · exact h

theorem stopFunc_os (hP : P.Facts) {c : Nat} {s : World} {pw : WP} {n : Path} {w : WP}
    (hpw : NR P pw) (h : NR P w) (hs : Fine P s) (ho : osOf s.log n = w.total P) :
    Fine P (stopFunc P .ok c s pw n w).1 ∧
    osOf (stopFunc P .ok c s pw n w).1.log n = (stopFunc P .ok c s pw n w).2.total P ∧
    ∀ q, q ≠ n → osOf (stopFunc P .ok c s pw n w).1.log q = osOf s.log q := by
  rw [stopFunc_snd]
  unfold stopFunc
  by_cases hl : w.length ≠ 0
  · rw [if_pos hl, if_pos hl]
    obtain ⟨hnr, _, hd, _⟩ := watchDelMin_spec hP h hpw.minOK c
    dsimp only
    rw [hd]
    set w' := (watchDelMin P (pw.val .recCh) w (.user c) allEvents).1 with hw'
    simp only [diffOf_none]
    by_cases h1 : w.total P = w'.total P
    · rw [if_pos h1]
      exact ⟨hs, by rw [ho, h1], fun _ _ => rfl⟩
    · rw [if_neg h1, diffOf_ne h1]
      have h0 : w.total P ≠ 0 := by
        rw [Ne, h.total_eq_zero hP]
        rintro rfl; simp at hl
      have := exec_stop hP hs ho h1 h0 (total_internal P w')
      simp only at this
      refine ⟨this.1, ?_, ?_⟩
      · rw [this.2]; simp
      · intro q hq
        rw [this.2]; simp [Ne.symm hq]
  · rw [if_neg hl, if_neg hl]
    exact ⟨hs, ho, fun _ _ => rfl⟩

/-! ### The operations -/

theorem good_init (P : Platform) : Good P init where
  ok := Node.new_OK (nr_nil P)
  top := rfl
  sync := by
    intro p
    have : watchAt (Node.new []) p = [] := by
      cases p <;> simp [watchAt, Node.find, Node.new, Node.get?, Node.watch, Forest.get?]
    simp [init, osOf, this, WP.total]
  fine := ⟨trivial, rfl⟩

theorem Good.add {s : St} (h : Good P s) {p : Path} (hp : GoodPath p) :
    Good P { s with root := s.root.add p } where
  ok := Node.add_OK h.ok (nr_nil P) hp.2
  top := by simpa [Node.add_watch] using h.top
  sync := by intro q; simp only [watchAt_add]; exact h.sync q
  fine := h.fine

/-- Replacing one watchpoint together with its OS watch. -/
theorem Good.setWatch {s : St} (h : Good P s) {p : Path} (hp : GoodPath p)
    (hg : s.root.get? p ≠ none) {w : WP} (hw : NR P w) {s' : World} (hs' : Fine P s')
    (hos : ∀ q, osOf s'.log q = if q = p then w.total P else osOf s.world.log q) :
    Good P { root := s.root.update p (Node.setWatch w), world := s' } where
  ok := Node.update_OK h.ok hp.2 (fun c _ hc => Node.setWatch_OK hc hw)
  top := by rw [Node.update_watch hp.1]; exact h.top
  sync := by
    intro q
    rw [hos q, watchAt_setWatch hg]
    split
    · rfl
    · exact h.sync q
  fine := hs'

theorem event_nonzero {e : Event} (he : e ≠ 0) (hi : e &&& P.internal = 0) : e &^ P.internal ≠ 0 := by
  ebits

theorem omit_of_internal {e : Event} (hi : e &&& P.internal = 0) : e &&& P.omitted = 0 := by ebits

theorem Good.watch (hP : P.Facts) (O : Oracle) {s : St} (h : Good P s) {p : Path} (hp : GoodPath p)
    (hg : s.root.get? p ≠ none) (c : Nat) {e : Event} (he : e ≠ 0) (hi : e &&& P.internal = 0) :
    Good P (NonRec.watch P O s p c e).1 := by
  have hw := watchAt_nr h.ok p
  have hw1 : NR P ((watchAt s.root p).add P (.user c) e).1 :=
    hw.add_user (event_nonzero he hi) (omit_of_internal hi)
  unfold NonRec.watch
  simp only [add_diffOf P (watchAt s.root p) (k := .user c) nofun, diffOf_none]
  set w := watchAt s.root p with hwdef
  set w1 := (w.add P (.user c) e).1 with hw1def
  by_cases h1 : w.total P = w1.total P
  · simp only [h1, if_true]
    refine h.setWatch hp hg hw1 h.fine ?_
    intro q; split
    · next hq => subst hq; rw [h.sync, ← h1]
    · rfl
  · simp only [h1, if_false, diffOf_ne h1]
    have hne : w1.total P ≠ 0 := by
      intro h0
      rw [hw1def, total_add P w (by simp)] at h0
      have := or_sub_left _ _ h0
      apply h1
      rw [this, hw1def, total_add P w (by simp), h0]
    simp only [hne, if_false]
    have hsp : osOf s.world.log p = w.total P := h.sync p
    have hx := exec_diffCall O h.fine hsp h1 hne (total_internal P w1)
    split
    · next hok =>
      refine h.setWatch hp hg hw1 hx.1 ?_
      intro q
      rw [hx.2, hok]; simp only [true_and, eq_comm]
    · next hok =>
      have hr := hw.rollback hP (c := c) (event_nonzero he hi) hi rfl rfl
      have hg1 : (s.root.update p (Node.setWatch w1)).get? p ≠ none := by
        obtain ⟨c', hc'⟩ := Option.ne_none_iff_exists'.1 hg
        rw [Ne, ← Node.find_eq_none, Node.find_setWatch _ hc']; simp
      -- an intermediate state in which the OS has the new total
      set l1 : World := { s.world with log := (diffCall p (w.total P, w1.total P), true) :: s.world.log }
      have hgood1 : Good P { root := s.root.update p (Node.setWatch w1), world := l1 } := by
        refine h.setWatch hp hg hw1 ⟨⟨diffCall_valid (h.sync p) h1 hne (total_internal P w1), h.fine.1⟩,
          h.fine.2⟩ ?_
        intro q
        simp only [l1, osOf_diffCall, eq_comm]
      refine hgood1.setWatch hp hg1 hr.1 hx.1 ?_
      intro q
      rw [hx.2]
      simp only [hok, Bool.false_eq_true, false_and, if_false, l1, osOf_diffCall]
      split
      · next hq => subst hq; rw [hr.2]; exact h.sync q
      · next hq => rw [if_neg (Ne.symm hq)]

/-- Replacing a whole subtree together with its OS watches. -/
theorem Good.subtree {s : St} (h : Good P s) {p : Path} (hp : GoodPath p)
    (hg : s.root.get? p ≠ none) {nd' : Node} (hnd : nd'.OK (NR P) noR p) {s' : World} (hs' : Fine P s')
    (hos : ∀ r, osOf s'.log (p ++ r) = (watchAt nd' r).total P)
    (hframe : ∀ q, ¬ p <+: q → osOf s'.log q = osOf s.world.log q) :
    Good P { root := s.root.update p (fun _ => nd'), world := s' } where
  ok := Node.update_OK h.ok hp.2 (fun c _ _ => by simpa using hnd)
  top := by rw [Node.update_watch hp.1]; exact h.top
  sync := by
    intro q
    by_cases hq : p <+: q
    · obtain ⟨r, rfl⟩ := hq
      rw [watchAt_put hg]; exact hos r
    · rw [watchAt_put_other _ _ hq, hframe q hq]; exact h.sync q
  fine := hs'

/-- `trav` with the internal callback on a subtree. -/
theorem trav_recFunc {e : Event} (he : P.recursive ⊑ e) {skip : Bool} {nd : Node} {n : Path}
    (hok : nd.OK (NR P) noR n) {s : World} (hs : Fine P s)
    (hos : ∀ r, osOf s.log (n ++ r) = (watchAt nd r).total P) :
    let r := nd.trav skip (fun s _ n w => recFunc P .ok e s n w) s []
    r.2.OK (NR P) noR n ∧ Fine P r.1 ∧ (∀ q, osOf r.1.log (n ++ q) = (watchAt r.2 q).total P) ∧
    (∀ q, ¬ n <+: q → osOf r.1.log q = osOf s.log q) := by
  intro r
  have hQ : ∀ (s : World) (pw : WP) n w, NR P pw → NR P w → NR P ((fun s _ n w => recFunc P .ok e s n w) s pw n w).2 :=
    fun s _ n w _ hw => recFunc_nr he hw
  have h1 : r.2.OK (NR P) noR n := Node.trav_OK hQ (nr_nil P) hok
  have h2 := Node.trav_os (skip := skip) (fn := fun s (_ : WP) n w => recFunc P .ok e s n w)
    (os := fun s p => osOf s.log p) (tot := fun w => w.total P) (V := Fine P) (Q := NR P) (Q' := NR P)
    hQ (fun s _ n w _ _ hs ho => recFunc_os hs ho) (s := s) (nr_nil P) hok hs
    (by intro r w hw; rw [hos r]; simp [watchAt, hw])
  have hfind := Node.trav_find (skip := skip) (s := s) (pw := [])
    (fn := fun s (_ : WP) n w => recFunc P .ok e s n w)
    (g := fun _ w => (w.add P .recCh (e ||| P.omitted ||| P.create)).1) (fun _ _ _ _ => rfl) hok
  refine ⟨h1, h2.1, ?_, ?_⟩
  · intro q
    cases hf : r.2.find q with
    | some w => rw [h2.2.1 q w hf]; simp [watchAt, hf]
    | none =>
      have hn : nd.find q = none := by
        have := Node.travW_isSome (fun _ w => (w.add P .recCh (e ||| P.omitted ||| P.create)).1) [] nd q
        rw [← hfind q] at this
        change (r.2.find q).isSome = _ at this
        rw [hf] at this
        simpa using this.symm
      rw [h2.2.2 (n ++ q), hos q]
      · simp [watchAt, hf, hn]
      · intro r hr e
        simp only [List.append_cancel_left_eq] at e
        subst e; exact hr hn
  · intro q hq
    exact h2.2.2 q (by rintro r _ rfl; simp at hq)

/-- `addDir` with the internal callback on a subtree. -/
theorem addDir_recFunc {e : Event} (he : P.recursive ⊑ e) {d : DirTree} (hd : d.Named) {nd : Node}
    {n : Path} (hn : [] ∉ n) (hok : nd.OK (NR P) noR n) {s : World} (hs : Fine P s)
    (hos : ∀ r, osOf s.log (n ++ r) = (watchAt nd r).total P) :
    let r := d.addDir (recFunc P .ok e) s nd
    r.2.1.OK (NR P) noR n ∧ Fine P r.1 ∧ (∀ q, osOf r.1.log (n ++ q) = (watchAt r.2.1 q).total P) ∧
    (∀ q, ¬ n <+: q → osOf r.1.log q = osOf s.log q) := by
  intro r
  have hQ : ∀ (s : World) n w, NR P w → NR P (recFunc P .ok e s n w).2 :=
    fun s n w hw => recFunc_nr he hw
  have h2 := DirTree.addDir_os (os := fun (s : World) p => osOf s.log p) (tot := fun w => w.total P)
    (V := Fine P) (nr_nil P) hQ (fun s n w _ hs ho => recFunc_os hs ho) hn d hd (s := s) hok hs hos
  exact ⟨DirTree.addDir_OK (nr_nil P) hQ hn d hd hok, h2.1, h2.2.1, h2.2.2⟩

theorem watchAdd_eq {w : WP} {c : Nat} {e : Event} (he : e &&& P.recursive ≠ 0) :
    watchAdd P w c e = ((w.add P .recCh (e ||| P.create ||| P.omitted)).1.add P (.user c) e).1 := by
  exact if_pos he

theorem watchAdd_nr (hP : P.Facts) {w : WP} (h : NR P w) {c : Nat} {e : Event} (hr : P.recursive ⊑ e)
    (he : e &^ P.internal ≠ 0) (ho : e &&& P.omitted = 0) :
    NR P (watchAdd P w c e) := by
  have : e &&& P.recursive ≠ 0 := by have := hP.recursive_ne; ebits
  rw [watchAdd_eq this]
  exact (h.add_rec (by ebits)).add_user he ho

theorem watchAdd_total (hP : P.Facts) (w : WP) (c : Nat) {e : Event} (hr : P.recursive ⊑ e) :
    (watchAdd P w c e).total P = w.total P ||| ((e ||| P.create) &^ P.internal) := by
  have : e &&& P.recursive ≠ 0 := by have := hP.recursive_ne; ebits
  rw [watchAdd_eq this, total_add _ _ (by simp), total_add _ _ (by simp)]
  ebits

/-- The event sets allowed for a recursive Watch: user events plus the recursive bit. -/
structure RecSet (P : Platform) (e : Event) : Prop where
  hr : P.recursive ⊑ e
  he : e &^ P.internal ≠ 0
  ho : e &&& P.omitted = 0

theorem recSet_of {e : Event} (hP : P.Facts) (he : e ≠ 0) (hi : e &&& P.internal = 0) : RecSet P (e ||| P.recursive) where
  hr := by ebits
  he := by ebits
  ho := by have := hP.rec_omit; ebits

theorem Good.watchrec (hP : P.Facts) {s : St} (h : Good P s) {p : Path} (hp : GoodPath p)
    (hg : s.root.get? p ≠ none) (c : Nat) {e : Event} (he : RecSet P e) {d : DirTree} (hd : d.Named) :
    Good P (NonRec.watchrec P .ok d s p c e).1 := by
  have hw := watchAt_nr h.ok p
  unfold NonRec.watchrec
  simp only
  set w := watchAt s.root p with hwdef
  by_cases h1 : w.dryAdd P .recCh (e ||| P.create) = Diff.none
  · simp only [h1, if_true]
    have hsub : (e ||| P.create) &^ P.internal ⊑ w.val .recCh := by
      simp only [WP.dryAdd, Diff.none] at h1
      split at h1
      · next h => exact Event.sub_iff_and.2 h
      · next h =>
        exfalso
        simp only [Prod.mk.injEq] at h1
        apply h
        have := h1.2
        clear_value w
        ebits
    have ht := val_sub_total hw.inv (k := .recCh) (by simp)
    refine h.setWatch hp hg ((watchAdd_nr hP hw he.hr he.he he.ho).add_rec (recSet_ok he.hr)) h.fine ?_
    intro q
    split
    · next hq =>
      subst hq
      rw [h.sync, total_add _ _ (by simp), watchAdd_total hP _ _ he.hr]
      change w.total P = _
      clear_value w
      have := he.hr
      ebits
    · rfl
  · simp only [h1, if_false]
    have hne : (w.dryAdd P .recCh (e ||| P.create)).2 ≠ 0 := by
      simp only [WP.dryAdd, Diff.none] at h1 ⊢
      split at h1
      · exact absurd rfl h1
      · next h =>
        simp only [h, if_false]
        have := he.he
        clear_value w
        ebits
    simp only [hne, if_false]
    obtain ⟨nd, hnd⟩ := Option.ne_none_iff_exists'.1 hg
    simp only [hnd]
    have hndok : nd.OK (NR P) noR p := by simpa using h.ok.get hp.2 hnd
    have hos : ∀ r, osOf s.world.log (p ++ r) = (watchAt nd r).total P := by
      intro r; rw [h.sync, watchAt_get hnd]
    -- common facts about both traversals
    set r : World × Node × Bool :=
      if (w.dryAdd P .recCh (e ||| P.create)).1 = 0 then d.addDir (recFunc P .ok e) s.world nd
      else
        let x := nd.trav true (fun s _ n w => recFunc P .ok e s n w) s.world []
        (x.1, x.2, true) with hr
    have key : r.2.1.OK (NR P) noR p ∧ Fine P r.1 ∧
        (∀ q, osOf r.1.log (p ++ q) = (watchAt r.2.1 q).total P) ∧
        (∀ q, ¬ p <+: q → osOf r.1.log q = osOf s.world.log q) ∧
        (r.2.1.watch.total P = (w.total P ||| ((e ||| P.omitted ||| P.create) &^ P.internal))) := by
      rw [hr]
      split
      · have := addDir_recFunc he.hr hd hp.2 hndok h.fine hos
        refine ⟨this.1, this.2.1, this.2.2.1, this.2.2.2, ?_⟩
        rw [hwdef, ← List.append_nil p, watchAt_get hnd, watchAt_nil]
        have h3 : (d.addDir (recFunc P .ok e) s.world nd).2.1.watch =
            (nd.watch.add P .recCh (e ||| P.omitted ||| P.create)).1 := by
          cases nd; cases d <;> simp [DirTree.addDir, Node.watch, recFunc_snd]
        rw [h3, total_add _ _ (by simp)]
      · have := trav_recFunc (skip := true) he.hr hndok h.fine hos
        refine ⟨this.1, this.2.1, this.2.2.1, this.2.2.2, ?_⟩
        rw [hwdef, ← List.append_nil p, watchAt_get hnd, watchAt_nil]
        have h3 : (nd.trav true (fun s _ n w => recFunc P .ok e s n w) s.world []).2.watch =
            (nd.watch.add P .recCh (e ||| P.omitted ||| P.create)).1 := by
          cases nd; simp [Node.trav, Node.watch, recFunc_snd]
        rw [h3, total_add _ _ (by simp)]
    have hgood := h.subtree hp hg key.1 key.2.1 key.2.2.1 key.2.2.2.1
    split
    · have hg' : (s.root.update p (fun _ => r.2.1)).get? p ≠ none := by
        have := Node.update_get_append s.root p (fun _ => r.2.1) hnd []
        simp only [List.append_nil, Node.get?_nil] at this
        rw [this]; simp
      have hwp : watchAt (s.root.update p (fun _ => r.2.1)) p = r.2.1.watch := by
        have := watchAt_put hg r.2.1 []
        rwa [List.append_nil, watchAt_nil] at this
      refine hgood.setWatch hp hg' (watchAdd_nr hP (watchAt_nr hgood.ok p) he.hr he.he he.ho) key.2.1 ?_
      intro q
      split
      · next hq =>
        subst hq
        rw [watchAdd_total hP _ _ he.hr, hwp]
        have h4 := key.2.2.1 []
        rw [List.append_nil, watchAt_nil] at h4
        rw [h4, key.2.2.2.2]
        clear_value w
        ebits
      · rfl
    · exact hgood

theorem Good.watchOp (hP : P.Facts) {O : Oracle} {s : St} (h : Good P s) {p : Path} (hp : GoodPath p)
    (isrec : Bool) (hO : isrec = true → O = .ok) (c : Nat) {e : Event} (he : e ≠ 0)
    (hi : e &&& P.internal = 0) {d : DirTree} (hd : d.Named) :
    Good P (NonRec.watchOp P O d s p isrec c e).1 := by
  unfold NonRec.watchOp
  have h1 := h.add hp
  have hg := Node.add_get_ne_none s.root p
  cases isrec with
  | true => rw [hO rfl]; exact h1.watchrec hP hp hg c (recSet_of hP he hi) hd
  | false => exact h1.watch hP O hp hg c he hi

/-- The tree after `Stop`. -/
theorem Good.stop_find {s : St} (h : Good P s) (O : Oracle) (c : Nat) (q : Path) :
    (NonRec.stop P O s c).root.find q =
    Node.travW (fun pw w => if w.length ≠ 0 then
      (watchDelMin P (pw.val .recCh) w (.user c) allEvents).1 else w) [] s.root q :=
  Node.trav_find (fun s pw n w => stopFunc_snd P O c s pw n w) h.ok q

theorem Good.stop (hP : P.Facts) {s : St} (h : Good P s) (c : Nat) : Good P (NonRec.stop P .ok s c) := by
  have hQ : ∀ s pw n w, NR P pw → NR P w → NR P (stopFunc P .ok c s pw n w).2 :=
    fun _ _ _ _ hpw hw => stopFunc_nr hP hpw hw
  have h2 := Node.trav_os (skip := false) (fn := stopFunc P .ok c)
    (os := fun s p => osOf s.log p) (tot := fun w => w.total P) (V := Fine P)
    hQ (fun s _ n w hpw hw hs ho => stopFunc_os hP hpw hw hs ho) (s := s.world) (nr_nil P) h.ok h.fine
    (by intro r w hw; simp only [List.nil_append]; rw [h.sync r]; simp [watchAt, hw])
  constructor
  · exact Node.trav_OK hQ (nr_nil P) h.ok
  · have := h.stop_find .ok c []
    simp only [Node.find_nil, Node.travW, Option.some.injEq, h.top] at this
    simpa using this
  · intro q
    cases hf : (NonRec.stop P .ok s c).root.find q with
    | some w =>
      have := h2.2.1 q w hf
      simp only [List.nil_append] at this
      simp only [watchAt, hf, Option.getD_some]
      exact this
    | none =>
      have hn : s.root.find q = none := by
        have := Node.travW_isSome (fun pw w => if w.length ≠ 0 then
          (watchDelMin P (pw.val .recCh) w (.user c) allEvents).1 else w) [] s.root q
        rw [← h.stop_find .ok c q, hf] at this
        simpa using this.symm
      have := h2.2.2 q (by intro r hr e; simp only [List.nil_append] at e; subst e; exact hr hn)
      simp only [watchAt, hf]
      rw [show (NonRec.stop P .ok s c).world = (Node.trav false (stopFunc P .ok c) s.world [] s.root).1 from rfl]
      rw [this, h.sync]
      simp [watchAt, hn]
  · exact h2.1

/-- Small watchpoints are empty. -/
theorem NR.eq_nil_of_length {w : WP} (h : NR P w) (hl : w.length ≤ 1) : w = [] := by
  by_contra hne
  have h1 : w.get? .nil ≠ none := fun h0 => hne (h.inv.eq_nil_iff.2 h0)
  have h2 : ¬ ∀ k, k ≠ Key.nil → w.get? k = none := fun h0 => h1 (h.inv.nil_none.2 h0)
  simp only [not_forall] at h2
  obtain ⟨k, hk, hk'⟩ := h2
  have := two_le_length ((mem_keys_iff w .nil).2 (Option.ne_none_iff_exists'.1 h1))
    ((mem_keys_iff w k).2 (Option.ne_none_iff_exists'.1 hk')) (Ne.symm hk)
  omega

/-- Watchpoints after deleting a subtree. -/
theorem Good.del_watchAt {s : St} (h : Good P s) {p : Path} {root' : Node}
    (hd : s.root.del p = some root') (q : Path) :
    watchAt root' q = if p <+: q then [] else watchAt s.root q := by
  have := Node.del_find s.root hd q
  unfold watchAt
  split
  · next hq => rw [this.1 hq]; rfl
  · next hq =>
    rcases this.2 hq with h1 | ⟨h1, w, hw, hl, _⟩
    · rw [h1]
    · rw [h1, hw]
      exact ((h.ok.find_Q hw).eq_nil_of_length hl).symm

theorem pickSet_ge (P : Platform) (ws : List WP) (e : Event) :
    ws.foldl (fun eset (w : WP) => if w.val .recCh ≠ 0 ∧ w.val .recCh > eset then w.val .recCh else eset) e = e ∨
    ∃ w ∈ ws, w.val .recCh ≠ 0 ∧ ws.foldl (fun eset (w : WP) => if w.val .recCh ≠ 0 ∧ w.val .recCh > eset then w.val .recCh else eset) e
      = w.val .recCh := by
  induction ws generalizing e with
  | nil => left; rfl
  | cons w ws ih =>
    simp only [List.foldl_cons]
    split
    · next hw =>
      right
      rcases ih (w.val .recCh) with h | ⟨w', hm, h0, h⟩
      · exact ⟨w, by simp, hw.1, h⟩
      · exact ⟨w', by simp [hm], h0, h⟩
    · rcases ih e with h | ⟨w', hm, h0, h⟩
      · left; exact h
      · right; exact ⟨w', by simp [hm], h0, h⟩

theorem mem_onPath {nd c : Node} {p : Path} (h : c ∈ onPath nd p) : ∃ r, r <+: p ∧ nd.get? r = some c := by
  simp only [onPath, List.mem_append, Option.mem_toList] at h
  rcases h with h | h
  · rw [Node.walkPath_visited] at h
    simp only [List.mem_filterMap, List.mem_range] at h
    obtain ⟨i, _, h⟩ := h
    exact ⟨_, List.take_prefix i p, h⟩
  · by_cases hp : p = []
    · subst hp; simp [Node.walkPath] at h
    · rw [Node.walkPath_base nd hp] at h
      exact ⟨p, List.prefix_rfl, h⟩

/-- The set picked for a new directory is an internal set on the way. -/
theorem pickSet_ok {nd : Node} {n : Path} (h : nd.OK (NR P) noR n) {p : Path}
    (hne : pickSet P ((onPath nd p).map Node.watch) ≠ P.internal) :
    (P.create ||| P.internal) ⊑ pickSet P ((onPath nd p).map Node.watch) := by
  rcases pickSet_ge P ((onPath nd p).map Node.watch) P.internal with h1 | ⟨w, hm, h0, h1⟩
  · exact absurd h1 hne
  · rw [show pickSet P ((onPath nd p).map Node.watch) = w.val .recCh from h1]
    simp only [List.mem_map] at hm
    obtain ⟨c, hc, rfl⟩ := hm
    obtain ⟨r, _, hr⟩ := mem_onPath hc
    have hq : NR P c.watch := h.find_Q (q := r) (by simp [Node.find, hr])
    rcases hq.minOK with h2 | h2
    · exact absurd h2 h0
    · exact h2

theorem rec_of_set {e : Event} (h : (P.create ||| P.internal) ⊑ e) : P.recursive ⊑ e := by ebits

theorem Good.internal (hP : P.Facts) {s : St} (h : Good P s) {ei : EventInfo} (hp : GoodPath ei.path)
    {d : DirTree} (hd : d.Named) : Good P (NonRec.internal P .ok d s ei) := by
  unfold NonRec.internal
  split
  · -- removal
    split
    · exact h
    · next nd hnd =>
      have hndok : nd.OK (NR P) noR ei.path := by simpa using h.ok.get hp.2 hnd
      have hsome := Node.del_isSome s.root hp.1
      rw [hnd] at hsome
      obtain ⟨root', hroot'⟩ := Option.isSome_iff_exists.1 hsome
      rw [hroot']
      simp only [Option.getD_some]
      -- the same calls with watchpoints emptied
      have hcalls := Node.trav_fst (skip := false) (fn := unwatchFunc .ok)
        (fn' := fun s pw n w => ((unwatchFunc .ok s pw n w).1, ([] : WP)))
        (by intro s pw pw' n w; simp [unwatchFunc]) s.world [] [] nd
      have h2 := Node.trav_os (skip := false)
        (fn := fun s pw n w => ((unwatchFunc .ok s pw n w).1, ([] : WP)))
        (os := fun s p => osOf s.log p) (tot := fun w => w.total P) (V := Fine P) (Q := NR P)
        (Q' := fun w => w = []) (fun _ _ _ _ _ _ => rfl)
        (by
          intro s pw n w _ hw hs ho
          change osOf s.log n = w.total P at ho
          simp only [unwatchFunc]
          split
          · next hl =>
            have h0 : w.total P ≠ 0 := by
              rw [Ne, hw.total_eq_zero hP]; rintro rfl; simp at hl
            have h0' : (0 : Event) ≠ w.total P := Ne.symm h0
            have := exec_stop hP hs ho h0 h0 (b := 0) (by simp)
            simp only [if_true] at this
            refine ⟨this.1, ?_, ?_⟩
            · rw [this.2]; simp [WP.total]
            · intro p hpn; rw [this.2]; simp [Ne.symm hpn]
          · next hl =>
            have : w = [] := List.length_eq_zero_iff.1 (by simpa using hl)
            subst this
            exact ⟨hs, ho, fun _ _ => rfl⟩)
        (s := s.world) (pw := []) rfl hndok h.fine
        (by
          intro r w hw
          rw [h.sync, watchAt_get hnd]; simp [watchAt, hw])
      rw [← hcalls] at h2
      have hfind := Node.trav_find (skip := false) (s := s.world) (pw := [])
        (fn := fun s pw n w => ((unwatchFunc .ok s pw n w).1, ([] : WP)))
        (g := fun _ _ => ([] : WP)) (fun _ _ _ _ => rfl) hndok
      constructor
      · exact Node.del_OK h.ok hroot'
      · have := h.del_watchAt hroot' []
        rw [watchAt_nil, watchAt_nil] at this
        rw [this, h.top]; simp
      · intro q
        rw [h.del_watchAt hroot' q]
        split
        · next hq =>
          obtain ⟨r, rfl⟩ := hq
          cases hf : nd.find r with
          | none =>
            rw [h2.2.2, h.sync, watchAt_get hnd]
            · simp [watchAt, hf]
            · intro r' hr' e
              simp only [List.append_cancel_left_eq] at e
              subst e; exact hr' hf
          | some w =>
            have h3 := hfind r
            have h4 := Node.travW_isSome (fun _ _ => ([] : WP)) [] nd r
            rw [hf] at h4
            obtain ⟨w', hw'⟩ := Option.isSome_iff_exists.1 h4
            rw [h2.2.1 r w' (by rw [h3, hw'])]
            have : w' = [] := by
              have := Node.trav_OK (skip := false) (s := s.world) (pw := [])
                (fn := fun s pw n w => ((unwatchFunc .ok s pw n w).1, ([] : WP)))
                (Q := NR P) (Q' := fun w => w = []) (fun _ _ _ _ _ _ => rfl) rfl hndok
              exact this.find_Q (by rw [h3, hw'])
            rw [this]
        · next hq =>
          rw [h2.2.2, h.sync]
          rintro r _ rfl; simp at hq
      · exact h2.1
  · -- creation
    simp only
    split
    · exact h
    · next hne =>
      have hset := pickSet_ok h.ok hne
      have h1 := h.add hp
      have hg := Node.add_get_ne_none s.root ei.path
      obtain ⟨nd, hnd⟩ := Option.ne_none_iff_exists'.1 hg
      simp only [hnd]
      have hndok : nd.OK (NR P) noR ei.path := by simpa using h1.ok.get hp.2 hnd
      have hos : ∀ r, osOf s.world.log (ei.path ++ r) = (watchAt nd r).total P := by
        intro r; rw [← watchAt_get hnd]; exact h1.sync _
      have := addDir_recFunc (P := P) (rec_of_set hset) hd hp.2 hndok h.fine hos
      exact h1.subtree hp hg this.1 this.2.1 this.2.2.1 this.2.2.2

end NonRec
end Verif
