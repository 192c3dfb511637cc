/-
Histories of the non-recursive tree, and the effect of each operation on the users' entries.
-/
import Verif.NonRecInv

namespace Verif
namespace NonRec
open GoMap

variable {P : Platform}

/-- Event sets a user may pass: not empty, without the unexported internal bits. -/
def UserEvents (P : Platform) (e : Event) : Prop := e ≠ 0 ∧ e &&& P.internal = 0

/-- The tree is well formed (whatever the OS did). -/
structure Shape (P : Platform) (nd : Node) : Prop where
  ok : nd.OK (NR P) noR []
  top : nd.watch = []

theorem Good.shape {s : St} (h : Good P s) : Shape P s.root := ⟨h.ok, h.top⟩

/-- A user's entry. -/
def entry (nd : Node) (c : Nat) (q : Path) : Option Event := (watchAt nd q).get? (.user c)

theorem Shape.nr {nd : Node} (h : Shape P nd) (q : Path) : NR P (watchAt nd q) := watchAt_nr h.ok q

theorem Shape.add {nd : Node} (h : Shape P nd) {p : Path} (hp : GoodPath p) : Shape P (nd.add p) where
  ok := Node.add_OK h.ok (nr_nil P) hp.2
  top := by simpa [Node.add_watch] using h.top

theorem Shape.setWatch {nd : Node} (h : Shape P nd) {p : Path} (hp : GoodPath p) {w : WP} (hw : NR P w) :
    Shape P (nd.update p (Node.setWatch w)) where
  ok := Node.update_OK h.ok hp.2 (fun c _ hc => Node.setWatch_OK hc hw)
  top := by rw [Node.update_watch hp.1]; exact h.top

theorem Shape.put {nd : Node} (h : Shape P nd) {p : Path} (hp : GoodPath p) {nd' : Node}
    (hw : nd'.OK (NR P) noR p) : Shape P (nd.update p (fun _ => nd')) where
  ok := Node.update_OK h.ok hp.2 (fun c _ _ => by simpa using hw)
  top := by rw [Node.update_watch hp.1]; exact h.top

theorem get_setWatch_ne {nd : Node} {p : Path} (hg : nd.get? p ≠ none) (w : WP) :
    (nd.update p (Node.setWatch w)).get? p ≠ none := by
  obtain ⟨c', hc'⟩ := Option.ne_none_iff_exists'.1 hg
  rw [Ne, ← Node.find_eq_none, Node.find_setWatch _ hc']; simp

theorem get_put_ne {nd : Node} {p : Path} (hg : nd.get? p ≠ none) (nd' : Node) :
    (nd.update p (fun _ => nd')).get? p ≠ none := by
  obtain ⟨c', hc'⟩ := Option.ne_none_iff_exists'.1 hg
  have := Node.update_get_append nd p (fun _ => nd') hc' []
  simp only [List.append_nil, Node.get?_nil] at this
  rw [this]; simp

/-- What a failed plain Watch leaves in the channel's entry: the old set plus those requested
events that were in the total already. -/
def rolledBack (P : Platform) (w : WP) (c : Nat) (e : Event) : Option Event :=
  let v := (w.val (.user c) ||| e) &^ (e &^ w.total P)
  if v = 0 then none else some v

theorem watch_effect (hP : P.Facts) (O : Oracle) {s : St} (h : Shape P s.root) {p : Path} (hp : GoodPath p)
    (hg : s.root.get? p ≠ none) (c : Nat) {e : Event} (he : UserEvents P e) :
    Shape P (NonRec.watch P O s p c e).1.root ∧
    ∀ d q, entry (NonRec.watch P O s p c e).1.root d q =
      if d = c ∧ q = p then
        (if (NonRec.watch P O s p c e).2 then some ((watchAt s.root p).val (.user c) ||| e)
         else rolledBack P (watchAt s.root p) c e)
      else entry s.root d q := by
  have hw := h.nr p
  have hw1 : NR P ((watchAt s.root p).add P (.user c) e).1 :=
    hw.add_user (event_nonzero he.1 he.2) (omit_of_internal he.2)
  have hgu : ∀ d, ((watchAt s.root p).add P (.user c) e).1.get? (.user d) =
      if d = c then some ((watchAt s.root p).val (.user c) ||| e) else (watchAt s.root p).get? (.user d) := by
    intro d; rw [WP.get?_add P _ (by simp)]; simp
  have hent : ∀ (s : St) d q w, s.root.get? p ≠ none →
      entry (s.root.update p (Node.setWatch w)) d q = if q = p then GoMap.get? w (.user d) else entry s.root d q := by
    intro s d q w hg
    unfold entry; rw [watchAt_setWatch hg]; split <;> rfl
  have hsucc : ∀ d q, entry (s.root.update p (Node.setWatch ((watchAt s.root p).add P (.user c) e).1)) d q =
      if d = c ∧ q = p then some ((watchAt s.root p).val (.user c) ||| e) else entry s.root d q := by
    intro d q
    rw [hent s d q _ hg, hgu]
    by_cases hq : q = p
    · subst hq; by_cases hd : d = c <;> simp [hd, entry]
    · simp [hq]
  unfold NonRec.watch
  simp only [add_diffOf P (watchAt s.root p) (k := .user c) nofun, diffOf_none]
  split
  · exact ⟨h.setWatch hp hw1, by simpa using hsucc⟩
  · next h1 =>
    rw [diffOf_ne h1]
    split
    · exact ⟨h.setWatch hp hw1, by simpa using hsucc⟩
    · split
      · exact ⟨h.setWatch hp hw1, by simpa using hsucc⟩
      · have hr := hw.rollback hP (c := c) (event_nonzero he.1 he.2) he.2 rfl rfl
        refine ⟨(h.setWatch hp hw1).setWatch hp hr.1, ?_⟩
        intro d q
        rw [hent ⟨_, s.world⟩ d q _ (get_setWatch_ne hg _), hsucc]
        have hev : Diff.event ((watchAt s.root p).total P, ((watchAt s.root p).add P (.user c) e).1.total P)
            = e &^ (watchAt s.root p).total P := by
          rw [total_add P _ (k := .user c) nofun, Diff.event]; simp only
          have := he.2
          ebits
        by_cases hq : q = p
        · subst hq
          simp only [if_true, and_true, Bool.false_eq_true, if_false]
          rw [WP.get?_del_ne_nil P _ (by simp) _ (by simp), hev, hgu]
          have hv : WP.val ((watchAt s.root q).add P (.user c) e).1 (.user c) =
              (watchAt s.root q).val (.user c) ||| e := by
            rw [WP.val, hgu]; simp
          rw [hv]
          by_cases hd : d = c <;> simp [hd, rolledBack, entry]
        · simp [hq]

theorem find_some_watchAt {nd : Node} {q : Path} {w : WP} (h : nd.find q = some w) : watchAt nd q = w := by
  simp [watchAt, h]

theorem watchAt_travW {nd : Node} {skip : Bool} {σ : Type} {fn : σ → WP → Path → WP → σ × WP}
    {g : WP → WP → WP} (hg : ∀ s pw n w, (fn s pw n w).2 = g pw w) {Q : WP → Prop} {s : σ} {pw : WP} {n : Path}
    (h : nd.OK Q noR n) (hg0 : ∀ pw, (g pw []) = []) (q : Path) :
    watchAt (Node.trav skip fn s pw nd).2 q = (Node.travW g pw nd q).getD [] := by
  unfold watchAt
  rw [Node.trav_find hg h]

theorem travW_entry {g : WP → WP → WP} {K : Nat → Bool}
    {Q Q' : WP → Prop} (hQ : ∀ pw w, Q' pw → Q w → Q' (g pw w))
    (hent : ∀ pw w d, Q' pw → Q w → (g pw w).get? (.user d) = if K d then w.get? (.user d) else none)
    {pw : WP} (hpw : Q' pw) {nd : Node} {n : Path} (h : nd.OK Q noR n) (q : Path) (d : Nat) :
    ((Node.travW g pw nd q).getD []).get? (.user d) =
      if K d then (watchAt nd q).get? (.user d) else none := by
  induction q generalizing nd pw n with
  | nil => simp only [Node.travW, Option.getD_some, hent pw _ d hpw h.watch, watchAt_nil]
  | cons b q ih =>
    simp only [Node.travW, watchAt, Node.find_cons]
    cases hc : nd.child.get? b with
    | none => simp
    | some c =>
      simp only [Option.bind_some]
      have h' := h.child.get hc
      have hb : b ≠ [] := h'.1
      exact ih (hQ _ _ hpw h.watch) (h'.2 hb)

theorem recFunc_user (P : Platform) (O : Oracle) (e : Event) (s : World) (n : Path) (w : WP) (d : Nat) :
    (recFunc P O e s n w).2.get? (.user d) = w.get? (.user d) := by
  rw [recFunc_snd, WP.get?_add P w (by simp)]; simp

/-- Both traversals made by a recursive Watch keep the shape and the users' entries. -/
theorem addDir_entry {O : Oracle} {e : Event} (he : P.recursive ⊑ e) {dt : DirTree} (hd : dt.Named) {nd : Node}
    {n : Path} (hn : [] ∉ n) (hok : nd.OK (NR P) noR n) (s : World) :
    (dt.addDir (recFunc P O e) s nd).2.1.OK (NR P) noR n ∧
    ∀ d q, entry (dt.addDir (recFunc P O e) s nd).2.1 d q = entry nd d q := by
  have hQ : ∀ (s : World) n w, NR P w → NR P (recFunc P O e s n w).2 := fun s n w hw => recFunc_nr he hw
  refine ⟨DirTree.addDir_OK (nr_nil P) hQ hn dt hd hok, fun d q => ?_⟩
  have := DirTree.addDir_rel (nr_nil P) hQ (Rel := fun w w' => w'.get? (.user d) = w.get? (.user d))
    (fun _ => rfl) (fun _ _ _ h1 h2 => h2.trans h1) (fun s n w => recFunc_user P O e s n w d) hn dt hd
    (s := s) hok q
  exact this.1

theorem trav_entry {O : Oracle} {e : Event} (he : P.recursive ⊑ e) {nd : Node} {skip : Bool}
    {n : Path} (hok : nd.OK (NR P) noR n) (s : World) :
    (nd.trav skip (fun s _ n w => recFunc P O e s n w) s []).2.OK (NR P) noR n ∧
    ∀ d q, entry (nd.trav skip (fun s _ n w => recFunc P O e s n w) s []).2 d q = entry nd d q := by
  have hQ : ∀ (s : World) (pw : WP) n w, NR P pw → NR P w → NR P (recFunc P O e s n w).2 :=
    fun s _ n w _ hw => recFunc_nr he hw
  refine ⟨Node.trav_OK hQ (nr_nil P) hok, fun d q => ?_⟩
  unfold entry watchAt
  rw [Node.trav_find (g := fun _ w => (w.add P .recCh (e ||| P.omitted ||| P.create)).1) (fun _ _ _ _ => rfl) hok]
  have := travW_entry (g := fun _ w => (w.add P .recCh (e ||| P.omitted ||| P.create)).1) (K := fun _ => true)
    (Q := NR P) (Q' := NR P) (fun pw w _ hw => recFunc_nr (O := O) (s := s) (n := n) he hw)
    (fun pw w d _ _ => by rw [if_pos rfl]; exact recFunc_user P O e s n w d) (nr_nil P) hok q d
  simpa [watchAt] using this

theorem entry_put {nd : Node} {p : Path} {c : Node} (hg : nd.get? p = some c) {nd' : Node}
    (h : ∀ d q, entry nd' d q = entry c d q) (d : Nat) (q : Path) :
    entry (nd.update p (fun _ => nd')) d q = entry nd d q := by
  by_cases hq : p <+: q
  · obtain ⟨r, rfl⟩ := hq
    unfold entry
    rw [watchAt_put (by rw [hg]; simp), watchAt_get hg]
    exact h d r
  · unfold entry; rw [watchAt_put_other _ _ hq]

theorem watchAdd_user (hP : P.Facts) (w : WP) (c : Nat) {e : Event} (hr : P.recursive ⊑ e) (d : Nat) :
    (watchAdd P w c e).get? (.user d) = if d = c then some (w.val (.user c) ||| e) else w.get? (.user d) := by
  have : e &&& P.recursive ≠ 0 := by have := hP.recursive_ne; ebits
  rw [watchAdd_eq this, WP.get?_add P _ (by simp)]
  have h1 : ∀ d, (w.add P .recCh (e ||| P.create ||| P.omitted)).1.get? (.user d) = w.get? (.user d) := by
    intro d; rw [WP.get?_add P _ (by simp)]; simp
  simp only [WP.val, h1]
  simp

theorem watchrec_effect (hP : P.Facts) (O : Oracle) {s : St} (h : Shape P s.root) {p : Path} (hp : GoodPath p)
    (hg : s.root.get? p ≠ none) (c : Nat) {e : Event} (he : RecSet P e) {dt : DirTree} (hd : dt.Named) :
    Shape P (NonRec.watchrec P O dt s p c e).1.root ∧
    ∀ d q, entry (NonRec.watchrec P O dt s p c e).1.root d q =
      if d = c ∧ q = p ∧ (NonRec.watchrec P O dt s p c e).2 = true then
        some ((watchAt s.root p).val (.user c) ||| e)
      else entry s.root d q := by
  have hw := h.nr p
  have hne : (WP.dryAdd P (watchAt s.root p) .recCh (e ||| P.create)) ≠ Diff.none →
      (WP.dryAdd P (watchAt s.root p) .recCh (e ||| P.create)).2 ≠ 0 := by
    intro h1
    generalize watchAt s.root p = w at h1 ⊢
    simp only [WP.dryAdd, Diff.none] at h1 ⊢
    split at h1
    · exact absurd rfl h1
    · next h =>
      simp only [h, if_false]
      have := he.he
      ebits
  unfold NonRec.watchrec
  simp only
  split
  · have hx := (watchAdd_nr hP hw he.hr he.he he.ho (c := c)).add_rec (recSet_ok he.hr)
    refine ⟨h.setWatch hp hx, ?_⟩
    intro d q
    unfold entry
    rw [watchAt_setWatch hg]
    by_cases hq : q = p
    · subst hq
      simp only [if_true, and_true, true_and]
      rw [WP.get?_add P _ (by simp)]
      simp only [reduceCtorEq, if_false]
      rw [watchAdd_user hP _ _ he.hr]
    · simp [hq]
  · next h1 =>
    rw [if_neg (hne h1)]
    obtain ⟨nd, hnd⟩ := Option.ne_none_iff_exists'.1 hg
    simp only [hnd]
    have hndok : nd.OK (NR P) noR p := by simpa using h.ok.get hp.2 hnd
    set r : World × Node × Bool :=
      if (WP.dryAdd P (watchAt s.root p) .recCh (e ||| P.create)).1 = 0 then dt.addDir (recFunc P O e) s.world nd
      else
        ((nd.trav true (fun s _ n w => recFunc P O e s n w) s.world []).1,
          (nd.trav true (fun s _ n w => recFunc P O e s n w) s.world []).2, true) with hr
    have key : r.2.1.OK (NR P) noR p ∧ ∀ d q, entry r.2.1 d q = entry nd d q := by
      rw [hr]
      split
      · exact addDir_entry he.hr hd hp.2 hndok s.world
      · exact trav_entry he.hr hndok s.world
    have hsh := h.put hp key.1
    have hent := entry_put hnd key.2
    split
    · next hok =>
      refine ⟨hsh.setWatch hp (watchAdd_nr hP (hsh.nr p) he.hr he.he he.ho), ?_⟩
      intro d q
      have hg' := get_put_ne hg r.2.1
      by_cases hq : q = p
      · subst hq
        unfold entry
        rw [watchAt_setWatch hg']
        simp only [if_true, and_true]
        rw [watchAdd_user hP _ _ he.hr]
        have h4 := hent
        simp only [entry] at h4
        simp only [WP.val, h4]
      · simp only [hq, and_false, false_and, if_false]
        rw [← hent d q]
        unfold entry
        rw [watchAt_setWatch hg']; simp [hq]
    · exact ⟨hsh, by simpa using hent⟩

/-- Effect of Watch on the users' entries, for every oracle and every listing. -/
theorem watchOp_effect (hP : P.Facts) (O : Oracle) {s : St} (h : Shape P s.root) {p : Path} (hp : GoodPath p)
    (isrec : Bool) (c : Nat) {e : Event} (he : UserEvents P e) {dt : DirTree} (hd : dt.Named) :
    Shape P (watchOp P O dt s p isrec c e).1.root ∧
    ∀ d q, entry (watchOp P O dt s p isrec c e).1.root d q =
      if d = c ∧ q = p then
        if (watchOp P O dt s p isrec c e).2 then
          some ((watchAt s.root p).val (.user c) ||| e ||| (if isrec then P.recursive else 0))
        else if isrec then entry s.root d q else rolledBack P (watchAt s.root p) c e
      else entry s.root d q := by
  have h1 := h.add hp
  have hg := Node.add_get_ne_none s.root p
  have hent : ∀ d q, entry (s.root.add p) d q = entry s.root d q := by
    intro d q; unfold entry; rw [watchAt_add]
  unfold watchOp
  cases isrec with
  | true =>
    simp only [if_true]
    have := watchrec_effect hP O (s := { s with root := s.root.add p }) h1 hp hg c
      (recSet_of hP he.1 he.2) hd
    refine ⟨this.1, fun d q => ?_⟩
    rw [this.2]
    simp only [hent, watchAt_add]
    by_cases hdq : d = c ∧ q = p
    · simp only [hdq, true_and, and_true]
      split
      · rw [BitVec.or_assoc, if_pos trivial]
      · rfl
    · rw [if_neg hdq, if_neg]; rintro ⟨a, b, _⟩; exact hdq ⟨a, b⟩
  | false =>
    have := watch_effect hP O (s := { s with root := s.root.add p }) h1 hp hg c he
    refine ⟨this.1, fun d q => ?_⟩
    simp only [Bool.false_eq_true, if_false]
    rw [this.2]
    simp only [hent, watchAt_add]
    simp

/-- Effect of Stop on the users' entries. -/
theorem stop_effect (hP : P.Facts) (O : Oracle) {s : St} (h : Shape P s.root) (c : Nat) :
    Shape P (stop P O s c).root ∧
    ∀ d q, entry (stop P O s c).root d q = if d = c then none else entry s.root d q := by
  have hQ : ∀ s pw n w, NR P pw → NR P w → NR P (stopFunc P O c s pw n w).2 :=
    fun _ _ _ _ hpw hw => stopFunc_nr hP hpw hw
  have hfind : ∀ q, (stop P O s c).root.find q = Node.travW (fun pw w => if w.length ≠ 0 then
      (watchDelMin P (pw.val .recCh) w (.user c) allEvents).1 else w) [] s.root q :=
    fun q => Node.trav_find (fun s pw n w => stopFunc_snd P O c s pw n w) h.ok q
  refine ⟨⟨Node.trav_OK hQ (nr_nil P) h.ok, ?_⟩, ?_⟩
  · have := hfind []
    simp only [Node.find_nil, Node.travW, Option.some.injEq, h.top] at this
    simpa using this
  · intro d q
    have hx := travW_entry (g := fun pw w => if w.length ≠ 0 then
      (watchDelMin P (pw.val .recCh) w (.user c) allEvents).1 else w) (K := fun d => decide (d ≠ c))
      (Q := NR P) (Q' := NR P)
      (by
        intro pw w hpw hw
        have := hQ s.world pw [] w hpw hw
        rwa [stopFunc_snd] at this)
      (by
        intro pw w d hpw hw
        split
        · rw [(watchDelMin_spec hP hw hpw.minOK c).2.1 d]
          by_cases hd : d = c <;> simp [hd]
        · next hl =>
          have : w = [] := List.length_eq_zero_iff.1 (by simpa using hl)
          subst this
          simp) (nr_nil P) h.ok q d
    unfold entry
    rw [watchAt, hfind q, hx]
    by_cases hd : d = c <;> simp [hd]

theorem Shape.del_watchAt {nd : Node} (h : Shape P nd) {p : Path} {nd' : Node}
    (hd : nd.del p = some nd') (q : Path) :
    watchAt nd' q = if p <+: q then [] else watchAt nd q := by
  have := Node.del_find nd hd q
  unfold watchAt
  split
  · next hq => rw [this.1 hq]; rfl
  · next hq =>
    rcases this.2 hq with h1 | ⟨h1, w, hw, hl, _⟩
    · rw [h1]
    · rw [h1, hw]
      exact ((h.ok.find_Q hw).eq_nil_of_length hl).symm

theorem prefix_of_get {nd : Node} {p q : Path} (h : nd.get? p = none) (hq : p <+: q) : nd.find q = none := by
  obtain ⟨r, rfl⟩ := hq
  rw [Node.find_append, h]; rfl

/-- Effect of the internal goroutine on the users' entries. -/
theorem internal_effect (O : Oracle) {s : St} (h : Shape P s.root) {ei : EventInfo} (hp : GoodPath ei.path)
    {dt : DirTree} (hd : dt.Named) :
    Shape P (internal P O dt s ei).root ∧
    ∀ d q, entry (internal P O dt s ei).root d q =
      if ei.event = P.remove ∧ ei.path <+: q then none else entry s.root d q := by
  unfold internal
  split
  · next hrm =>
    split
    · next hnone =>
      refine ⟨h, fun d q => ?_⟩
      split
      · next hq => unfold entry watchAt; rw [prefix_of_get hnone hq.2]; simp
      · rfl
    · next nd hnd =>
      have hsome := Node.del_isSome s.root hp.1
      rw [hnd] at hsome
      obtain ⟨root', hroot'⟩ := Option.isSome_iff_exists.1 hsome
      rw [hroot']
      simp only [Option.getD_some]
      refine ⟨⟨Node.del_OK h.ok hroot', ?_⟩, ?_⟩
      · have := h.del_watchAt hroot' []
        rw [watchAt_nil, watchAt_nil] at this
        rw [this, h.top]; simp
      · intro d q
        unfold entry
        rw [h.del_watchAt hroot' q]
        simp only [hrm, true_and]
        split <;> simp
  · next hrm =>
    simp only [hrm, false_and, if_false]
    split
    · exact ⟨h, fun _ _ => rfl⟩
    · next hne =>
      have hset := pickSet_ok h.ok hne
      have h1 := h.add hp
      have hg := Node.add_get_ne_none s.root ei.path
      obtain ⟨nd, hnd⟩ := Option.ne_none_iff_exists'.1 hg
      simp only [hnd]
      have hndok : nd.OK (NR P) noR ei.path := by simpa using h1.ok.get hp.2 hnd
      have key := addDir_entry (O := O) (rec_of_set hset) hd hp.2 hndok s.world
      refine ⟨h1.put hp key.1, fun d q => ?_⟩
      rw [entry_put hnd key.2]
      unfold entry; rw [watchAt_add]

/-! ### Histories -/

/-- Same tree up to the order in which Go iterates over its maps. -/
def Shuffle (nd nd' : Node) : Prop :=
  nd'.OK (fun w => w.Nodup) noR [] ∧
  ∀ q, (nd.find q = none ∧ nd'.find q = none) ∨
    ∃ w w', nd.find q = some w ∧ nd'.find q = some w' ∧ ∀ k, w.get? k = w'.get? k

/-- Labels of steps. -/
inductive Op
  /-- Watch(path or path/..., c, events) returning nil (`true`) or an error. -/
  | watch (p : Path) (isrec : Bool) (c : Nat) (e : Event) (res : Bool)
  | stop (c : Nat)
  /-- The internal goroutine handles a reported directory creation or removal. -/
  | internal (ei : EventInfo)
  /-- Map iteration order changes. -/
  | shuffle

/-- One step of a history.  The outcome of each OS call and of each directory listing is
arbitrary; with `reliable` the calls whose failure the code ignores (those made by recursive
Watch, by Stop and by the internal goroutine) succeed. -/
inductive Step (P : Platform) (reliable : Bool) : St → Op → St → Prop
  | watch {s p isrec c e O dt} : GoodPath p → UserEvents P e → dt.Named →
      (reliable = true → isrec = true → O = .ok) →
      Step P reliable s (.watch p isrec c e (watchOp P O dt s p isrec c e).2) (watchOp P O dt s p isrec c e).1
  | stop {s c O} : (reliable = true → O = .ok) → Step P reliable s (.stop c) (stop P O s c)
  | internal {s ei O dt} : GoodPath ei.path → dt.Named → (reliable = true → O = .ok) →
      Step P reliable s (.internal ei) (internal P O dt s ei)
  | shuffle {s root'} : Shuffle s.root root' → Step P reliable s .shuffle { s with root := root' }

/-- `Steps P reliable s₀ ops s`: the operations `ops` (oldest first) can lead from `s₀` to `s`. -/
inductive Steps (P : Platform) (reliable : Bool) (s₀ : St) : List Op → St → Prop
  | nil : Steps P reliable s₀ [] s₀
  | snoc {ops s op s'} : Steps P reliable s₀ ops s → Step P reliable s op s' →
      Steps P reliable s₀ (ops ++ [op]) s'

/-- A history: operations starting with the empty tree. -/
abbrev Hist (P : Platform) (reliable : Bool) (ops : List Op) (s : St) : Prop := Steps P reliable init ops s

theorem NR.congr {w w' : WP} (h : NR P w) (hn : w'.Nodup) (he : ∀ k, w.get? k = w'.get? k) : NR P w' where
  inv := {
    nodup := hn
    nil_none := by simp only [← he]; exact h.inv.nil_none
    total_bit := by
      intro i
      have : w'.val .nil = w.val .nil := by simp [WP.val, he]
      simp only [this, ← he]; exact h.inv.total_bit i }
  recv := by intro v hv; rw [← he] at hv; exact h.recv v hv
  user := by intro c v hv; rw [← he] at hv; exact h.user c v hv

theorem Shuffle.get {nd nd' : Node} (h : Shuffle nd nd') (q : Path) (k : Key) :
    (watchAt nd' q).get? k = (watchAt nd q).get? k := by
  unfold watchAt
  rcases h.2 q with ⟨h1, h2⟩ | ⟨w, w', h1, h2, h3⟩
  · rw [h1, h2]
  · rw [h1, h2]; exact (h3 k).symm

theorem forall_OK {Q Q' : WP → Prop} {n : Path} : {nd : Node} → nd.OK Q noR n →
    (∀ q w, nd.find q = some w → Q' w) → nd.OK Q' noR n := by
  intro h hq
  exact go _ n h hq
where
  go : (nd : Node) → (n : Path) → nd.OK Q noR n → (∀ q w, nd.find q = some w → Q' w) → nd.OK Q' noR n
    | .mk n' w ch, n, h, hq => by
      simp only [Node.OK] at h ⊢
      refine ⟨h.1, hq [] w (by simp [Node.watch]), goF ch n h.2.2 ?_⟩
      intro b q w' hf
      exact hq (b :: q) w' (by rw [Node.find_cons]; exact hf)
  goF : (f : Forest) → (n : Path) → f.OK Q noR n →
      (∀ b q w, (f.get? b).bind (·.find q) = some w → Q' w) → f.OK Q' noR n
    | .nil, _, _, _ => by simp [Forest.OK]
    | .cons b nd rest, n, h, hq => by
      simp only [Forest.OK] at h ⊢
      have hb : b ≠ [] := h.2.1
      refine ⟨h.1, h.2.1, fun _ => go nd _ (h.2.2.1 hb) ?_, goF rest n h.2.2.2 ?_⟩
      · intro q w hf
        exact hq b q w (by simpa [Forest.get?] using hf)
      · intro b' q w hf
        refine hq b' q w ?_
        have : b ≠ b' := by
          rintro rfl
          rw [(Forest.get?_eq_none rest b).2 h.1] at hf; simp at hf
        simpa [Forest.get?, this] using hf

theorem Shape.shuffle {nd nd' : Node} (h : Shape P nd) (hs : Shuffle nd nd') : Shape P nd' where
  ok := by
    refine forall_OK hs.1 ?_
    intro q w' hw'
    rcases hs.2 q with ⟨_, h2⟩ | ⟨w, w'', h1, h2, h3⟩
    · rw [hw'] at h2; simp at h2
    · rw [hw'] at h2
      simp only [Option.some.injEq] at h2
      subst h2
      exact (h.ok.find_Q h1).congr (hs.1.find_Q hw') h3
  top := by
    have : ∀ k, nd'.watch.get? k = none := by
      intro k
      have := hs.get [] k
      rw [watchAt_nil, watchAt_nil, h.top] at this
      simpa using this
    exact (eq_nil_iff_get? _).2 this

theorem Good.shuffle {s : St} (h : Good P s) {nd' : Node} (hs : Shuffle s.root nd') :
    Good P { s with root := nd' } where
  ok := (h.shape.shuffle hs).ok
  top := (h.shape.shuffle hs).top
  sync := by
    intro p
    rw [h.sync p, WP.total, WP.total, WP.val, WP.val, hs.get p .nil]
  fine := h.fine

theorem Step.good (hP : P.Facts) {s s' : St} {op : Op} (h : Good P s) (hs : Step P true s op s') : Good P s' := by
  cases hs with
  | watch hp he hd hO => exact h.watchOp hP hp _ (hO rfl) _ he.1 he.2 hd
  | stop hO => rw [hO rfl]; exact h.stop hP _
  | internal hp hd hO => rw [hO rfl]; exact h.internal hP hp hd
  | shuffle hs => exact h.shuffle hs

theorem Step.shape (hP : P.Facts) {rel : Bool} {s s' : St} {op : Op} (h : Shape P s.root)
    (hs : Step P rel s op s') : Shape P s'.root := by
  cases hs with
  | watch hp he hd hO => exact (watchOp_effect hP _ h hp _ _ he hd).1
  | stop hO => exact (stop_effect hP _ h _).1
  | internal hp hd hO => exact (internal_effect _ h hp hd).1
  | shuffle hs => exact h.shuffle hs

theorem Steps.good (hP : P.Facts) {ops : List Op} {s₀ s : St} (h₀ : Good P s₀) (h : Steps P true s₀ ops s) :
    Good P s := by
  induction h with
  | nil => exact h₀
  | snoc _ hs ih => exact hs.good hP ih

theorem Steps.shape (hP : P.Facts) {rel : Bool} {ops : List Op} {s₀ s : St} (h₀ : Shape P s₀.root)
    (h : Steps P rel s₀ ops s) : Shape P s.root := by
  induction h with
  | nil => exact h₀
  | snoc _ hs ih => exact hs.shape hP ih

/-- The invariant holds in every reachable state. -/
theorem Hist.good (hP : P.Facts) {ops : List Op} {s : St} (h : Hist P true ops s) : Good P s :=
  Steps.good hP (good_init P) h

theorem Hist.shape (hP : P.Facts) {rel : Bool} {ops : List Op} {s : St} (h : Hist P rel ops s) :
    Shape P s.root :=
  Steps.shape hP (good_init P).shape h

theorem Steps.trans {rel : Bool} {s₀ s₁ s₂ : St} {a b : List Op} (h₁ : Steps P rel s₀ a s₁)
    (h₂ : Steps P rel s₁ b s₂) : Steps P rel s₀ (a ++ b) s₂ := by
  induction h₂ with
  | nil => simpa using h₁
  | snoc _ hs ih => rw [← List.append_assoc]; exact ih.snoc hs

end NonRec
end Verif
