/-
The users' entries of the non-recursive tree refine the registration table of `Spec`, and
dispatch sends what the table says.
-/
import Verif.NonRecHist
import Verif.Dispatch
import Verif.Spec

namespace Verif
namespace NonRec
open GoMap Spec

variable {P : Platform}

/-! ### Hits -/

/-- What dispatch relies on: the total contains every channel's set and has no `omit` bit. -/
structure Sound (P : Platform) (w : WP) : Prop where
  nodup : w.Nodup
  user : ∀ c v, w.get? (.user c) = some v → v &&& P.omitted = 0 ∧ v ⊑ w.val .nil
  tot : w.val .nil &&& P.omitted = 0

theorem NR.sound {w : WP} (h : NR P w) : Sound P w where
  nodup := h.inv.nodup
  user := by
    intro c v hv
    have h1 : v &&& P.omitted = 0 := (h.user c v hv).2
    have h2 : (v &^ P.omitted) ⊑ w.val .nil := by
      have := h.inv.val_sub (k := .user c) nofun
      rwa [val_of_some hv] at this
    refine ⟨h1, ?_⟩
    generalize w.val .nil = t at *
    clear hv h
    ebits
  tot := by
    apply Event.zero_of_getLsbD
    intro i
    rw [BitVec.getLsbD_and, Bool.and_eq_false_iff]
    by_contra hc
    have h4 := (h.inv.total_bit i).1 (by simpa using (not_or.1 hc).1)
    exact (not_or.1 hc).2 h4.1

theorem Shape.sound {nd : Node} (h : Shape P nd) (q : Path) : Sound P (watchAt nd q) := (h.nr q).sound

theorem matches_total {w : WP} (h : Sound P w) {c : Nat} {v m : Event} (hv : w.get? (.user c) = some v)
    (hm : WP.matchesEv P v m = true) : WP.matchesEv P (w.val .nil) m = true := by
  obtain ⟨h1, h2⟩ := h.user c v hv
  have h3 := h.tot
  generalize w.val .nil = t at h2 h3 ⊢
  clear h hv
  unfold WP.matchesEv at hm ⊢
  split
  · next hw =>
    simp only [hw, if_true, Bool.and_eq_true, Bool.or_eq_true, decide_eq_true_eq] at hm ⊢
    obtain ⟨h5, h6⟩ := hm
    refine ⟨?_, ?_⟩
    · rw [h3]; rw [h1] at h5; exact h5
    · clear h5
      rcases h6 with h6 | h6
      · exact .inl (by ebits)
      · exact .inr (by ebits)
  · next hw =>
    rw [if_neg hw] at hm
    simp only [Bool.and_eq_true, decide_eq_true_eq] at hm ⊢
    obtain ⟨h5, h6⟩ := hm
    exact ⟨by rw [h3]; rw [h1] at h5; exact h5, by clear h5; ebits⟩

theorem hit_user {w : WP} (h : Sound P w) (c : Nat) (m : Event) :
    w.hit P (.user c) m = match w.get? (.user c) with
      | none => false
      | some v => WP.matchesEv P v m := by
  unfold WP.hit
  cases hv : w.get? (.user c) with
  | none => rfl
  | some v =>
    simp only [ne_eq, reduceCtorEq, not_false_eq_true, decide_true, Bool.true_and]
    cases hm : WP.matchesEv P v m with
    | false => simp
    | true => simp [matches_total h hv hm]

/-- On Windows: the event is one of the platform-independent events rather than a
`FileAction*`/`FileNotifyChange*` one, for which other matching rules apply.  No restriction on
the other platforms. -/
def PlainEvent (P : Platform) (E : Event) : Prop :=
  P.windows = true → (E ||| P.recursive) &&& (P.fileActionAll ||| P.changeModified) = 0

theorem matches_iff {v m : Event} (hw : P.windows = true → m &&& P.changeModified = 0) (hv : v &&& P.omitted = 0)
    (hm : m &&& P.omitted = 0) : WP.matchesEv P v m = decide (m ⊑ v) := by
  unfold WP.matchesEv
  split
  · next h =>
    have h1 := hw h
    have h2 : v &&& P.changeModified &&& m = 0 := by clear hv hm hw; ebits
    rw [h2, hv, hm]
    simp [Event.sub_iff_and]
  · simp only [hv, hm, BitVec.xor_self, Event.sub_iff_and]
    simp

theorem PlainEvent.mask {ei : EventInfo} (h : PlainEvent P ei.event) : WP.eventmask P ei 0 = ei.event := by
  unfold WP.eventmask
  simp only
  split
  · next hw =>
    have h1 := h hw
    have h2 : (ei.event ||| 0) &&& P.fileActionAll = 0 := by
      generalize ei.event = E at h1; clear h; ebits
    rw [if_neg (by simpa using h2)]; simp
  · simp

theorem PlainEvent.maskRec {ei : EventInfo} (h : PlainEvent P ei.event) :
    WP.eventmask P ei P.recursive = ei.event ||| P.recursive := by
  unfold WP.eventmask
  simp only
  split
  · next hw =>
    have h1 := h hw
    have h2 : (ei.event ||| P.recursive) &&& P.fileActionAll = 0 := by
      generalize ei.event = E at h1; clear h; ebits
    rw [if_neg (by simpa using h2)]
  · rfl

theorem PlainEvent.modified {E : Event} (h : PlainEvent P E) :
    (P.windows = true → E &&& P.changeModified = 0) ∧
    (P.windows = true → (E ||| P.recursive) &&& P.changeModified = 0) := by
  constructor <;> intro hw <;> have h1 := h hw <;> clear h <;> ebits

/-- The internal channel is never sent a user event. -/
theorem hit_rec (hP : P.Facts) {w : WP} (h : NR P w) {m : Event} (hm : m &&& P.omitted = 0) :
    w.hit P .recCh m = false := by
  unfold WP.hit
  cases hv : w.get? .recCh with
  | none => rfl
  | some v =>
    have h1 := h.recv v hv
    have h2 : v &&& P.omitted ≠ m &&& P.omitted := by
      have := hP.omit_ne
      clear hv h
      rw [hm]
      ebits
    have : WP.matchesEv P v m = false := by
      unfold WP.matchesEv
      split <;> simp <;> exact fun hh => absurd hh h2
    simp [this]

theorem hit_nil_key (w : WP) (m : Event) : w.hit P .nil m = false := by
  unfold WP.hit; cases w.get? .nil <;> simp

/-! ### Counting the sends of the whole tree -/

theorem count_node {root : Node} (h : ∀ q, Sound P (watchAt root q)) (ei : EventInfo) (extra : Event) (k : Key) (q : Path) :
    ((root.get? q).map fun nd => (nd.watch.dispatch P ei extra).count k).getD 0 =
      if (watchAt root q).hit P k (WP.eventmask P ei extra) then 1 else 0 := by
  cases hg : root.get? q with
  | none =>
    have : watchAt root q = [] := by
      unfold watchAt; rw [(Node.find_eq_none _ _).2 hg]; rfl
    rw [this]; simp [WP.hit]
  | some nd =>
    have : watchAt root q = nd.watch := by
      unfold watchAt Node.find; rw [hg]; rfl
    have hn := (h q).nodup
    rw [this] at hn ⊢
    simp [WP.count_dispatch P hn]

/-- The number of copies sent to a key. -/
theorem count_sends {root : Node} (h : ∀ q, Sound P (watchAt root q)) {ei : EventInfo} (hlen : 2 ≤ ei.path.length) (k : Key) :
    (sends P root ei).count k =
      (List.range ei.path.dropLast.length).countP
        (fun i => (watchAt root (ei.path.dropLast.take i)).hit P k (WP.eventmask P ei P.recursive)) +
      ((if (watchAt root ei.path.dropLast).hit P k (WP.eventmask P ei 0) then 1 else 0) +
       (if (watchAt root ei.path).hit P k (WP.eventmask P ei 0) then 1 else 0)) := by
  have hne : ei.path.dropLast ≠ [] := by
    intro h0
    have := congrArg List.length h0
    rw [List.length_dropLast] at this; simp at this; omega
  have hp0 : ei.path ≠ [] := by rintro h0; simp [h0] at hlen
  have hpath : ei.path.dropLast ++ [ei.path.getLastD []] = ei.path := by
    rw [List.getLastD_eq_getLast?, List.getLast?_eq_some_getLast hp0]
    exact List.dropLast_concat_getLast hp0
  unfold sends
  simp only [List.count_append]
  rw [Node.walkPath_visited, Node.walkPath_base _ hne]
  congr 1
  · apply count_flatMap_filterMap
    intro i _
    exact count_node h ei P.recursive k _
  · have h1 := count_node h ei 0 k ei.path.dropLast
    have h2 := count_node h ei 0 k ei.path
    have h3 : root.get? ei.path = (root.get? ei.path.dropLast).bind
        (fun nd => nd.child.get? (ei.path.getLastD [])) := by
      conv_lhs => rw [← hpath]
      rw [Node.get?_append]
      cases root.get? ei.path.dropLast with
      | none => rfl
      | some nd => simp [Node.get?_cons]
    rw [h3] at h2
    rw [← h1, ← h2]
    cases root.get? ei.path.dropLast with
    | none => simp
    | some nd =>
      simp only [List.count_append, Option.map_some, Option.getD_some, Option.bind_some]
      cases nd.child.get? (ei.path.getLastD []) <;> simp

/-! ### Refinement of the registration table -/

/-- How a table entry is stored. -/
def enc (P : Platform) : Option (Event × Bool) → Option Event :=
  Option.map fun x => x.1 ||| (if x.2 then P.recursive else 0)

/-- The effect of an operation on the table.  A failed Watch does not change it. -/
def regStep (P : Platform) (r : Reg) : Op → Reg
  | .watch p isrec c e res => if res then r.watch c p e isrec else r
  | .stop c => r.stop c
  | .internal ei => if ei.event = P.remove then r.remove ei.path else r
  | .shuffle => r

/-- The table after a history. -/
def regOf (P : Platform) (ops : List Op) : Reg := ops.foldl (regStep P) Reg.empty

/-- The operation is not a non-recursive Watch that returned an error. -/
def NoPlainFail : Op → Prop
  | .watch _ isrec _ _ res => isrec = true ∨ res = true
  | _ => True

/-- The operation is not a non-recursive Watch with `c` that returned an error. -/
def NoFail (c : Nat) : Op → Prop
  | .watch _ isrec d _ res => d = c → isrec = true ∨ res = true
  | _ => True

theorem NoPlainFail.of {op : Op} (h : NoPlainFail op) (c : Nat) : NoFail c op := by
  cases op with
  | watch p isrec d e res => exact fun _ => h
  | _ => trivial

/-- The tree stores the column of `c`. -/
structure Refines (P : Platform) (c : Nat) (root : Node) (r : Reg) : Prop where
  ent : ∀ q, entry root c q = enc P (r c q)
  clean : ∀ q e f, r c q = some (e, f) → e &&& P.internal = 0

theorem enc_watch (P : Platform) (r : Reg) (c : Nat) (p : Path) (e : Event) (isrec : Bool) :
    enc P (r.watch c p e isrec c p) = some (((enc P (r c p)).getD 0) ||| e ||| (if isrec then P.recursive else 0)) := by
  unfold Reg.watch enc
  simp only [and_self, if_true]
  cases r c p with
  | none => simp
  | some x =>
    obtain ⟨e', f⟩ := x
    simp only [Option.map_some, Option.getD_some, Option.some.injEq]
    cases f <;> cases isrec <;> simp <;> ebits

theorem Refines.step (hP : P.Facts) {rel : Bool} {s s' : St} {op : Op} {r : Reg} {d : Nat} (hs : Shape P s.root)
    (h : Refines P d s.root r) (hst : Step P rel s op s') (hop : NoFail d op) :
    Refines P d s'.root (regStep P r op) := by
  cases hst with
  | @watch p isrec c e O dt hp he hd hO =>
    have hx := (watchOp_effect hP O hs hp isrec c he hd).2
    simp only [regStep]
    cases hres : (watchOp P O dt s p isrec c e).2 with
    | true =>
      simp only [hres, if_true] at hx ⊢
      constructor
      · intro q
        rw [hx d q]
        split
        · next hdq =>
          obtain ⟨rfl, rfl⟩ := hdq
          have hval : (watchAt s.root q).val (.user d) = (enc P (r d q)).getD 0 := by
            rw [← h.ent q]; rfl
          rw [enc_watch, hval]
        · next hdq =>
          rw [h.ent q]; simp [Reg.watch, hdq]
      · intro q e' f hr
        unfold Reg.watch at hr
        split at hr
        · next hdq =>
          obtain ⟨rfl, rfl⟩ := hdq
          have hi := he.2
          split at hr
          · simp only [Option.some.injEq, Prod.mk.injEq] at hr
            rw [← hr.1]; exact hi
          · next e₀ f₀ hr₀ =>
            simp only [Option.some.injEq, Prod.mk.injEq] at hr
            have := h.clean _ _ _ hr₀
            rw [← hr.1]
            clear hx hr hr₀ h hs hres hop
            ebits
        · exact h.clean _ _ _ hr
    | false =>
      simp only [hres, Bool.false_eq_true, if_false] at hx ⊢
      refine ⟨fun q => ?_, h.clean⟩
      rw [hx d q]
      split
      · next hdq =>
        obtain ⟨rfl, rfl⟩ := hdq
        have hrec : isrec = true := by
          rcases hop rfl with h1 | h1
          · exact h1
          · rw [hres] at h1; exact absurd h1 (by simp)
        rw [hrec, if_pos rfl, h.ent]
      · exact h.ent q
  | @stop c O hO =>
    have hx := (stop_effect hP O hs c).2
    constructor
    · intro q
      rw [hx d q, h.ent]
      simp only [regStep, Reg.stop]; split <;> simp [enc]
    · intro q e f hr
      simp only [regStep, Reg.stop] at hr
      split at hr
      · simp at hr
      · exact h.clean _ _ _ hr
  | @internal ei O dt hp hd hO =>
    have hx := (internal_effect O hs hp hd).2
    simp only [regStep]
    by_cases hrm : ei.event = P.remove
    · simp only [hrm, if_true, true_and] at hx ⊢
      constructor
      · intro q
        rw [hx d q, h.ent]
        simp only [Reg.remove]; split <;> simp [enc]
      · intro q e f hr
        simp only [Reg.remove] at hr
        split at hr
        · simp at hr
        · exact h.clean _ _ _ hr
    · simp only [hrm, false_and, if_false] at hx ⊢
      exact ⟨fun q => by rw [hx d q, h.ent], h.clean⟩
  | shuffle hsh =>
    exact ⟨fun q => by
      show entry _ d q = enc P (r d q)
      rw [← h.ent q]; exact hsh.get q (.user d), h.clean⟩

theorem refines_init (P : Platform) (c : Nat) : Refines P c init.root Reg.empty := by
  constructor
  · intro q
    have : watchAt (Node.new []) q = [] := by
      cases q <;> simp [watchAt, Node.find, Node.new, Node.get?, Node.watch, Forest.get?]
    simp [entry, init, this, Reg.empty, enc]
  · intro q e f hr; simp [Reg.empty] at hr

theorem Hist.refines (hP : P.Facts) {rel : Bool} {ops : List Op} {s : St} (h : Hist P rel ops s) {c : Nat}
    (hops : ∀ op ∈ ops, NoFail c op) : Refines P c s.root (regOf P ops) := by
  induction h with
  | nil => exact refines_init P c
  | @snoc ops s op s' h' hs ih =>
    have := (ih (fun o ho => hops o (by simp [ho]))).step hP (Hist.shape hP h') hs (hops op (by simp))
    simpa [regOf, List.foldl_append] using this

theorem hit_wants {root : Node} {r : Reg} {q : Path} {c : Nat} (hs : Sound P (watchAt root q))
    (he : entry root c q = enc P (r c q)) {ei : EventInfo} (hE : ei.event &&& P.internal = 0)
    (hpl : PlainEvent P ei.event) :
    (watchAt root q).hit P (.user c) (WP.eventmask P ei 0) = wants r c ei.event q := by
  rw [hit_user hs]
  unfold entry at he
  have hm : WP.eventmask P ei 0 = ei.event := hpl.mask
  rw [hm]
  unfold wants
  rw [he]
  cases hr : r c q with
  | none => simp [enc]
  | some x =>
    obtain ⟨ev, f⟩ := x
    have hv := (hs.user c _ (by rw [he, hr]; rfl)).1
    simp only [enc, Option.map_some]
    rw [matches_iff hpl.modified.1 hv (omit_of_internal hE)]
    congr 1
    apply propext
    clear hm hpl
    generalize ei.event = E at hE ⊢
    clear hv he hr hs
    cases f
    · simp
    · simp only [if_true]
      constructor <;> intro hh <;> ebits

theorem hit_wantsBelow (hP : P.Facts) {root : Node} {r : Reg} {q : Path} {c : Nat} (hs : Sound P (watchAt root q))
    (he : entry root c q = enc P (r c q)) (hcl : ∀ e f, r c q = some (e, f) → e &&& P.internal = 0)
    {ei : EventInfo} (hE : ei.event &&& P.internal = 0) (hpl : PlainEvent P ei.event) :
    (watchAt root q).hit P (.user c) (WP.eventmask P ei P.recursive) = wantsBelow r c ei.event q := by
  rw [hit_user hs]
  unfold entry at he
  have hm : WP.eventmask P ei P.recursive = ei.event ||| P.recursive := hpl.maskRec
  rw [hm]
  unfold wantsBelow
  rw [he]
  cases hr : r c q with
  | none => simp [enc]
  | some x =>
    obtain ⟨ev, f⟩ := x
    have hv := (hs.user c _ (by rw [he, hr]; rfl)).1
    have hcl := hcl _ _ hr
    have hmo : (ei.event ||| P.recursive) &&& P.omitted = 0 := by
      have := hP.rec_omit
      generalize ei.event = E at hE ⊢
      clear hv he hr hs hm hcl
      ebits
    simp only [enc, Option.map_some]
    rw [matches_iff hpl.modified.2 hv hmo]
    clear hm hpl
    generalize ei.event = E at hE ⊢
    have hne := hP.recursive_ne
    clear hv he hr hs hmo
    cases f
    · simp only [Bool.false_eq_true, if_false, Bool.false_and, decide_eq_false_iff_not]
      intro hh
      ebits
    · simp only [if_true, Bool.true_and]
      congr 1
      apply propext
      constructor <;> intro hh <;> ebits

theorem Refines.hit_parent {root : Node} {r : Reg} {c : Nat} (hs : Shape P root)
    (h : Refines P c root r) {ei : EventInfo} (hE : ei.event &&& P.internal = 0)
    (hpl : PlainEvent P ei.event) (q : Path) :
    (watchAt root q).hit P (.user c) (WP.eventmask P ei 0) = wants r c ei.event q :=
  hit_wants (hs.sound q) (h.ent q) hE hpl

theorem Refines.hit_above (hP : P.Facts) {root : Node} {r : Reg} {c : Nat} (hs : Shape P root)
    (h : Refines P c root r) {ei : EventInfo} (hE : ei.event &&& P.internal = 0)
    (hpl : PlainEvent P ei.event) (q : Path) :
    (watchAt root q).hit P (.user c) (WP.eventmask P ei P.recursive) = wantsBelow r c ei.event q :=
  hit_wantsBelow hP (hs.sound q) (h.ent q) (fun e f hr => h.clean _ _ _ hr) hE hpl

end NonRec
end Verif
