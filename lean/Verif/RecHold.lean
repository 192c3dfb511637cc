/-
An OS watch of the recursive tree that keeps covering a path while other channels come and go: at every moment between the calls that
the tree makes to the watcher (C96).
-/
import Verif.PropsGap

namespace Verif
namespace Rec
open GoMap NonRec Spec

variable {P : Platform}

/-! ### Moments within an operation -/

theorem unwatchAll_only (O : Oracle) (root : Node) (p : Path) : (rs : List Path) → (w : World) →
    ∀ l, Amid w.log (unwatchAll P O root p rs w).1.log l → ∀ t, osRec l t ≠ none → osRec w.log t ≠ none
  | [], w, l, hl, t, h => by rw [Amid.same hl] at h; exact h
  | r :: rs, w, l, hl, t, h => by
    simp only [unwatchAll] at hl
    generalize hc : (if watchIsRecursive P (nodeAt root (p ++ r)) then Call.recUnwatch (nodeAt root (p ++ r)).name
      else .unwatch (nodeAt root (p ++ r)).name) = call at hl
    have hs := unwatchAll_shrinks (P := P) O root p rs (w.exec O call).1
    have h1 : osRec (w.exec O call).1.log t ≠ none → osRec w.log t ≠ none := by
      simp only [World.exec]
      generalize O w.log call = ok
      cases ok with
      | false => simp [osRec]
      | true =>
        rw [← hc]
        split <;> simp only [osRec, Bool.not_true, Bool.false_eq_true, if_false] <;> split <;> simp
    rcases amid_split hl hs.1 with h2 | h2
    · rcases amid_cons h2 with h3 | h3
      · rw [h3] at h; exact h1 h
      · rw [h3.same] at h; exact h
    · exact h1 (unwatchAll_only O root p rs _ l h2 t h)

/-- A watch that exists in the middle of an operation was there before it or is there after it. -/
def Mids (a b : Log) : Prop := ∀ l, Amid a b l → ∀ t, osRec l t ≠ none → osRec a t ≠ none ∨ osRec b t ≠ none

theorem mids_refl (a : Log) : Mids a a := fun l hl t h => by rw [Amid.same hl] at h; exact .inl h

theorem mids_call (a : Log) (x : Call × Bool) : Mids a (x :: a) := by
  intro l hl t h
  rcases amid_cons hl with h1 | h1
  · rw [h1] at h; exact .inr h
  · rw [h1.same] at h; exact .inl h

theorem watchUnder_mids (O : Oracle) (s : St) (q p : Path) (isrec : Bool) (c : Nat) (e : Event) :
    Mids s.world.log (watchUnder P O s q p isrec c e).1.world.log := by
  unfold watchUnder
  simp only
  generalize (if q = p then watchAdd P (nodeAt s.root q) (.user c) e
    else watchAddInactive P (nodeAt s.root q) (.user c) e) = r
  split
  · exact mids_refl _
  · split
    · exact mids_refl _
    · split <;> split <;> exact mids_call _ _

theorem watchTop_mids (O : Oracle) (s : St) (p : Path) (isrec : Bool) (c : Nat) (e : Event) (ha : osRec s.world.log p = none)
    (hb : osRec (watchTop P O s p isrec c e).1.world.log p ≠ none) :
    Mids s.world.log (watchTop P O s p isrec c e).1.world.log := by
  unfold watchTop at hb ⊢
  split
  · simp only
    split
    · exact mids_refl _
    · split
      · split <;> split <;> exact mids_call _ _
      · exact mids_refl _
  · next r _ =>
    simp only
    have h := copyAll_log (P := P) p [r] { s with root := addAt P s.root p c e }
    generalize copyAll P p [r] { s with root := addAt P s.root p c e } = s1 at h ⊢
    split <;> (simp only [World.exec]; rw [h]; exact mids_call _ _)
  · next h1 h2 =>
    simp only at hb
    revert hb
    generalize (nodeAt s.root p).tops = rs
    simp only
    have h := copyAll_log (P := P) p rs { s with root := addAt P s.root p c e }
    generalize copyAll P p rs { s with root := addAt P s.root p c e } = s1 at h ⊢
    simp only at h
    intro hb
    split
    · next hO =>
      rw [if_pos hO] at hb
      simp only at hb
      rw [← h] at ha ⊢
      simp only [World.exec] at hb hO ⊢
      simp only [hO] at hb ⊢
      have h4 := unwatchAll_only (P := P) O s1.root p rs
        { log := (Call.recWatch (nodeAt s1.root p).name (watchTotal P (nodeAt s1.root p)), true) :: s1.world.log, panicked := s1.world.panicked }
      have h5 := unwatchAll_shrinks (P := P) O s1.root p rs
        { log := (Call.recWatch (nodeAt s1.root p).name (watchTotal P (nodeAt s1.root p)), true) :: s1.world.log, panicked := s1.world.panicked }
      generalize unwatchAll P O s1.root p rs _ = y at hb h4 h5 ⊢
      have hname : p = (nodeAt s1.root p).name := by
        have := h4 _ ⟨h5.1, List.suffix_rfl⟩ p hb
        simp only [osRec, Bool.not_true, Bool.false_eq_true, if_false] at this
        split at this
        · next h => exact h
        · exact absurd ha this
      intro l hl t ht
      rcases amid_split hl h5.1 with h6 | h6
      · rcases amid_cons h6 with h7 | h7
        · have h8 : osRec l t ≠ none := ht
          rw [h7] at h8
          simp only [osRec, Bool.not_true, Bool.false_eq_true, if_false] at h8
          split at h8
          · next h => rw [h, ← hname]; exact .inr hb
          · exact .inl h8
        · rw [h7.same] at ht; exact .inl ht
      · have h8 := h4 l h6 t ht
        simp only [osRec, Bool.not_true, Bool.false_eq_true, if_false] at h8
        split at h8
        · next h => rw [h, ← hname]; exact .inr hb
        · exact .inl h8
    · simp only [World.exec]; rw [h]; exact mids_call _ _

/-! ### Whether a watch is recursive -/

/-- Channel `c` needs the watch of `q` to be recursive: it is registered recursively on it, or on a path below. -/
def Wide (P : Platform) (root : Node) (c : Nat) (q : Path) : Prop :=
  uset root (q ++ [[]]) c ≠ 0 ∨ uset root q c &&& P.recursive ≠ 0

theorem val_nil (k : Key) : WP.val [] k = 0 := rfl

theorem ne_nil_of_val {w : WP} {k : Key} (h : w.val k ≠ 0) : w ≠ [] := by rintro rfl; exact h rfl

theorem and_mono_ne {a b r : Event} (h : a ⊑ b) (h0 : a &&& r ≠ 0) : b &&& r ≠ 0 := by
  intro hb
  apply h0
  rw [Event.bext] at hb ⊢
  intro i
  have h1 := hb i
  have h2 := h i
  simp only [BitVec.getLsbD_and, BitVec.getLsbD_zero] at h1 ⊢
  cases ha : BitVec.getLsbD a i
  · simp
  · rw [h2 ha] at h1; simpa using h1

/-- `watchIsRecursive` from the two watchpoints of a node. -/
theorem isRecursive_of {nd : Node} {c : Nat} (hw : RW P nd.watch)
    (h : (inact nd).val (.user c) ≠ 0 ∨ nd.watch.val (.user c) &&& P.recursive ≠ 0) : watchIsRecursive P nd = true := by
  unfold watchIsRecursive
  split
  · rfl
  · next h0 =>
    rcases h with h | h
    · exact absurd (by simpa using h0) (ne_nil_of_val h)
    · simp only [WP.isRecursive, decide_eq_true_eq]
      exact and_mono_ne (hw.val_sub c) h

theorem wide_isRec {root : Node} (hok : ROK (RN P) root) {c : Nat} {q : Path} (h : Wide P root c q) :
    watchIsRecursive P (nodeAt root q) = true := by
  refine isRecursive_of (c := c) ?_ ?_
  · rw [watch_nodeAt]; exact (ROK.watchAt hok (RN.nil P) q).rw
  · rw [watch_nodeAt, inact_nodeAt]; exact h

theorem inact_setInact (w : WP) (nd : Node) : inact (setInact w nd) = w := by
  obtain ⟨n, w0, ch⟩ := nd
  simp [inact, inact?, setInact, Node.child, Forest.get?_put, Node.watch]

theorem inact_setWatch (w : WP) (nd : Node) : inact (nd.setWatch w) = inact nd := by
  obtain ⟨n, w0, ch⟩ := nd; rfl

theorem watch_setInact (w : WP) (nd : Node) : (setInact w nd).watch = nd.watch := by
  obtain ⟨n, w0, ch⟩ := nd; rfl

theorem watch_setWatch (w : WP) (nd : Node) : (nd.setWatch w).watch = w := by
  obtain ⟨n, w0, ch⟩ := nd; rfl

/-- After the removal of another channel the watch is still to be recursive. -/
theorem wide_del {root : Node} (hok : ROK (RN P) root) {c d : Nat} (hcd : c ≠ d) {q : Path} (h : Wide P root c q) :
    watchIsRecursive P (watchDel P (nodeAt root q) (.user d) allEvents).1 = true := by
  have hrn : RN P (watchAt root q) := ROK.watchAt hok (RN.nil P) q
  have h1 := RN.gone_val (P := P) (w := watchAt root q) d c
  have h2 := RN.gone_val (P := P) (w := watchAt root (q ++ [[]])) d c
  rw [if_neg hcd] at h1 h2
  rw [watchDel_fst]
  split
  · refine isRecursive_of (c := c) ?_ ?_
    · rw [watch_setInact, watch_setWatch, watch_nodeAt]; exact (hrn.gone d).rw
    · rw [watch_setInact, watch_setWatch, watch_nodeAt, inact_setInact, inact_nodeAt, h1, h2]
      exact h
  · refine isRecursive_of (c := c) ?_ ?_
    · rw [watch_setWatch, watch_nodeAt]; exact (hrn.gone d).rw
    · rw [watch_setWatch, watch_nodeAt, inact_setWatch, inact_nodeAt, h1]
      exact h

/-- After a registration the watch of the parent is still to be recursive. -/
theorem wide_reg {root : Node} (hok : ROK (RN P) root) {c d : Nat} {q p : Path} (hq : [] ∉ q) (hg : root.get? q ≠ none)
    {E : Event} (hE : Storable P E) (h : Wide P root c q) : watchIsRecursive P (regNode P root q p d E) = true := by
  have hrn : ∀ r, RN P (watchAt root r) := fun r => ROK.watchAt hok (RN.nil P) r
  have hok1 : ROK (RN P) (regAt P root q p d E) := regAt_ok hok hq ((hrn _).add d hE)
  have hn : nodeAt (regAt P root q p d E) q = regNode P root q p d E := by
    obtain ⟨nd, hnd⟩ := Option.ne_none_iff_exists'.1 hg
    unfold regAt
    exact nodeAt_of_get (by have := Node.update_get_append root q (fun _ => regNode P root q p d E) hnd []; simpa using this)
  rw [← hn]
  refine wide_isRec (c := c) hok1 ?_
  have hsub : ∀ r, uset root r c ⊑ uset (regAt P root q p d E) r c := by
    intro r
    unfold uset
    rw [regAt_watchAt hok hq hg d E r]
    split
    · next hr =>
      rw [hr, WP.val, WP.val, get_add_user]
      split
      · next hd => subst hd; exact Event.sub_or_left _ _
      · exact Event.Sub.refl _
    · exact Event.Sub.refl _
  rcases h with h | h
  · left
    intro h0
    apply h
    have := hsub (q ++ [[]])
    rw [h0] at this
    exact Event.sub_zero this
  · exact .inr (and_mono_ne (hsub q) h)

/-! ### The calls of Stop -/

theorem stopCall_val (nd : Node) (d : Diff) (ok : Bool) (l : Log) {q : Path} {v : Event × Bool}
    (h : osRec ((stopCall P nd d, ok) :: l) q = some v) :
    osRec l q = some v ∨ (q = nd.name ∧ v.2 = watchIsRecursive P nd) := by
  unfold stopCall at h
  cases ok with
  | false => left; simpa [osRec] using h
  | true =>
    split at h <;> split at h <;> simp only [osRec, Bool.not_true, Bool.false_eq_true, if_false] at h <;> split at h
    · simp at h
    · exact .inl h
    · simp at h
    · exact .inl h
    · next h1 h2 h3 => rw [← Option.some.inj h]; exact .inr ⟨h3, h2.symm⟩
    · exact .inl h
    · next h1 h2 h3 =>
      rw [← Option.some.inj h]
      refine .inr ⟨h3, ?_⟩
      simpa using h2
    · exact .inl h

mutual
/-- The values of watches that Stop leaves. -/
theorem stopWalk_val (O : Oracle) (c : Nat) {Q : WP → Prop} {R : Node → Prop} {n : Path} :
    (nd : Node) → (s : World) → nd.OK Q R n → ∀ x v, osRec (nd.stopWalk P O c s).1.log x = some v →
      osRec s.log x = some v ∨
      ∃ r nd', nd.get? r = some nd' ∧ x = n ++ r ∧ v.2 = watchIsRecursive P (watchDel P nd' (.user c) allEvents).1
  | .mk n' w ch, s, h, x, v, hv => by
    have hn : (Node.mk n' w ch).name = n := h.name_eq
    simp only [Node.stopWalk] at hv
    split at hv
    · rcases stopWalkF_val O c ch s h.child x v hv with h1 | ⟨b, r, nd', h1, h2, h3⟩
      · exact .inl h1
      · exact .inr ⟨b :: r, nd', h1, h2, h3⟩
    · split at hv
      · exact .inl hv
      · simp only [World.exec] at hv
        rcases stopCall_val _ _ _ _ hv with h1 | ⟨h1, h2⟩
        · exact .inl h1
        · rw [watchDel_name, hn] at h1
          exact .inr ⟨[], _, by simp, by simpa using h1, h2⟩
theorem stopWalkF_val (O : Oracle) (c : Nat) {Q : WP → Prop} {R : Node → Prop} {n : Path} :
    (f : Forest) → (s : World) → f.OK Q R n → ∀ x v, osRec (f.stopWalk P O c s).1.log x = some v →
      osRec s.log x = some v ∨
      ∃ b r nd', (Node.mk n [] f).get? (b :: r) = some nd' ∧ x = n ++ b :: r ∧
        v.2 = watchIsRecursive P (watchDel P nd' (.user c) allEvents).1
  | .nil, s, _, x, v, hv => by simp only [Forest.stopWalk] at hv; exact .inl hv
  | .cons b nd rest, s, h, x, v, hv => by
    simp only [Forest.OK] at h
    simp only [Forest.stopWalk] at hv
    have hrest : ∀ s', osRec (rest.stopWalk P O c s').1.log x = some v → osRec s'.log x = some v ∨
        ∃ b' r nd', (Node.mk n [] (.cons b nd rest)).get? (b' :: r) = some nd' ∧ x = n ++ b' :: r ∧
        v.2 = watchIsRecursive P (watchDel P nd' (.user c) allEvents).1 := by
      intro s' hs'
      rcases stopWalkF_val O c rest s' h.2.2.2 x v hs' with h1 | ⟨b', r, nd', h1, h2, h3⟩
      · exact .inl h1
      · refine .inr ⟨b', r, nd', ?_, h2, h3⟩
        rw [Node.get?_cons] at h1 ⊢
        simp only [Node.child, Forest.get?] at h1 ⊢
        rw [if_neg]
        · exact h1
        · rintro rfl
          rw [(Forest.get?_eq_none rest b).2 h.1] at h1
          simp at h1
    by_cases hb : b = []
    · simp only [if_pos hb] at hv
      exact hrest _ hv
    · simp only [if_neg hb] at hv
      rcases hrest _ hv with h1 | h1
      · rcases stopWalk_val O c nd s (h.2.2.1 hb) x v h1 with h2 | ⟨r, nd', h2, h3, h4⟩
        · exact .inl h2
        · refine .inr ⟨b, r, nd', ?_, by simpa using h3, h4⟩
          rw [Node.get?_cons]
          simp [Node.child, Forest.get?, h2]
      · exact .inr h1
end

/-! ### A watch that carries a path -/

/-- The watch on `tp` is the only one at or above `x`, has the events `F`, and is recursive if `deep`. -/
structure Carries (x tp : Path) (deep : Bool) (F : Event) (l : Log) : Prop where
  one : ∀ t, t <+: x → t ≠ tp → osRec l t = none
  top : ∃ E f, osRec l tp = some (E, f) ∧ F ⊑ E ∧ (deep = true → f = true)

/-- What makes the watch on `tp` carry `F` for `c`: a registration at `q`, at or below `tp`, and where `deep` is asked for, one
that is recursive or strictly below. -/
structure Rests (r : Reg) (c : Nat) (q tp : Path) (deep : Bool) (F : Event) : Prop where
  below : tp <+: q
  reg : ∃ E g, r c q = some (E, g) ∧ F ⊑ E ∧ (deep = true → q ≠ tp ∨ g = true)

theorem ne_zero_bit {e : Event} (h : e ≠ 0) : ∃ i, BitVec.getLsbD e i = true := by
  by_contra hc
  push Not at hc
  apply h
  rw [Event.bext]
  intro i
  have := hc i
  simpa using this

theorem Rests.wide (hP : P.Facts) {s : St} (hs : Sync P s) {r : Reg} (hr : RRefines P s.root r) {c : Nat} {q tp : Path} {F : Event}
    (h : Rests r c q tp true F) (hT : Top P s.root tp) : Wide P s.root c tp := by
  obtain ⟨E, g, h1, _, h3⟩ := h.reg
  have hq : [] ∉ q := (hr.clean c q E g h1).2.2
  have he : entry s.root c q = some (E ||| if g then P.recursive else 0) := by rw [hr.ent c q hq, h1]; rfl
  have hne := (ROK.watchAt hs.book.ok (RN.nil P) q).rw.ne c _ he
  have hu : uset s.root q c = E ||| if g then P.recursive else 0 := by unfold uset WP.val; unfold entry at he; rw [he]; rfl
  by_cases hqt : q = tp
  · right
    have hg := (h3 rfl).resolve_left (fun hx => hx hqt)
    rw [← hqt, hu, if_pos hg]
    intro h0
    apply hP.recursive_ne
    refine Event.sub_zero ?_
    rw [← h0]
    intro i hi
    simp [hi]
  · left
    obtain ⟨i, hi⟩ := ne_zero_bit hne
    have := hs.book.top tp c i hT ⟨q, h.below, hqt, hq, by rw [hu]; exact hi⟩
    intro h0
    rw [h0] at this
    simp at this

theorem Rests.step {ops : List ROp} {op : ROp} {c : Nat} (hc : op ≠ .stop c) {q tp : Path} {deep : Bool} {F : Event}
    (h : Rests (rregOf ops) c q tp deep F) : Rests (rregOf (ops ++ [op])) c q tp deep F := by
  obtain ⟨E, g, h1, h2, h3⟩ := h.reg
  refine ⟨h.below, ?_⟩
  rw [rregOf_snoc]
  generalize rregOf ops = r at h1
  cases op with
  | watch p isrec d e res =>
    cases res with
    | false => exact ⟨E, g, h1, h2, h3⟩
    | true =>
      simp only [rregStep, if_true, Reg.watch]
      split
      · next hd =>
        obtain ⟨rfl, rfl⟩ := hd
        rw [h1]
        refine ⟨_, _, rfl, h2.trans (Event.sub_or_left _ _), fun hd => ?_⟩
        rcases h3 hd with h4 | h4
        · exact .inl h4
        · exact .inr (by simp [h4])
      · exact ⟨E, g, h1, h2, h3⟩
  | stop d =>
    have hd : c ≠ d := by rintro rfl; exact hc rfl
    simp only [rregStep, Reg.stop, if_neg hd]
    exact ⟨E, g, h1, h2, h3⟩
  | shuffle => exact ⟨E, g, h1, h2, h3⟩

theorem watchUnder_val (O : Oracle) {s : St} (hok : ROK (RN P) s.root) {q p : Path} (hq : [] ∉ q) (ht : tot P s.root q ≠ 0)
    (isrec : Bool) (d : Nat) {E : Event} (hE : Storable P E) {c : Nat} {x : Path} {v : Event × Bool}
    (hv : osRec (watchUnder P O s q p isrec d E).1.world.log x = some v) :
    osRec s.world.log x = some v ∨ (x = q ∧ (Wide P s.root c q → v.2 = true)) := by
  have hg := tot_ne_find ht
  have hcall : ∀ ok, osRec ((underCall P s.root q p isrec d E, ok) :: s.world.log) x = some v →
      osRec s.world.log x = some v ∨ (x = q ∧ (Wide P s.root c q → v.2 = true)) := by
    intro ok h
    have hn := regNode_name (P := P) hok hq hg p d E
    cases ok with
    | false => left; simpa [osRec] using h
    | true =>
      unfold underCall at h
      simp only [hn] at h
      by_cases hx : x = q
      · right
        refine ⟨hx, fun hw => ?_⟩
        rw [wide_reg hok hq hg hE hw] at h
        simp only [Bool.or_true, if_true, osRec, Bool.not_true, Bool.false_eq_true, if_false, hx] at h
        rw [← Option.some.inj h]
      · left
        split at h <;> simpa [osRec, hx] using h
  rw [watchUnder_eq P O s q p isrec d E ht] at hv
  split at hv
  · exact .inl hv
  · split at hv <;> exact hcall _ hv

/-- The watch on `tp` still carries the path after the operation. -/
theorem SafeHist.carries_end (hP : P.Facts) {ops : List ROp} {s s' : St} {op : ROp} (h : SafeHist P ops s)
    (hs : RStep P true s op s') (hsafe : Safe (rregOf ops) s.world.log op) {c : Nat} (hc : op ≠ .stop c) {x q tp : Path}
    {deep : Bool} {F : Event} (hx : tp <+: x) (hr : Rests (rregOf ops) c q tp deep F)
    (habove : ∀ p isrec d e res, op = .watch p isrec d e res → p <+: tp → p = tp)
    (ha : Carries x tp deep F s.world.log) : Carries x tp deep F s'.world.log := by
  have h' := h.snoc hs hsafe
  have hsy := h.sync hP
  have hsy' := h'.sync hP
  have hrf := RHist.refines hP h.hist.1 h.hist.2
  have hrf' := RHist.refines hP h'.hist.1 h'.hist.2
  have hr' := hr.step hc
  obtain ⟨E0, f0, t1, t2, t3⟩ := ha.top
  have hT : Top P s.root tp := (hsy.top_iff tp).1 (by rw [t1]; simp)
  have hq : [] ∉ q := by obtain ⟨E, g, h1, _⟩ := hr.reg; exact (hrf.clean c q E g h1).2.2
  obtain ⟨E', g', q1, q2, _⟩ := hr'.reg
  have hT' : Top P s'.root tp := by
    cases hs with
    | @watch p isrec d e O hp he =>
      rw [(hsy.watch hP O hp.2 isrec d he (safeWatch_solid hsy hrf hp.2 hsafe.2) hsafe.1).2.2.1]
      refine .inr ⟨hT, ?_⟩
      by_cases hpt : p <+: tp
      · left
        have := habove p isrec d e _ rfl hpt
        exact ⟨tp, this ▸ List.prefix_rfl, hT.2.1⟩
      · exact .inr hpt
    | @stop d O hO =>
      obtain ⟨t, u1, u2⟩ := (hsy'.mirror hrf').covers q ⟨c, by rw [q1]; simp⟩
      rw [hsy'.top_iff] at u2
      obtain ⟨hok, _, hu⟩ := stop_uset O hsy.book.ok d
      have := ((hsy.book.stop hok hu).2 t).1 u2
      rw [← this.1.unique hT u1 hr.below]; exact u2
    | shuffle hsh =>
      obtain ⟨t, u1, u2⟩ := (hsy'.mirror hrf').covers q ⟨c, by rw [q1]; simp⟩
      have u3 : Top P s.root t := (hsy.top_iff t).1 u2
      rw [hsy'.top_iff] at u2
      rw [← u3.unique hT u1 hr.below]; exact u2
  refine ⟨fun t ht htp => ?_, ?_⟩
  · by_contra hc
    exact htp (((hsy'.top_iff t).1 hc).unique hT' ht hx)
  · obtain ⟨f, hf⟩ := hsy'.osTop tp hT'
    refine ⟨_, f, hf, ?_, fun hd => ?_⟩
    · have hex := ((hsy'.mirror hrf').exact tp _ f hf).2
      intro i hi
      rw [hex i]
      have : asks (rregOf (ops ++ [op])) q i := ⟨c, E', g', q1, q2 i hi⟩
      by_cases hqt : q = tp
      · exact .inl (hqt ▸ this)
      · exact .inr ⟨q, hr.below, hqt, this⟩
    · have hw : Wide P s.root c tp := by
        rw [hd] at hr
        exact hr.wide hP hsy hrf hT
      have hold : ∀ E, osRec s.world.log tp = some (E, f) → f = true := by
        intro E h1
        rw [t1] at h1
        have := t3 hd
        simp only [Option.some.injEq, Prod.mk.injEq] at h1
        rw [← h1.2]; exact this
      cases hs with
      | @watch p isrec d e O hp he =>
        have hfr := (hsy.watch hP O hp.2 isrec d he (safeWatch_solid hsy hrf hp.2 hsafe.2) hsafe.1).2.2.2
        rw [watchOp_eq] at hf hfr
        cases hpar : parentOf P s.root p with
        | none =>
          have h0 := parentOf_none hpar
          have hnp : ¬ p <+: tp := by
            intro hpt
            have := habove p isrec d e _ rfl hpt
            exact hT.2.1 (h0 tp (this ▸ List.prefix_rfl))
          have h1 := hfr h0 tp hnp
          rw [hf] at h1
          exact hold _ h1.symm
        | some q0 =>
          rw [hpar] at hf
          simp only at hf
          obtain ⟨b1, b2, b3⟩ := parentOf_some hpar
          have hadd : ∀ r, watchAt (s.root.add p) r = watchAt s.root r := watchAt_add s.root p
          rcases watchUnder_val (P := P) O (s := { s with root := s.root.add p }) (Node.add_OK hsy.book.ok (RN.nil P) hp.2)
            (q := q0) (p := p) (fun hc => hp.2 (b1.subset hc)) (by simpa [tot, hadd] using b2) isrec d (storable hP he isrec)
            (c := c) hf with h1 | ⟨h1, h2⟩
          · exact hold _ h1
          · exact h2 (by rw [← h1]; simpa [Wide, uset, hadd] using hw)
      | @stop d O hO =>
        have hcd : c ≠ d := by rintro rfl; exact hc rfl
        rcases stopWalk_val (P := P) O d s.root s.world hsy.book.ok tp _ hf with h1 | ⟨r, nd', h1, h2, h3⟩
        · exact hold _ h1
        · rw [List.nil_append] at h2
          subst h2
          change f = _ at h3
          rw [h3, ← nodeAt_of_get h1]
          exact wide_del hsy.book.ok hcd hw
      | shuffle hsh => exact hold _ hf

/-- An operation adds no watch but those it leaves. -/
theorem SafeHist.mids (hP : P.Facts) {ops : List ROp} {s s' : St} {op : ROp} (h : SafeHist P ops s)
    (hs : RStep P true s op s') (hsafe : Safe (rregOf ops) s.world.log op) : Mids s.world.log s'.world.log := by
  have hsy := h.sync hP
  have hsy' := (h.snoc hs hsafe).sync hP
  have hrf := RHist.refines hP h.hist.1 h.hist.2
  cases hs with
  | @watch p isrec d e O hp he =>
    have hw := (hsy.watch hP O hp.2 isrec d he (safeWatch_solid hsy hrf hp.2 hsafe.2) hsafe.1).2.2.1
    have hsp := fun t => hsy'.top_iff t
    rw [watchOp_eq] at hw hsp ⊢
    cases hpar : parentOf P s.root p with
    | none =>
      have h0 := parentOf_none hpar
      rw [hpar] at hw hsp
      simp only at hw hsp ⊢
      refine watchTop_mids (P := P) O { s with root := s.root.add p } p isrec d _ ?_ ?_
      · by_contra hc
        exact ((hsy.top_iff p).1 hc).2.1 (h0 p List.prefix_rfl)
      · rw [hsp p, hw p]
        exact .inl ⟨rfl, h0⟩
    | some q0 => exact watchUnder_mids (P := P) O { s with root := s.root.add p } q0 p isrec d _
  | @stop d O hO =>
    intro l hl t ht
    rcases (stopWalk_one (P := P) O d s.root s.world hsy.book.ok t).1.2 l hl with h2 | h2
    · rw [onWay_eq.1 h2 t List.prefix_rfl] at ht; exact .inl ht
    · rw [onWay_eq.1 h2 t List.prefix_rfl] at ht; exact .inr ht
  | shuffle _ => exact mids_refl _

/-- **The watch that carries a path for a channel carries it at every moment while harmless calls of others run.** -/
theorem SafeHist.carries (hP : P.Facts) {ops : List ROp} {s s' : St} {op : ROp} (h : SafeHist P ops s)
    (hs : RStep P true s op s') (hsafe : Safe (rregOf ops) s.world.log op) {c : Nat} (hc : op ≠ .stop c) {x q tp : Path}
    {deep : Bool} {F : Event} (hx : tp <+: x) (hr : Rests (rregOf ops) c q tp deep F)
    (habove : ∀ p isrec d e res, op = .watch p isrec d e res → p <+: tp → p = tp)
    (ha : Carries x tp deep F s.world.log) {l : Log} (hl : Amid s.world.log s'.world.log l) : Carries x tp deep F l := by
  have hb := h.carries_end hP hs hsafe hc hx hr habove ha
  refine ⟨fun t ht htp => ?_, ?_⟩
  · by_contra hn
    rcases h.mids hP hs hsafe l hl t hn with h1 | h1
    · exact h1 (ha.one t ht htp)
    · exact h1 (hb.one t ht htp)
  · obtain ⟨E1, f1, a1, a2, a3⟩ := ha.top
    obtain ⟨E2, f2, b1, b2, b3⟩ := hb.top
    obtain ⟨t, v, c1, c2, rfl, c3⟩ := (RStep.smooth (RHist.rok hP h.hist.1) hs).2 l hl x
      (fun t v => t = tp ∧ F ⊑ v.1 ∧ (deep = true → v.2 = true)) ⟨tp, (E1, f1), hx, a1, rfl, a2, a3⟩
      ⟨tp, (E2, f2), hx, b1, rfl, b2, b3⟩
    exact ⟨v.1, v.2, c2, c3⟩

end Rec
end Verif
