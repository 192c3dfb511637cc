/-
Properties of the recursive tree about the OS watches it keeps: C07 (repeat), C25, C26, C27, C29.
-/
import Verif.SpecRec
import Verif.RecStopOs
import Verif.RecEx

namespace Verif
namespace Rec
open GoMap NonRec Spec

variable {P : Platform}

/-! ### The table and the bookkeeping -/

theorem uset_enc {root : Node} {r : Reg} (hr : RRefines P root r) {q : Path} (hq : [] ∉ q) (d : Nat) :
    uset root q d = (enc P (r d q)).getD 0 := by
  have := hr.ent d q hq
  unfold uset WP.val
  unfold entry at this
  rw [this]

theorem recursive_internal (P : Platform) : P.recursive ⊑ P.internal := by
  unfold Platform.internal; exact Event.sub_or_left _ _

theorem clean_bit {e : Event} (h : e &&& P.internal = 0) {i : Nat} (hi : BitVec.getLsbD e i = true) :
    BitVec.getLsbD P.internal i = false := by
  have h1 : BitVec.getLsbD (e &&& P.internal) i = false := by rw [h]; simp
  rw [BitVec.getLsbD_and, hi, Bool.true_and] at h1
  exact h1

/-- Bits of what is stored for a channel. -/
theorem uset_bit {root : Node} {r : Reg} (hr : RRefines P root r) {q : Path} (hq : [] ∉ q) (d i : Nat) :
    (BitVec.getLsbD P.internal i = false ∧ BitVec.getLsbD (uset root q d) i = true) ↔
      ∃ E f, r d q = some (E, f) ∧ BitVec.getLsbD E i = true := by
  rw [uset_enc hr hq]
  constructor
  · rintro ⟨h1, h2⟩
    cases hrd : r d q with
    | none => rw [hrd] at h2; simp [enc] at h2
    | some v =>
      obtain ⟨E, f⟩ := v
      refine ⟨E, f, rfl, ?_⟩
      rw [hrd] at h2
      simp only [enc, Option.map_some, Option.getD_some, BitVec.getLsbD_or, Bool.or_eq_true] at h2
      rcases h2 with h2 | h2
      · exact h2
      · split at h2
        · have := recursive_internal P i h2
          rw [h1] at this; simp at this
        · simp at h2
  · rintro ⟨E, f, h1, h2⟩
    have hc := (hr.clean d q E f h1).1
    refine ⟨clean_bit hc h2, ?_⟩
    rw [h1]
    simp only [enc, Option.map_some, Option.getD_some, BitVec.getLsbD_or, h2, Bool.true_or]

theorem asks_iff {root : Node} {r : Reg} (hr : RRefines P root r) {q : Path} (hq : [] ∉ q) (i : Nat) :
    asks r q i ↔ BitVec.getLsbD P.internal i = false ∧ ∃ d, BitVec.getLsbD (uset root q d) i = true := by
  constructor
  · rintro ⟨d, E, f, h1⟩
    have := (uset_bit hr hq d i).2 ⟨E, f, h1⟩
    exact ⟨this.1, d, this.2⟩
  · rintro ⟨h1, d, h2⟩
    obtain ⟨E, f, h3⟩ := (uset_bit hr hq d i).1 ⟨h1, h2⟩
    exact ⟨d, E, f, h3⟩

theorem asks_good {root : Node} {r : Reg} (hr : RRefines P root r) {q : Path} {i : Nat} (h : asks r q i) : [] ∉ q := by
  obtain ⟨d, E, f, h1, _⟩ := h
  exact (hr.clean d q E f h1).2.2

theorem below_asks {root : Node} {r : Reg} (hr : RRefines P root r) {q : Path} (i : Nat) :
    asksBelow r q i ↔ BitVec.getLsbD P.internal i = false ∧ ∃ d, Below root q d i := by
  constructor
  · rintro ⟨x, h1, h2, h3⟩
    have hx := asks_good hr h3
    obtain ⟨h4, d, h5⟩ := (asks_iff hr hx i).1 h3
    exact ⟨h4, d, x, h1, h2, hx, h5⟩
  · rintro ⟨h1, d, x, h2, h3, h4, h5⟩
    exact ⟨x, h2, h3, (asks_iff hr h4 i).2 ⟨h1, d, h5⟩⟩

theorem Book.inactive_iff {root : Node} (h : Book P root) {q : Path} (hq : Top P root q) (d i : Nat) :
    BitVec.getLsbD (uset root (q ++ [[]]) d) i = true ↔ Below root q d i :=
  ⟨h.sub q d i hq.1, h.top q d i hq⟩

theorem registered_tot {root : Node} {r : Reg} (hok : ROK (RN P) root) (hr : RRefines P root r) {q : Path}
    (h : Registered r q) : [] ∉ q ∧ tot P root q ≠ 0 := by
  obtain ⟨c, hc⟩ := h
  obtain ⟨⟨E, f⟩, hE⟩ := Option.ne_none_iff_exists'.1 hc
  have hq := (hr.clean c q E f hE).2.2
  refine ⟨hq, fun h0 => ?_⟩
  have h1 := hr.ent c q hq
  rw [hE] at h1
  have h2 := (ROK.watchAt hok (RN.nil P) q).rw.ne c _ h1
  apply h2
  have := ((tot_eq_zero hok q).1 h0 c).1
  unfold uset WP.val at this
  unfold entry at h1
  rw [h1] at this
  exact this

theorem Sync.top_iff {s : St} (h : Sync P s) (q : Path) : osRec s.world.log q ≠ none ↔ Top P s.root q := by
  constructor
  · intro h1
    by_contra h2
    exact h1 (h.osNone q h2)
  · intro h1
    obtain ⟨f, hf⟩ := h.osTop q h1
    rw [hf]; simp

theorem Sync.mirror {s : St} (h : Sync P s) {r : Reg} (hr : RRefines P s.root r) : Mirror r s.world.log := by
  refine ⟨?_, ?_, ?_⟩
  · intro q hq
    obtain ⟨h1, h2⟩ := registered_tot h.book.ok hr hq
    obtain ⟨t, h3, h4⟩ := exists_top h1 h2
    exact ⟨t, h3, (h.top_iff t).2 h4⟩
  · intro q E f hE
    have hq : Top P s.root q := (h.top_iff q).1 (by rw [hE]; simp)
    obtain ⟨f', hf'⟩ := h.osTop q hq
    rw [hE] at hf'
    simp only [Option.some.injEq, Prod.mk.injEq] at hf'
    rw [hf'.1]
    refine ⟨hq.2.1, fun i => ?_⟩
    rw [tot_bit h.book.ok, asks_iff hr hq.1, below_asks hr]
    simp only [h.book.inactive_iff hq]
    constructor
    · rintro ⟨h1, d, h2 | h2⟩
      · exact .inl ⟨h1, d, h2⟩
      · exact .inr ⟨h1, d, h2⟩
    · rintro (⟨h1, d, h2⟩ | ⟨h1, d, h2⟩)
      · exact ⟨h1, d, .inl h2⟩
      · exact ⟨h1, d, .inr h2⟩
  · intro q x hq hx hqx
    exact ((h.top_iff q).1 hq).unique ((h.top_iff x).1 hx) hqx (List.prefix_refl _)

theorem mirror_covered {r : Reg} {log : Log} (h : Mirror r log) (c : Nat) : Covered r log c := by
  intro q E f hE
  obtain ⟨t, h1, h2⟩ := h.covers q ⟨c, by rw [hE]; simp⟩
  obtain ⟨⟨E', f'⟩, h3⟩ := Option.ne_none_iff_exists'.1 h2
  refine ⟨t, E', f', h1, h3, fun i hi => ?_⟩
  refine ((h.exact t E' f' h3).2 i).2 ?_
  by_cases hqt : q = t
  · subst hqt; exact .inl ⟨c, E, f, hE, hi⟩
  · exact .inr ⟨q, h1, hqt, c, E, f, hE, hi⟩

/-! ### Safe stops -/

theorem act_bit {s : St} (h : Sync P s) {r : Reg} (hr : RRefines P s.root r) {q : Path} (hq : [] ∉ q) (i : Nat) :
    BitVec.getLsbD ((watchAt s.root q).total P) i = true ↔ asks r q i := by
  rw [(ROK.watchAt h.book.ok (RN.nil P) q).total_bit, asks_iff hr hq]; rfl

theorem nest_bit {s : St} (h : Sync P s) {r : Reg} (hr : RRefines P s.root r) {q : Path} (hq : Top P s.root q) (i : Nat) :
    BitVec.getLsbD ((watchAt s.root (q ++ [[]])).total P) i = true ↔ asksBelow r q i := by
  rw [(ROK.watchAt h.book.ok (RN.nil P) _).total_bit, below_asks hr]
  simp only [← h.book.inactive_iff hq]; rfl

theorem asks_stop {r : Reg} {c : Nat} {q : Path} {i : Nat} :
    asks (r.stop c) q i ↔ ∃ d E f, d ≠ c ∧ r d q = some (E, f) ∧ BitVec.getLsbD E i = true := by
  constructor
  · rintro ⟨d, E, f, h1, h2⟩
    unfold Reg.stop at h1
    split at h1
    · simp at h1
    · next hd => exact ⟨d, E, f, hd, h1, h2⟩
  · rintro ⟨d, E, f, hd, h1, h2⟩
    exact ⟨d, E, f, by unfold Reg.stop; rw [if_neg hd]; exact h1, h2⟩

theorem gone_act_bit {s : St} (h : Sync P s) {r : Reg} (hr : RRefines P s.root r) (c : Nat) {q : Path} (hq : [] ∉ q)
    (i : Nat) : BitVec.getLsbD ((gone P (watchAt s.root q) c).total P) i = true ↔ asks (r.stop c) q i := by
  rw [((ROK.watchAt h.book.ok (RN.nil P) q).gone c).total_bit, asks_stop]
  constructor
  · rintro ⟨h1, d, h2⟩
    rw [RN.gone_val] at h2
    split at h2
    · simp at h2
    · next hd =>
      obtain ⟨E, f, h3⟩ := (uset_bit hr hq d i).1 ⟨h1, h2⟩
      exact ⟨d, E, f, hd, h3⟩
  · rintro ⟨d, E, f, hd, h3⟩
    have := (uset_bit hr hq d i).2 ⟨E, f, h3⟩
    refine ⟨this.1, d, ?_⟩
    rw [RN.gone_val, if_neg hd]; exact this.2

theorem gone_nest_bit {s : St} (h : Sync P s) {r : Reg} (hr : RRefines P s.root r) (c : Nat) {q : Path}
    (hq : Top P s.root q) (i : Nat) :
    BitVec.getLsbD ((gone P (watchAt s.root (q ++ [[]])) c).total P) i = true ↔ asksBelow (r.stop c) q i := by
  rw [((ROK.watchAt h.book.ok (RN.nil P) _).gone c).total_bit]
  constructor
  · rintro ⟨h1, d, h2⟩
    rw [RN.gone_val] at h2
    split at h2
    · simp at h2
    · next hd =>
      obtain ⟨x, h3, h4, h5, h6⟩ := (h.book.inactive_iff hq d i).1 h2
      obtain ⟨E, f, h7⟩ := (uset_bit hr h5 d i).1 ⟨h1, h6⟩
      exact ⟨x, h3, h4, asks_stop.2 ⟨d, E, f, hd, h7⟩⟩
  · rintro ⟨x, h3, h4, h5⟩
    obtain ⟨d, E, f, hd, h7, h8⟩ := asks_stop.1 h5
    have hx := (hr.clean d x E f h7).2.2
    have := (uset_bit hr hx d i).2 ⟨E, f, h7, h8⟩
    refine ⟨this.1, d, ?_⟩
    rw [RN.gone_val, if_neg hd]
    exact (h.book.inactive_iff hq d i).2 ⟨x, h3, h4, hx, this.2⟩

theorem safeStop_iff {s : St} (h : Sync P s) {r : Reg} (hr : RRefines P s.root r) (c : Nat) {q : Path}
    (hq : Top P s.root q) : SafeStop r c q ↔ StopFine P s.root c q := by
  have a1 := act_bit h hr hq.1
  have a2 := gone_act_bit h hr c hq.1
  have a3 := nest_bit h hr hq
  have a4 := gone_nest_bit h hr c hq
  unfold StopFine SafeStop
  have sx := (ROK.watchAt h.book.ok (RN.nil P) (q ++ [[]])).gone_sub c
  constructor
  · rintro (⟨i, h1, h2⟩ | h1 | h1) e1 e2
    · exfalso
      rw [← a1, ← e1, a2] at h1
      exact h2 h1
    · exfalso
      refine e2 (Event.Sub.antisymm sx fun i hi => ?_)
      exact (a4 i).2 (h1 i ((a3 i).1 hi))
    · exact fun i hi => (a4 i).2 (h1 i ((a1 i).1 hi))
  · intro hf
    by_cases h1 : ∃ i, asks r q i ∧ ¬ asks (r.stop c) q i
    · exact .inl h1
    · by_cases h2 : ∀ i, asksBelow r q i → asksBelow (r.stop c) q i
      · exact .inr (.inl h2)
      · refine .inr (.inr fun i hi => ?_)
        refine (a4 i).1 (hf ?_ ?_ i ((a1 i).2 hi))
        · refine Event.Sub.antisymm ((ROK.watchAt h.book.ok (RN.nil P) q).gone_sub c) fun j hj => ?_
          by_contra h3
          exact h1 ⟨j, (a1 j).1 hj, fun h4 => h3 ((a2 j).2 h4)⟩
        · intro he
          apply h2
          intro j hj
          rw [← a4, he, a3]; exact hj

/-! ### Safe histories -/

/-- The side condition on an operation, given the table and the OS watches before it. -/
def Safe (r : Reg) (log : Log) : ROp → Prop
  | .watch p _ _ _ res => res = true ∧ SafeWatch r log p
  | .stop c => ∀ q, osRec log q ≠ none → SafeStop r c q
  | .shuffle => True

/-- Histories in which every Watch returned nil, the calls made by Stop succeeded, and every operation was
harmless. -/
inductive SafeHist (P : Platform) : List ROp → St → Prop
  | nil : SafeHist P [] init
  | snoc {ops s op s'} : SafeHist P ops s → RStep P true s op s' → Safe (rregOf ops) s.world.log op →
      SafeHist P (ops ++ [op]) s'

theorem Safe.succeeded {r : Reg} {log : Log} {op : ROp} (h : Safe r log op) : op.succeeded := by
  cases op with
  | watch => exact h.1
  | _ => trivial

theorem SafeHist.hist {ops : List ROp} {s : St} (h : SafeHist P ops s) :
    RHist P true ops s ∧ ∀ op ∈ ops, op.succeeded := by
  induction h with
  | nil => exact ⟨.nil, by simp⟩
  | snoc _ hs hsafe ih =>
    refine ⟨ih.1.snoc hs, ?_⟩
    intro o ho
    rcases List.mem_append.1 ho with ho | ho
    · exact ih.2 o ho
    · rw [List.mem_singleton] at ho; rw [ho]; exact hsafe.succeeded

theorem registered_watchAt {root : Node} {r : Reg} (hr : RRefines P root r) {x : Path} (hx : [] ∉ x)
    (h : Registered r x) : watchAt root x ≠ [] := by
  obtain ⟨c, hc⟩ := h
  intro h0
  have := hr.ent c x hx
  unfold entry at this
  rw [h0] at this
  obtain ⟨v, hv⟩ := Option.ne_none_iff_exists'.1 hc
  rw [hv] at this
  simp [enc] at this

theorem top_above {root : Node} {p : Path} (hp : [] ∉ p) :
    (∃ t, t <+: p ∧ tot P root t ≠ 0) ↔ ∃ t, t <+: p ∧ Top P root t := by
  constructor
  · rintro ⟨t, h1, h2⟩
    obtain ⟨y, h3, h4⟩ := exists_top (fun hc => hp (h1.subset hc)) h2
    exact ⟨y, h3.trans h1, h4⟩
  · rintro ⟨t, h1, h2⟩
    exact ⟨t, h1, h2.2.1⟩

theorem safeWatch_solid {s : St} (h : Sync P s) {r : Reg} (hr : RRefines P s.root r) {p : Path} (hp : [] ∉ p)
    (hs : SafeWatch r s.world.log p) :
    (∃ t, t <+: p ∧ tot P s.root t ≠ 0) ∨ ∀ x, p <+: x → Top P s.root x → watchAt s.root x ≠ [] := by
  rcases hs with ⟨t, h1, h2⟩ | h1
  · exact .inl ⟨t, h1, ((h.top_iff t).1 h2).2.1⟩
  · exact .inr fun x hx hT => registered_watchAt hr hT.1 (h1 x hx ((h.top_iff x).2 hT))

theorem SafeHist.sync (hP : P.Facts) {ops : List ROp} {s : St} (h : SafeHist P ops s) : Sync P s := by
  induction h with
  | nil => exact Sync.init P
  | @snoc ops s op s' h' hs hsafe ih =>
    have hr := RHist.refines hP h'.hist.1 h'.hist.2
    cases hs with
    | @watch p isrec c e O hp he =>
      exact (ih.watch hP O hp.2 isrec c he (safeWatch_solid ih hr hp.2 hsafe.2) hsafe.1).1
    | @stop c O hO =>
      rw [hO rfl]
      exact ih.stop hP c fun q hq => (safeStop_iff ih hr c hq).1 (hsafe q ((ih.top_iff q).2 hq))
    | shuffle hsh => exact ih.shuffle hsh

/-- **C26 / C29, partial.**  In every history of successful Watch calls and Stop calls whose operations are
harmless (`SafeWatch`, `SafeStop`), the OS watches are the right ones for the table, every call met its
contract when it was made — in particular the OS was asked only to move or drop watches it had — and no
`panic` was reached.  Missing: histories with a harmful operation, for which the claims are false
(`C26_refuted`, `C29_refuted`), and failing OS calls. -/
theorem C26_mirror_partial (hP : P.Facts) {ops : List ROp} {s : St} (h : SafeHist P ops s) :
    Mirror (rregOf ops) s.world.log ∧ ValidLogRec P s.world.log ∧ s.world.panicked = false :=
  ⟨(h.sync hP).mirror (RHist.refines hP h.hist.1 h.hist.2), (h.sync hP).valid, (h.sync hP).fine⟩

/-- **C26, exact.**  After a harmless history, Stop of a channel keeps everything the other channels asked for
covered if and only if it is harmless in the sense of `SafeStop` for every OS watch. -/
theorem C26_stop_keeps_iff (hP : P.Facts) {ops : List ROp} {s : St} (h : SafeHist P ops s) (c : Nat) :
    (∀ d, d ≠ c → Covered (rregOf (ops ++ [.stop c])) (stop P .ok s c).world.log d) ↔
      ∀ q, osRec s.world.log q ≠ none → SafeStop (rregOf ops) c q := by
  have hs := h.sync hP
  have hr := RHist.refines hP h.hist.1 h.hist.2
  constructor
  · intro hcov q hq
    have hT := (hs.top_iff q).1 hq
    by_contra hbad
    obtain ⟨d, i, hd, h1, h2, h3⟩ := stop_breaks hP hs c hT (fun hf => hbad ((safeStop_iff hs hr c hT).2 hf))
    obtain ⟨_, _, hu⟩ := stop_uset .ok hs.book.ok c
    rw [hu, if_neg hd] at h1
    obtain ⟨E, f, hE, hi⟩ := (uset_bit hr hT.1 d i).1 ⟨h2, h1⟩
    obtain ⟨t, E', f', h4, h5, h6⟩ := hcov d hd q E f (by
      simp only [rregOf, List.foldl_append, List.foldl_cons, List.foldl_nil, rregStep, Reg.stop, if_neg hd]
      exact hE)
    have hw := stopWalk_walked hP (c := c) s.root s.world hs.book.ok
    have htT : Top P s.root t := by
      by_contra hn
      have := hw.frame t (by rintro ⟨r, e1, e2⟩; rw [List.nil_append] at e1; subst e1; exact hn e2)
      rw [hs.osNone t hn] at this
      have h5' : osRec (s.root.stopWalk P .ok c s.world).1.log t = some (E', f') := h5
      rw [this] at h5'; simp at h5'
    have := htT.unique hT h4 (List.prefix_refl _)
    subst this
    have h7 := h3 E' f' h5
    rw [h6 i hi] at h7; simp at h7
  · intro hsafe d _
    have := (SafeHist.snoc h (RStep.stop (c := c) (O := .ok) fun _ => rfl) hsafe)
    exact mirror_covered (C26_mirror_partial hP this).1 d

/-! ### Watch-only histories -/

/-- The operation is a Watch that returned nil, or a change of map order. -/
def ROp.isWatch : ROp → Prop
  | .watch _ _ _ _ res => res = true
  | .stop _ => False
  | .shuffle => True

theorem ROp.isWatch.succeeded {op : ROp} (h : op.isWatch) : op.succeeded := by
  cases op with
  | watch => exact h
  | _ => trivial

theorem registered_watch {r : Reg} {op : ROp} (hop : op.isWatch) {x : Path} (h : Registered r x) :
    Registered (rregStep r op) x := by
  obtain ⟨d, hd⟩ := h
  cases op with
  | watch p isrec c e res =>
    refine ⟨d, ?_⟩
    have hres : res = true := hop
    subst hres
    simp only [rregStep, if_true, Reg.watch]
    split
    · split <;> simp
    · exact hd
  | stop c => exact absurd hop (by simp [ROp.isWatch])
  | shuffle => exact ⟨d, hd⟩

theorem rregOf_snoc (ops : List ROp) (op : ROp) : rregOf (ops ++ [op]) = rregStep (rregOf ops) op := by
  simp [rregOf, List.foldl_append]

/-- Watch-only histories are harmless, and every OS watch is on a registered path. -/
theorem watchOnly_safe (hP : P.Facts) {ops : List ROp} {s : St} (h : RHist P true ops s) (hw : ∀ op ∈ ops, op.isWatch) :
    SafeHist P ops s ∧ ∀ q, osRec s.world.log q ≠ none → Registered (rregOf ops) q := by
  induction h with
  | nil => exact ⟨.nil, fun q hq => absurd rfl hq⟩
  | @snoc ops s op s' h' hs ih =>
    have hop := hw op (by simp)
    obtain ⟨ih1, ih2⟩ := ih fun o ho => hw o (by simp [ho])
    have hsync := ih1.sync hP
    have hr := RHist.refines hP ih1.hist.1 ih1.hist.2
    have hsafe : Safe (rregOf ops) s.world.log op := by
      cases op with
      | watch p isrec c e res => exact ⟨hop, .inr fun x _ hx => ih2 x hx⟩
      | stop c => exact absurd hop (by simp [ROp.isWatch])
      | shuffle => trivial
    have hnew := ih1.snoc hs hsafe
    refine ⟨hnew, fun q hq => ?_⟩
    have hq' := ((hnew.sync hP).top_iff q).1 hq
    rw [rregOf_snoc]
    cases hs with
    | @watch p isrec c e O hp he =>
      have hres : (watchOp P O s p isrec c e).2 = true := hop
      obtain ⟨_, _, hT, _⟩ := hsync.watch hP O hp.2 isrec c he (safeWatch_solid hsync hr hp.2 hsafe.2) hres
      rcases (hT q).1 hq' with ⟨rfl, _⟩ | ⟨h1, _⟩
      · refine ⟨c, ?_⟩
        simp only [rregStep, hres, if_true, Reg.watch, and_self]
        split <;> simp
      · exact registered_watch hop (ih2 q ((hsync.top_iff q).2 h1))
    | @stop c O hO => exact absurd hop (by simp [ROp.isWatch])
    | @shuffle root' hsh =>
      have := (hsync.top_iff q)
      exact ih2 q hq

/-- Histories without Stop do not depend on whether the calls made by Stop succeed. -/
theorem watchOnly_reliable {rel : Bool} {ops : List ROp} {s : St} (h : RHist P rel ops s) (hw : ∀ op ∈ ops, op.isWatch) :
    RHist P true ops s := by
  induction h with
  | nil => exact .nil
  | @snoc ops s op s' h' hs ih =>
    refine (ih fun o ho => hw o (by simp [ho])).snoc ?_
    cases hs with
    | watch hp he => exact .watch hp he
    | @stop c O hO => exact absurd (hw (.stop c) (by simp)) (by simp [ROp.isWatch])
    | shuffle hsh => exact .shuffle hsh

/-- **C25.**  After every sequence of successful Watch calls (whatever the OS answers, whatever the map
iteration order) the OS holds a watch exactly on the topmost registered paths; each carries exactly the union
of everything registered at and below its path; every call met its contract and no `panic` was reached. -/
theorem C25_watch_only_mirror (hP : P.Facts) {rel : Bool} {ops : List ROp} {s : St} (h : RHist P rel ops s)
    (hw : ∀ op ∈ ops, op.isWatch) :
    (∀ q, osRec s.world.log q ≠ none ↔
      Registered (rregOf ops) q ∧ ∀ t, t <+: q → t ≠ q → ¬ Registered (rregOf ops) t) ∧
    (∀ q E f, osRec s.world.log q = some (E, f) → E ≠ 0 ∧ IsUnion (rregOf ops) q E) ∧
    ValidLogRec P s.world.log ∧ s.world.panicked = false := by
  obtain ⟨h1, h2⟩ := watchOnly_safe hP (watchOnly_reliable h hw) hw
  obtain ⟨hm, hv, hf⟩ := C26_mirror_partial hP h1
  have hs := h1.sync hP
  have hr := RHist.refines hP h1.hist.1 h1.hist.2
  refine ⟨fun q => ⟨fun hq => ⟨h2 q hq, fun t h3 h4 h5 => ?_⟩, fun ⟨h3, h4⟩ => ?_⟩, hm.exact, hv, hf⟩
  · have := ((hs.top_iff q).1 hq).2.2 t h3 h4
    exact (registered_tot hs.book.ok hr h5).2 this
  · obtain ⟨t, h5, h6⟩ := hm.covers q h3
    by_cases ht : t = q
    · rw [← ht]; exact h6
    · exact absurd (h2 t h6) (h4 t h5 ht)

/-- Non-trivial case: `/a/b` watched first, then `/a/...` above it: one OS watch, on `/a`, with the union. -/
example : RHist Ex.F true Ex.ops2 Ex.s2 ∧ (∀ op ∈ Ex.ops2, op.isWatch) ∧
    osRec Ex.s2.world.log [Ex.a] = some (Ex.CW, true) ∧ osRec Ex.s2.world.log [Ex.a, Ex.b] = none :=
  ⟨Ex.hist2, by simp [Ex.ops2, ROp.isWatch], by decide, by decide⟩

/-! ### Recursive Watch -/

/-- **C27, partial.**  After a harmless history, a successful recursive Watch leaves the path covered by a
recursive OS watch, unless the OS had before a watch at or above the path that includes all the events and
no call was made.  Missing: that case, in which the claim is false (`C27_refuted`). -/
theorem C27_recursive_partial (hP : P.Facts) {ops : List ROp} {s s' : St} (h : SafeHist P ops s) {p : Path} {c : Nat}
    {e : Event} (hs : RStep P true s (.watch p true c e true) s') (hsafe : SafeWatch (rregOf ops) s.world.log p) :
    (∃ t E, t <+: p ∧ osRec s'.world.log t = some (E, true) ∧ e ⊑ E) ∨
    (s'.world.log = s.world.log ∧ ∃ t E, t <+: p ∧ osRec s.world.log t = some (E, false) ∧ e ⊑ E) := by
  have hnew := h.snoc hs ⟨rfl, hsafe⟩
  have hm := (C26_mirror_partial hP hnew).1
  obtain ⟨O, hp, he, hres, rfl⟩ := hs.watch_inv
  have hsync := h.sync hP
  have hr := RHist.refines hP h.hist.1 h.hist.2
  obtain ⟨hn, hback, _⟩ := hsync.watch hP O hp.2 true c he (safeWatch_solid hsync hr hp.2 hsafe) hres.symm
  -- the table entry
  have hreg : ∃ E f, rregOf (ops ++ [.watch p true c e true]) c p = some (E, f) ∧ e ⊑ E := by
    rw [rregOf_snoc]
    simp only [rregStep, if_true, Reg.watch, and_self]
    split
    · exact ⟨e, true, rfl, Event.Sub.refl _⟩
    · exact ⟨_, _, rfl, Event.sub_or_right _ _⟩
  obtain ⟨E, f, hE, hEe⟩ := hreg
  obtain ⟨t, E', f', h1, h2, h3⟩ := mirror_covered hm c p E f hE
  rcases hback with hlog | ⟨q, E'', f'', h4, h5, h6⟩
  · cases f' with
    | true => exact .inl ⟨t, E', h1, h2, hEe.trans h3⟩
    | false => exact .inr ⟨hlog, t, E', h1, by rw [← hlog]; exact h2, hEe.trans h3⟩
  · have ht := ((hn.top_iff t).1 (by rw [h2]; simp)).unique ((hn.top_iff q).1 (by rw [h5]; simp)) h1 h4
    subst ht
    rw [h2] at h5
    simp only [Option.some.injEq, Prod.mk.injEq] at h5
    have := h6 (.inl rfl)
    refine .inl ⟨t, E', h1, ?_, hEe.trans h3⟩
    rw [h2, h5.2, this]

/-! ### Repeating a Watch -/

theorem watchOp_eq (P : Platform) (O : Oracle) (s : St) (p : Path) (isrec : Bool) (c : Nat) (e : Event) :
    watchOp P O s p isrec c e = match parentOf P s.root p with
    | some q => watchUnder P O { s with root := s.root.add p } q p isrec c (setOf P isrec e)
    | none => watchTop P O { s with root := s.root.add p } p isrec c (setOf P isrec e) := rfl

/-- **C07 on the recursive tree, partial.**  After a harmless history, repeating a Watch whose events the
channel already has on the path makes no OS call and returns nil; if it is not a recursive Watch on a
registration that is not recursive, the table does not change either.  Missing: histories with harmful
operations (`C07_repeat_refuted`). -/
theorem C07_repeat_partial (hP : P.Facts) {ops : List ROp} {s : St} (h : SafeHist P ops s) {p : Path} {c : Nat}
    {E e : Event} {f isrec : Bool} (hreg : rregOf ops c p = some (E, f)) (he : e ⊑ E) (O : Oracle) :
    (watchOp P O s p isrec c e).2 = true ∧ (watchOp P O s p isrec c e).1.world = s.world ∧
    ((isrec = true → f = true) → (rregOf ops).watch c p e isrec = rregOf ops) := by
  have hs := h.sync hP
  have hr := RHist.refines hP h.hist.1 h.hist.2
  have hp := (hr.clean c p E f hreg).2
  obtain ⟨t, E', f', h1, h2, h3⟩ := mirror_covered (hs.mirror hr) c p E f hreg
  have ht := (hs.top_iff t).1 (by rw [h2]; simp)
  have hpar : parentOf P s.root p = some t := by
    cases hq : parentOf P s.root p with
    | none => exact absurd (parentOf_none hq t h1) ht.2.1
    | some q =>
      obtain ⟨h4, h5, h6⟩ := parentOf_some hq
      have : Top P s.root q := ⟨fun hc => hp.2 (h4.subset hc), h5, h6⟩
      rw [this.unique ht h4 h1]
  have htot : E' = tot P s.root t := by
    obtain ⟨f'', h4⟩ := hs.osTop t ht
    rw [h2] at h4
    simp only [Option.some.injEq, Prod.mk.injEq] at h4
    exact h4.1
  have hadd : tot P (s.root.add p) t = tot P s.root t := by
    have := watchAt_add s.root p
    simp [tot, this]
  have hsub : setOf P isrec e &^ P.internal ⊑ tot P (s.root.add p) t := by
    rw [hadd, ← htot]
    refine Event.Sub.trans ?_ (he.trans h3)
    rw [setOf_eq]
    intro i hi
    rw [BitVec.getLsbD_and, BitVec.getLsbD_or] at hi
    cases isrec with
    | false => simp at hi; exact hi.1
    | true =>
      simp only [if_true, Bool.and_eq_true, Bool.or_eq_true] at hi
      rcases hi.1 with h7 | h7
      · exact h7
      · have h8 := recursive_internal P i h7
        have h9 := hi.2
        simp [h8] at h9
  rw [watchOp_eq, hpar]
  simp only
  rw [watchUnder_eq P O _ t p isrec c _ (by rw [hadd]; exact ht.2.1), if_pos hsub]
  refine ⟨rfl, rfl, fun hf => ?_⟩
  funext d q
  unfold Reg.watch
  split
  · next hdq =>
    obtain ⟨rfl, rfl⟩ := hdq
    rw [hreg]
    simp only [Option.some.injEq, Prod.mk.injEq]
    refine ⟨Event.sub_iff_or.1 he, ?_⟩
    cases isrec with
    | false => simp
    | true => simp [hf rfl]
  · rfl

/-! ### Witnesses -/

namespace Ex

abbrev x : Comp := ['x']
abbrev R : Event := F.rename
theorem uR : UserEvents F R := by unfold UserEvents; decide
theorem good_abx : GoodPath [a, b, x] := by simp [GoodPath]
theorem good_abxf : GoodPath [a, b, x, f] := by simp [GoodPath]

theorem sub2 {p q : Comp} {t : Path} (h : t <+: [p, q]) : t = [] ∨ t = [p] ∨ t = [p, q] := by
  obtain ⟨u, hu⟩ := h
  match t, hu with
  | [], _ => exact .inl rfl
  | [_], hu => simp at hu; exact .inr (.inl (by simp [hu.1]))
  | [_, _], hu => simp at hu; exact .inr (.inr (by simp [hu.1, hu.2.1]))
  | _ :: _ :: _ :: _, hu => simp at hu

/-- Channel 1 watches `/a` for Write, then channel 2 `/a/b` for Rename. -/
def n1 : St := (watchOp F .ok init [a] false 1 W).1
def n2 : St := (watchOp F .ok n1 [a, b] false 2 R).1
def nops : List ROp := [.watch [a] false 1 W true, .watch [a, b] false 2 R true]
theorem nstep1 : RStep F true init (.watch [a] false 1 W true) n1 := RStep.watch (O := .ok) good_a uW
theorem nstep2 : RStep F true n1 (.watch [a, b] false 2 R true) n2 := RStep.watch (O := .ok) good_ab uR
theorem nhist1 : RHist F true [.watch [a] false 1 W true] n1 := RSteps.nil.snoc nstep1
theorem nhist2 : RHist F true nops n2 := nhist1.snoc nstep2
theorem nok : ∀ op ∈ nops, op.succeeded := by simp [nops, ROp.succeeded]
theorem nwatch : ∀ op ∈ nops, op.isWatch := by simp [nops, ROp.isWatch]
theorem nreg (c : Nat) (q : Path) : rregOf nops c q =
    if c = 2 ∧ q = [a, b] then some (R, false) else if c = 1 ∧ q = [a] then some (W, false) else none := by
  simp [rregOf, nops, rregStep, Reg.watch, Reg.empty]
theorem nasks {c : Nat} {q : Path} {E : Event} {g : Bool} (h : rregOf nops c q = some (E, g)) :
    (c = 2 ∧ q = [a, b] ∧ E = R) ∨ (c = 1 ∧ q = [a] ∧ E = W) := by
  rw [nreg] at h
  split at h
  · next h1 => simp at h; exact .inl ⟨h1.1, h1.2, h.1.symm⟩
  · split at h
    · next h1 => simp at h; exact .inr ⟨h1.1, h1.2, h.1.symm⟩
    · simp at h

end Ex

/-- **C26 is false** of the code: channel 1 watches `/a` for Write, channel 2 `/a/b` for Rename; Stop of
channel 2 removes the OS watch on `/a`, the only one there was. -/
theorem C26_refuted : ∃ ops s s' c d, RHist Ex.F true ops s ∧ (∀ op ∈ ops, op.succeeded) ∧
    RStep Ex.F true s (.stop d) s' ∧ c ≠ d ∧ ¬ Covered (rregOf (ops ++ [.stop d])) s'.world.log c ∧
    ∀ q, osRec s'.world.log q = none := by
  have hnone : ∀ q, osRec (stop Ex.F .ok Ex.n2 2).world.log q = none := by
    have hl : (stop Ex.F .ok Ex.n2 2).world.log = [(.unwatch [Ex.a], true),
      (.recRewatch [Ex.a] [Ex.a] Ex.W (Ex.W ||| Ex.R), true), (.watch [Ex.a] Ex.W, true)] := by decide
    intro q
    rw [hl]
    by_cases hq : q = [Ex.a] <;> simp [osRec, hq]
  refine ⟨Ex.nops, Ex.n2, stop Ex.F .ok Ex.n2 2, 1, 2, Ex.nhist2, Ex.nok, .stop (fun _ => rfl), by decide, ?_, hnone⟩
  intro hc
  obtain ⟨t, E', f', _, h2, _⟩ := hc [Ex.a] Ex.W false (by decide)
  rw [hnone] at h2; simp at h2

/-- The harmless histories include the same two Watch calls followed by Stop of channel 1. -/
example : SafeHist Ex.F Ex.nops Ex.n2 ∧ SafeStop (rregOf Ex.nops) 1 [Ex.a] ∧ ¬ SafeStop (rregOf Ex.nops) 2 [Ex.a] ∧
    osRec (stop Ex.F .ok Ex.n2 1).world.log [Ex.a] = some (Ex.R, true) := by
  obtain ⟨i, hi⟩ : ∃ i, BitVec.getLsbD Ex.W i = true := Event.ne_zero_iff.1 (by decide)
  obtain ⟨j, hj⟩ : ∃ i, BitVec.getLsbD Ex.R i = true := Event.ne_zero_iff.1 (by decide)
  refine ⟨(watchOnly_safe Ex.hF Ex.nhist2 Ex.nwatch).1, .inl ⟨i, ⟨1, Ex.W, false, by decide, hi⟩, ?_⟩, ?_, by decide⟩
  · rw [asks_stop]
    rintro ⟨d, E, f, h1, h2, _⟩
    rcases Ex.nasks h2 with ⟨_, h3, _⟩ | ⟨h3, _⟩
    · simp at h3
    · exact h1 h3
  · have hb : ∀ k, ¬ asksBelow ((rregOf Ex.nops).stop 2) [Ex.a] k := by
      rintro k ⟨x, _, h2, h3⟩
      obtain ⟨d, E, f, h4, h5, _⟩ := asks_stop.1 h3
      rcases Ex.nasks h5 with ⟨h6, _⟩ | ⟨_, h6, _⟩
      · exact h4 h6
      · exact h2 h6
    rintro (⟨k, ⟨d, E, f, h1, h2⟩, h3⟩ | h1 | h1)
    · apply h3
      refine asks_stop.2 ⟨d, E, f, ?_, h1, h2⟩
      rcases Ex.nasks h1 with ⟨_, h6, _⟩ | ⟨h6, _⟩
      · simp at h6
      · rw [h6]; decide
    · exact hb j (h1 j ⟨[Ex.a, Ex.b], by decide, by decide, 2, Ex.R, false, by decide, hj⟩)
    · exact hb i (h1 i ⟨1, Ex.W, false, by decide, hi⟩)

namespace Ex
/-- Channel 1 watches `/a` for Write and then `/a/...` for Write. -/
def k2 : St := (watchOp F .ok n1 [a] true 1 W).1
theorem kstep2 : RStep F true n1 (.watch [a] true 1 W true) k2 := RStep.watch (O := .ok) good_a uW

/-- Nested Watch calls one level down, so that a parent is left: channel 1 on `/a/b`,
channel 2 on `/a/b/x`, channel 3 on `/a/b/x/f`, all for Write; then Stop of channel 1; then channel 4 on `/a`. -/
def h1 : St := (watchOp F .ok init [a, b] false 1 W).1
def h2 : St := (watchOp F .ok h1 [a, b, x] false 2 W).1
def h3 : St := (watchOp F .ok h2 [a, b, x, f] false 3 W).1
def h4 : St := stop F .ok h3 1
def h5 : St := (watchOp F .ok h4 [a] false 4 W).1
theorem hstep1 : RStep F true init (.watch [a, b] false 1 W true) h1 := RStep.watch (O := .ok) good_ab uW
theorem hstep2 : RStep F true h1 (.watch [a, b, x] false 2 W true) h2 := RStep.watch (O := .ok) good_abx uW
theorem hstep3 : RStep F true h2 (.watch [a, b, x, f] false 3 W true) h3 := RStep.watch (O := .ok) good_abxf uW
theorem hstep4 : RStep F true h3 (.stop 1) h4 := RStep.stop (fun _ => rfl)
theorem hstep5 : RStep F true h4 (.watch [a] false 4 W true) h5 := RStep.watch (O := .ok) good_a uW
def hops : List ROp := [.watch [a, b] false 1 W true, .watch [a, b, x] false 2 W true,
  .watch [a, b, x, f] false 3 W true, .stop 1]
theorem hhist4 : RHist F true hops h4 := (((RSteps.nil.snoc hstep1).snoc hstep2).snoc hstep3).snoc hstep4
theorem hok : ∀ op ∈ hops, op.succeeded := by simp [hops, ROp.succeeded]

/-- The same with Rename for channel 3. -/
def r3 : St := (watchOp F .ok h2 [a, b, x, f] false 3 R).1
def r4 : St := stop F .ok r3 1
def r5 : St := (watchOp F .ok r4 [a] false 4 W).1
theorem rstep3 : RStep F true h2 (.watch [a, b, x, f] false 3 R true) r3 := RStep.watch (O := .ok) good_abxf uR
theorem rstep4 : RStep F true r3 (.stop 1) r4 := RStep.stop (fun _ => rfl)
theorem rstep5 : RStep F true r4 (.watch [a] false 4 W true) r5 := RStep.watch (O := .ok) good_a uW
def rops : List ROp := [.watch [a, b] false 1 W true, .watch [a, b, x] false 2 W true,
  .watch [a, b, x, f] false 3 R true, .stop 1, .watch [a] false 4 W true]
theorem rhist5 : RHist F true rops r5 :=
  ((((RSteps.nil.snoc hstep1).snoc hstep2).snoc rstep3).snoc rstep4).snoc rstep5
theorem rok5 : ∀ op ∈ rops, op.succeeded := by simp [rops, ROp.succeeded]
end Ex

/-- **C27 is false** of the code: Watch of `/a` for Write and then of `/a/...` for Write, both returning nil:
the only OS watch is the non-recursive one on `/a`. -/
theorem C27_refuted : ∃ ops s s' p c e, RHist Ex.F true ops s ∧ (∀ op ∈ ops, op.isWatch) ∧
    RStep Ex.F true s (.watch p true c e true) s' ∧ ∀ t E f, osRec s'.world.log t = some (E, f) → f = false := by
  refine ⟨_, Ex.n1, Ex.k2, [Ex.a], 1, Ex.W, Ex.nhist1, by simp [ROp.isWatch], Ex.kstep2, ?_⟩
  have hl : Ex.k2.world.log = [(.watch [Ex.a] Ex.W, true)] := by decide
  intro t E f h
  rw [hl] at h
  by_cases ht : t = [Ex.a]
  · simp [osRec, ht] at h; exact h.2
  · simp [osRec, ht] at h

/-- Non-trivial case of the partial theorem: `/a/...` after `/a/b`, with a recursive OS watch on `/a`. -/
example : SafeHist Ex.F [.watch [Ex.a, Ex.b] false 2 Ex.CW true] Ex.s1 ∧
    RStep Ex.F true Ex.s1 (.watch [Ex.a] true 1 Ex.W true) Ex.s2 ∧
    SafeWatch (rregOf [.watch [Ex.a, Ex.b] false 2 Ex.CW true]) Ex.s1.world.log [Ex.a] ∧
    osRec Ex.s2.world.log [Ex.a] = some (Ex.CW, true) := by
  have h := watchOnly_safe Ex.hF Ex.hist1 (by simp [ROp.isWatch])
  exact ⟨h.1, Ex.step2, .inr fun x _ hx => h.2 x hx, by decide⟩

/-- **C29 is false** of the code: with nested watchpoints on `/a/b`, `/a/b/x`, `/a/b/x/f` and Stop of the
topmost channel, Watch of `/a` asks the OS to move a watch on `/a/b/x`, which it does not have; the watch on
`/a/b`, which it has, stays. -/
theorem C29_refuted : ∃ ops s s' p c e, RHist Ex.F true ops s ∧ (∀ op ∈ ops, op.succeeded) ∧
    ValidLogRec Ex.F s.world.log ∧ RStep Ex.F true s (.watch p false c e true) s' ∧
    ∃ call l x y o n, s'.world.log = (call, true) :: l ∧ call = .recRewatch x y o n ∧ osRec l x = none ∧
      osRec s'.world.log [Ex.a] ≠ none ∧ osRec s'.world.log [Ex.a, Ex.b] ≠ none := by
  refine ⟨Ex.hops, Ex.h4, Ex.h5, [Ex.a], 4, Ex.W, Ex.hhist4, Ex.hok, ?_, Ex.hstep5, ?_⟩
  · have hl : Ex.h4.world.log = [(.watch [Ex.a, Ex.b] Ex.W, true)] := by decide
    rw [hl]
    exact ⟨⟨rfl, by decide, by decide⟩, trivial⟩
  · have hl : Ex.h5.world.log = [(.recRewatch [Ex.a, Ex.b, Ex.x] [Ex.a] Ex.W Ex.W, true), (.watch [Ex.a, Ex.b] Ex.W, true)] := by
      decide
    exact ⟨_, _, _, _, _, _, hl, rfl, by decide, by decide, by decide⟩

/-- **C07, repeated Watch, is false** of the recursive tree: after such a history a repeated Watch of channel
3, which returned nil and was not stopped, makes an OS call. -/
theorem C07_repeat_refuted : ∃ ops s p c e E f, RHist Ex.F true ops s ∧ (∀ op ∈ ops, op.succeeded) ∧
    rregOf ops c p = some (E, f) ∧ e ⊑ E ∧ (watchOp Ex.F .ok s p f c e).1.world.log ≠ s.world.log :=
  ⟨Ex.rops, Ex.r5, [Ex.a, Ex.b, Ex.x, Ex.f], 3, Ex.R, Ex.R, false, Ex.rhist5, Ex.rok5, by decide, by decide, by decide⟩

/-- Non-trivial case of the partial theorem. -/
example : SafeHist Ex.F Ex.nops Ex.n2 ∧ rregOf Ex.nops 2 [Ex.a, Ex.b] = some (Ex.R, false) ∧ Ex.R ⊑ Ex.R ∧
    Ex.n2.world.log.length = 2 :=
  ⟨(watchOnly_safe Ex.hF Ex.nhist2 Ex.nwatch).1, by decide, by decide, by decide⟩

end Rec
end Verif
