/-
Histories of the recursive tree, their invariant, and the registration table they refine.
-/
import Verif.RecStop
import Verif.PropsNonRec

namespace Verif
namespace Rec
open GoMap NonRec Spec

variable {P : Platform}

/-- Same tree up to the order in which Go iterates over its maps. -/
def RShuffle (nd nd' : Node) : Prop :=
  ROK (fun w => w.Nodup) nd' ∧
  ∀ q, (nd.find q = none ∧ nd'.find q = none) ∨
    ∃ w w', nd.find q = some w ∧ nd'.find q = some w' ∧ ∀ k, w.get? k = w'.get? k

/-- Labels of steps. -/
inductive ROp
  /-- Watch(path or path/..., c, events) returning nil (`true`) or an error. -/
  | watch (p : Path) (isrec : Bool) (c : Nat) (e : Event) (res : Bool)
  | stop (c : Nat)
  /-- Map iteration order changes. -/
  | shuffle

/-- One step of a history.  The outcome of each OS call made by Watch is arbitrary, and so is that of
the calls made by Stop, whose failure the code ignores, unless `reliable`. -/
inductive RStep (P : Platform) (reliable : Bool) : St → ROp → St → Prop
  | watch {s p isrec c e O} : GoodPath p → UserEvents P e →
      RStep P reliable s (.watch p isrec c e (watchOp P O s p isrec c e).2) (watchOp P O s p isrec c e).1
  | stop {s c O} : (reliable = true → O = .ok) → RStep P reliable s (.stop c) (stop P O s c)
  | shuffle {s root'} : RShuffle s.root root' → RStep P reliable s .shuffle { s with root := root' }

/-- Operations `ops` (oldest first) can lead from `s₀` to `s`. -/
inductive RSteps (P : Platform) (reliable : Bool) (s₀ : St) : List ROp → St → Prop
  | nil : RSteps P reliable s₀ [] s₀
  | snoc {ops s op s'} : RSteps P reliable s₀ ops s → RStep P reliable s op s' →
      RSteps P reliable s₀ (ops ++ [op]) s'

/-- A history: operations starting with the empty tree. -/
abbrev RHist (P : Platform) (reliable : Bool) (ops : List ROp) (s : St) : Prop := RSteps P reliable init ops s

theorem RSteps.trans {rel : Bool} {s₀ s₁ s₂ : St} {a b : List ROp} (h₁ : RSteps P rel s₀ a s₁)
    (h₂ : RSteps P rel s₁ b s₂) : RSteps P rel s₀ (a ++ b) s₂ := by
  induction h₂ with
  | nil => simpa using h₁
  | snoc _ hs ih => rw [← List.append_assoc]; exact ih.snoc hs

theorem RStep.watch_inv {rel : Bool} {s s' : St} {p : Path} {isrec res : Bool} {c : Nat} {e : Event}
    (h : RStep P rel s (.watch p isrec c e res) s') :
    ∃ O, GoodPath p ∧ UserEvents P e ∧ res = (watchOp P O s p isrec c e).2 ∧ s' = (watchOp P O s p isrec c e).1 := by
  generalize hop : ROp.watch p isrec c e res = op at h
  cases h with
  | @watch p' isrec' c' e' O hp he =>
    simp only [ROp.watch.injEq] at hop
    obtain ⟨rfl, rfl, rfl, rfl, rfl⟩ := hop
    exact ⟨O, hp, he, rfl, rfl⟩
  | _ => simp at hop

/-! ### Reordering -/

theorem RShuffle.get {nd nd' : Node} (h : RShuffle nd nd') (q : Path) (k : Key) :
    (watchAt nd' q).get? k = (watchAt nd q).get? k := by
  unfold watchAt
  rcases h.2 q with ⟨h1, h2⟩ | ⟨w, w', h1, h2, h3⟩
  · rw [h1, h2]
  · rw [h1, h2]; exact (h3 k).symm

theorem forall_ROK {Q Q' : WP → Prop} {nd : Node} {n : Path} (h : nd.OK Q (inR Q) n)
    (hq : ∀ q w, nd.find q = some w → Q' w) : nd.OK Q' (inR Q') n := go nd n h hq
where
  go : (nd : Node) → (n : Path) → nd.OK Q (inR Q) n → (∀ q w, nd.find q = some w → Q' w) → nd.OK Q' (inR Q') n
    | .mk n' w ch, n, h, hq => by
      simp only [Node.OK] at h ⊢
      refine ⟨h.1, hq [] w (by simp [Node.watch]), goF ch n h.2.2 ?_⟩
      intro b q w' hf
      exact hq (b :: q) w' (by rw [Node.find_cons]; exact hf)
  goF : (f : Forest) → (n : Path) → f.OK Q (inR Q) n →
      (∀ b q w, (f.get? b).bind (·.find q) = some w → Q' w) → f.OK Q' (inR Q') n
    | .nil, _, _, _ => by simp [Forest.OK]
    | .cons b nd rest, n, h, hq => by
      simp only [Forest.OK] at h ⊢
      have hnd : ∀ q w, nd.find q = some w → Q' w := fun q w hf => hq b q w (by simpa [Forest.get?] using hf)
      refine ⟨h.1, fun hb => ⟨(h.2.1 hb).1, hnd [] _ (by simp)⟩, fun hb => go nd _ (h.2.2.1 hb) hnd, goF rest n h.2.2.2 ?_⟩
      intro b' q w hf
      refine hq b' q w ?_
      have : b ≠ b' := by
        rintro rfl
        rw [(Forest.get?_eq_none rest b).2 h.1] at hf; simp at hf
      simpa [Forest.get?, this] using hf

theorem RShuffle.ok {Q : WP → Prop} {nd nd' : Node} (hs : RShuffle nd nd') (h : ROK Q nd)
    (hc : ∀ w w', Q w → w'.Nodup → (∀ k, w.get? k = w'.get? k) → Q w') : ROK Q nd' := by
  refine forall_ROK hs.1 ?_
  intro q w' hw'
  rcases hs.2 q with ⟨_, h2⟩ | ⟨w, w'', h1, h2, h3⟩
  · rw [hw'] at h2; simp at h2
  · rw [hw'] at h2
    simp only [Option.some.injEq] at h2
    subst h2
    exact hc w w' (ROK.find_Q h h1) (ROK.find_Q hs.1 hw') h3

theorem RW.congr {w w' : WP} (h : RW P w) (hn : w'.Nodup) (he : ∀ k, w.get? k = w'.get? k) : RW P w' := by
  have hv : w'.val .nil = w.val .nil := by simp [WP.val, he]
  refine ⟨hn, by rw [← he]; exact h.norec, ?_, ?_, by rw [hv]; exact h.tot⟩
  · intro c v hx; rw [← he] at hx; rw [hv]; exact h.user c v hx
  · intro c v hx; rw [← he] at hx; exact h.ne c v hx

/-! ### The weak invariant holds after every history -/

theorem rok_init (Q : WP → Prop) (h : Q []) : ROK Q init.root := Node.new_OK h

theorem RStep.rok (hP : P.Facts) {rel : Bool} {s s' : St} {op : ROp} (h : ROK (RW P) s.root)
    (hs : RStep P rel s op s') : ROK (RW P) s'.root := by
  cases hs with
  | watch hp he => exact (watchOp_eff hP _ h hp.2 _ _ he).ok
  | stop hO => exact (stop_eff _ h _).1
  | shuffle hs => exact hs.ok h (fun _ _ => RW.congr)

theorem RSteps.rok (hP : P.Facts) {rel : Bool} {ops : List ROp} {s₀ s : St} (h₀ : ROK (RW P) s₀.root)
    (h : RSteps P rel s₀ ops s) : ROK (RW P) s.root := by
  induction h with
  | nil => exact h₀
  | snoc _ hs ih => exact hs.rok hP ih

theorem RHist.rok (hP : P.Facts) {rel : Bool} {ops : List ROp} {s : St} (h : RHist P rel ops s) :
    ROK (RW P) s.root := RSteps.rok hP (rok_init _ (RW.nil P)) h

theorem RW.sound {w : WP} (h : RW P w) : Sound P w := ⟨h.nodup, h.user, h.tot⟩

theorem ROK.sound {root : Node} (h : ROK (RW P) root) (q : Path) : Sound P (NonRec.watchAt root q) :=
  (ROK.watchAt h (RW.nil P) q).sound

/-! ### The registration table -/

/-- The effect of an operation on the table. -/
def rregStep (r : Reg) : ROp → Reg
  | .watch p isrec c e res => if res then r.watch c p e isrec else r
  | .stop c => r.stop c
  | .shuffle => r

/-- The table after a history. -/
def rregOf (ops : List ROp) : Reg := ops.foldl rregStep Reg.empty

/-- The operation is not a Watch that returned an error. -/
def ROp.succeeded : ROp → Prop
  | .watch _ _ _ _ res => res = true
  | _ => True

/-- The operation is not a Watch with channel `c` that returned an error. -/
def ROp.succeededFor (c : Nat) : ROp → Prop
  | .watch _ _ d _ res => d = c → res = true
  | _ => True

theorem ROp.succeeded.for {op : ROp} (h : op.succeeded) (c : Nat) : op.succeededFor c := by
  cases op <;> first | exact fun _ => h | trivial

/-- The tree stores the lines of the table for the channel `c`. -/
structure RRefinesAt (P : Platform) (c : Nat) (root : Node) (r : Reg) : Prop where
  ent : ∀ q, [] ∉ q → entry root c q = enc P (r c q)
  clean : ∀ q e f, r c q = some (e, f) → e &&& P.internal = 0 ∧ GoodPath q

/-- The tree stores the table. -/
structure RRefines (P : Platform) (root : Node) (r : Reg) : Prop where
  ent : ∀ c q, [] ∉ q → entry root c q = enc P (r c q)
  clean : ∀ c q e f, r c q = some (e, f) → e &&& P.internal = 0 ∧ GoodPath q

theorem setOf_eq (P : Platform) (isrec : Bool) (e : Event) :
    setOf P isrec e = e ||| (if isrec then P.recursive else 0) := by
  cases isrec <;> simp [setOf]

theorem RRefinesAt.step (hP : P.Facts) {rel : Bool} {s s' : St} {op : ROp} {r : Reg} {d : Nat} (hs : ROK (RW P) s.root)
    (h : RRefinesAt P d s.root r) (hst : RStep P rel s op s') (hop : op.succeededFor d) :
    RRefinesAt P d s'.root (rregStep r op) := by
  cases hst with
  | @watch p isrec c e O hp he =>
    have hx := watchOp_eff hP O hs hp.2 isrec c he
    by_cases hdc : d = c
    · subst hdc
      have hres : (watchOp P O s p isrec d e).2 = true := hop rfl
      rw [hres] at hx ⊢
      simp only [rregStep, if_true]
      have hval : (watchAt s.root p).val (.user d) = (enc P (r d p)).getD 0 := by
        rw [← h.ent p hp.2]; rfl
      constructor
      · intro q hq
        by_cases hdq : q = p
        · subst hdq
          rw [hx.done rfl, enc_watch, hval, setOf_eq]
          rw [BitVec.or_assoc]
        · rw [hx.frame d q hq (fun hc => hdq hc.2), h.ent q hq]; simp [Reg.watch, hdq]
      · intro q e' f hr
        unfold Reg.watch at hr
        split at hr
        · next hdq =>
          obtain ⟨_, rfl⟩ := hdq
          refine ⟨?_, hp⟩
          have hi := he.2
          split at hr
          · simp only [Option.some.injEq, Prod.mk.injEq] at hr
            rw [← hr.1]; exact hi
          · next e₀ f₀ hr₀ =>
            simp only [Option.some.injEq, Prod.mk.injEq] at hr
            have := (h.clean _ _ _ hr₀).1
            rw [← hr.1]
            clear hx hr hr₀ hval h hs hres hop
            ebits
        · exact h.clean _ _ _ hr
    · have hreg : ∀ q, rregStep r (.watch p isrec c e (watchOp P O s p isrec c e).2) d q = r d q := by
        intro q
        simp only [rregStep]
        split <;> simp [Reg.watch, hdc]
      constructor
      · intro q hq
        rw [hx.frame d q hq (fun hc => hdc hc.1), h.ent q hq, hreg]
      · intro q e' f hr
        rw [hreg] at hr
        exact h.clean _ _ _ hr
  | @stop c O hO =>
    constructor
    · intro q hq
      rw [stop_entry O hs c d q, h.ent q hq]
      simp only [rregStep, Reg.stop]; split <;> simp [enc]
    · intro q e f hr
      simp only [rregStep, Reg.stop] at hr
      split at hr
      · simp at hr
      · exact h.clean _ _ _ hr
  | shuffle hsh =>
    exact ⟨fun q hq => by
      show entry _ d q = enc P (r d q)
      rw [← h.ent q hq]; exact hsh.get q (.user d), h.clean⟩

theorem rrefines_init (P : Platform) (c : Nat) : RRefinesAt P c init.root Reg.empty := by
  constructor
  · intro q _
    have : watchAt (Node.new []) q = [] := by
      cases q <;> simp [watchAt, Node.find, Node.new, Node.get?, Node.watch, Forest.get?]
    simp [entry, init, this, Reg.empty, enc]
  · intro q e f hr; simp [Reg.empty] at hr

theorem RHist.refinesAt (hP : P.Facts) {rel : Bool} {ops : List ROp} {s : St} {c : Nat} (h : RHist P rel ops s)
    (hops : ∀ op ∈ ops, op.succeededFor c) : RRefinesAt P c s.root (rregOf ops) := by
  induction h with
  | nil => exact rrefines_init P c
  | @snoc ops s op s' h' hs ih =>
    have := (ih (fun o ho => hops o (by simp [ho]))).step hP (RHist.rok hP h') hs (hops op (by simp))
    simpa [rregOf, List.foldl_append] using this

theorem RHist.refines (hP : P.Facts) {rel : Bool} {ops : List ROp} {s : St} (h : RHist P rel ops s)
    (hops : ∀ op ∈ ops, op.succeeded) : RRefines P s.root (rregOf ops) :=
  have hx := fun c => RHist.refinesAt hP h (c := c) (fun o ho => (hops o ho).for c)
  ⟨fun c => (hx c).ent, fun c => (hx c).clean⟩

end Rec
end Verif
