/-
C114: nothing is signalled that was not asked for, and nothing that the OS did not report; under every schedule, with every failure.
-/
import Verif.PropsSched3
import Verif.PropsLinux3
import Verif.PropsEventInfo

namespace Verif
namespace Sched
open NonRec (GoodPath UserEvents PlainEvent entry watchAt)
open Spec (Reg)

variable {P : Platform} {cfg : Cfg}

/-- What has been asked for: every Watch counts, whether it failed or not; Stop and the removal of a directory take back. -/
def askStep (P : Platform) (r : Reg) : Req → Reg
  | .watch p isrec c e => r.watch c p e isrec
  | .stop c => r.stop c
  | .internal ei => if ei.event = P.remove then r.remove ei.path else r

/-- What has been asked for with these requests, oldest first. -/
def asked (P : Platform) (rs : List Req) : Reg := rs.foldl (askStep P) Reg.empty

theorem asked_snoc (rs : List Req) (r : Req) : asked P (rs ++ [r]) = askStep P (asked P rs) r := by
  simp [asked, List.foldl_append]

/-- The channel asked for the event, for the path, for its parent directory, or recursively for a directory above. -/
def AskedFor (r : Reg) (c : Nat) (ei : EventInfo) : Prop :=
  ∃ q ev f, r c q = some (ev, f) ∧ ei.event ⊑ ev ∧
    (q = ei.path ∨ q = ei.path.dropLast ∨ (q <+: ei.path.dropLast ∧ f = true))

/-- The tree has no more than the table. -/
structure Within (P : Platform) (root : Node) (r : Reg) : Prop where
  ent : ∀ c q v, [] ∉ q → entry root c q = some v → ∃ ev f, r c q = some (ev, f) ∧ v ⊑ ev ||| (if f then P.recursive else 0)
  clean : ∀ c q ev f, r c q = some (ev, f) → ev &&& P.internal = 0

theorem Within.init (P : Platform) : Within P (Node.new []) Reg.empty := by
  refine ⟨fun c q v hq h => ?_, by intro c q ev f h; cases h⟩
  have h' := (Rec.rrefines_init P c).ent q hq
  have h'' : entry (Node.new []) c q = NonRec.enc P (Reg.empty c q) := h'
  rw [h''] at h
  cases h

/-- An entry that grows by at most what is asked for. -/
theorem Within.grow {root root' : Node} {r : Reg} {p : Path} {isrec : Bool} {c : Nat} {e : Event} (h : Within P root r)
    (he : UserEvents P e) (hframe : ∀ d q, [] ∉ q → ¬ (d = c ∧ q = p) → entry root' d q = entry root d q)
    (hp : ∀ v, entry root' c p = some v → v ⊑ (watchAt root p).val (.user c) ||| (e ||| (if isrec then P.recursive else 0))) :
    Within P root' (r.watch c p e isrec) := by
  constructor
  · intro d q v hq hv
    by_cases hdq : d = c ∧ q = p
    · obtain ⟨rfl, rfl⟩ := hdq
      have h1 := hp v hv
      unfold Reg.watch
      rw [if_pos ⟨rfl, rfl⟩]
      have h3 : ∀ ev f, r d q = some (ev, f) → (watchAt root q).val (.user d) ⊑ ev ||| (if f then P.recursive else 0) := by
        intro ev f hr
        cases hx : entry root d q with
        | none =>
          have : (watchAt root q).val (.user d) = 0 := WP.val_eq_zero_of_none hx
          rw [this]; exact Event.zero_sub _
        | some v' =>
          obtain ⟨ev', f', h4, h5⟩ := h.ent d q v' hq hx
          rw [hr] at h4; cases h4
          have : (watchAt root q).val (.user d) = v' := WP.val_eq_of_get? hx
          rw [this]; exact h5
      have h4 : r d q = none → (watchAt root q).val (.user d) = 0 := by
        intro hr
        cases hx : entry root d q with
        | none => exact WP.val_eq_zero_of_none hx
        | some v' =>
          obtain ⟨ev', f', h4, h5⟩ := h.ent d q v' hq hx
          rw [hr] at h4; cases h4
      rcases hr : r d q with _ | ⟨ev, f⟩
      · refine ⟨e, isrec, rfl, ?_⟩
        rw [h4 hr] at h1
        simpa using h1
      · refine ⟨ev ||| e, f || isrec, rfl, ?_⟩
        have h5 := h3 ev f hr
        generalize (watchAt root q).val (.user d) = a at h1 h5
        clear h3 h4 hp hframe he h
        cases f <;> cases isrec <;> simp only [Bool.or_true, Bool.or_false, if_true, Bool.false_eq_true, if_false] at h1 h5 ⊢ <;> ebits
    · rw [hframe d q hq hdq] at hv
      obtain ⟨ev, f, h1, h2⟩ := h.ent d q v hq hv
      exact ⟨ev, f, by unfold Reg.watch; rw [if_neg hdq]; exact h1, h2⟩
  · intro d q ev f hr
    unfold Reg.watch at hr
    split at hr
    · rcases hx : r c p with _ | ⟨e', f'⟩
      · rw [hx] at hr; cases hr; exact he.2
      · rw [hx] at hr; cases hr
        have h1 := h.clean _ _ _ _ hx
        have h2 := he.2
        clear hx hp hframe h
        ebits
    · exact h.clean _ _ _ _ hr

theorem Within.stop {root root' : Node} {r : Reg} {c : Nat} (h : Within P root r)
    (he : ∀ d q, entry root' d q = if d = c then none else entry root d q) : Within P root' (r.stop c) := by
  constructor
  · intro d q v hq hv
    rw [he] at hv
    split at hv
    · cases hv
    · next hd =>
      obtain ⟨ev, f, h1, h2⟩ := h.ent d q v hq hv
      exact ⟨ev, f, by unfold Reg.stop; rw [if_neg hd]; exact h1, h2⟩
  · intro d q ev f hr
    unfold Reg.stop at hr
    split at hr
    · cases hr
    · exact h.clean _ _ _ _ hr

theorem Within.step {s s' : St} {op : NonRec.Op} {r : Reg} (hP : P.Facts) (hs : NonRec.Shape P s.root) (h : Within P s.root r)
    (hst : NonRec.Step P false s op s') : Within P s'.root ((reqOf op).elim r (askStep P r)) := by
  cases hst with
  | @watch p isrec c e O dt hp he hd hO =>
    have hx := (NonRec.watchOp_effect hP O hs hp isrec c he hd).2
    refine h.grow he (fun d q _ hn => by rw [hx, if_neg hn]) (fun v hv => ?_)
    rw [hx, if_pos ⟨rfl, rfl⟩] at hv
    generalize hw : (watchAt s.root p).val (.user c) = a at hv ⊢
    split at hv
    · cases hv
      rw [BitVec.or_assoc]
      exact fun i hi => hi
    · split at hv
      · have : a = v := by rw [← hw]; exact WP.val_eq_of_get? hv
        rw [this]; exact Event.sub_or_left _ _
      · unfold NonRec.rolledBack at hv
        rw [hw] at hv
        generalize WP.total P _ = w at hv
        simp only at hv
        split at hv
        · cases hv
        · cases hv
          clear hw hx
          ebits
  | stop hO => exact h.stop (NonRec.stop_effect hP _ hs _).2
  | @internal ei O dt hp hd hO =>
    have hx := (NonRec.internal_effect O hs hp hd).2
    simp only [reqOf, Option.elim, askStep]
    constructor
    · intro d q v hq hv
      rw [hx] at hv
      split at hv
      · cases hv
      · next hn =>
        obtain ⟨ev, f, h1, h2⟩ := h.ent d q v hq hv
        refine ⟨ev, f, ?_, h2⟩
        split
        · next he => unfold Reg.remove; rw [if_neg fun hp => hn ⟨he, hp⟩]; exact h1
        · exact h1
    · intro d q ev f hr
      split at hr
      · unfold Reg.remove at hr
        split at hr
        · cases hr
        · exact h.clean _ _ _ _ hr
      · exact h.clean _ _ _ _ hr
  | shuffle hsh =>
    refine ⟨fun d q v hq hv => h.ent d q v hq ?_, h.clean⟩
    rw [← hv]; exact (hsh.get q (.user d)).symm

theorem Within.rstep {s s' : St} {op : Rec.ROp} {r : Reg} (hP : P.Facts) (hs : Rec.ROK (Rec.RW P) s.root) (h : Within P s.root r)
    (hst : Rec.RStep P false s op s') : Within P s'.root ((reqOfR op).elim r (askStep P r)) := by
  cases hst with
  | @watch p isrec c e O hp he =>
    have hx := Rec.watchOp_eff hP O hs hp.2 isrec c he
    refine h.grow he (fun d q hq hn => hx.frame d q hq hn) (fun v hv => ?_)
    rw [← Rec.setOf_eq]
    cases hres : (Rec.watchOp P O s p isrec c e).2 with
    | true =>
      have h1 := hx.done hres
      rw [h1] at hv; cases hv
      exact fun i hi => hi
    | false =>
      have h1 := (hx.undone hres).2
      have : (watchAt (Rec.watchOp P O s p isrec c e).1.root p).val (.user c) = v := WP.val_eq_of_get? hv
      rw [this] at h1; exact h1
  | stop hO => exact h.stop (Rec.stop_entry _ hs _)
  | shuffle hsh =>
    refine ⟨fun d q v hq hv => h.ent d q v hq ?_, h.clean⟩
    rw [← hv]; exact (hsh.get q (.user d)).symm

theorem within_hist (hP : P.Facts) {ops : List NonRec.Op} {s : St} (h : NonRec.Hist P false ops s) :
    Within P s.root (asked P (ops.filterMap reqOf)) := by
  induction h with
  | nil => exact Within.init P
  | @snoc ops s op s' h1 h2 ih =>
    have := ih.step hP (NonRec.Hist.shape hP h1) h2
    rw [List.filterMap_append]
    cases op with
    | shuffle => rw [show List.filterMap reqOf [NonRec.Op.shuffle] = [] from rfl, List.append_nil]; exact this
    | _ => simpa [reqOf, asked_snoc] using this

theorem within_rhist (hP : P.Facts) {ops : List Rec.ROp} {s : St} (h : Rec.RHist P false ops s) :
    Within P s.root (asked P (ops.filterMap reqOfR)) := by
  induction h with
  | nil => exact Within.init P
  | @snoc ops s op s' h1 h2 ih =>
    have := ih.rstep hP (Rec.RHist.rok hP h1) h2
    rw [List.filterMap_append]
    cases op with
    | shuffle => rw [show List.filterMap reqOfR [Rec.ROp.shuffle] = [] from rfl, List.append_nil]; exact this
    | _ => simpa [reqOfR, asked_snoc] using this

theorem Within.sent {root : Node} {r : Reg} (hP : P.Facts) (h : Within P root r) (hnd : ∀ q, [] ∉ q → (watchAt root q).Nodup)
    {ei : EventInfo} (hpl : PlainEvent P ei.event) (hE : ei.event &&& P.internal = 0) (hpath : [] ∉ ei.path) {c : Nat}
    (hk : Key.user c ∈ NonRec.sends P root ei) : AskedFor r c ei := by
  obtain ⟨q, nd, v, hg, hv, h1, _, h2⟩ := NonRec.C03_only_requested hP root hpl hE hk
  have hdl : [] ∉ ei.path.dropLast := fun hc => hpath (List.dropLast_subset _ hc)
  have hq : [] ∉ q := by
    rcases h2 with h2 | h2 | h2
    · rw [h2]; exact hpath
    · rw [h2]; exact hdl
    · exact fun hc => hdl (h2.1.subset hc)
  have hw : watchAt root q = nd.watch := by unfold watchAt Node.find; rw [hg]; rfl
  have hn := hnd q hq
  have he : entry root c q = some v := by
    unfold entry
    rw [hw] at hn ⊢
    exact GoMap.get?_of_mem hn hv
  obtain ⟨ev, f, h3, h4⟩ := h.ent c q v hq he
  refine ⟨q, ev, f, h3, ?_, ?_⟩
  · have h5 : P.recursive ⊑ P.internal := Rec.recursive_internal P
    generalize ei.event = E at h1 hE
    clear h2 hpl he hv
    cases f <;> simp only [if_true, Bool.false_eq_true, if_false] at h4 <;> ebits
  · rcases h2 with h2 | h2 | ⟨h2, _, h6⟩
    · exact .inl h2
    · exact .inr (.inl h2)
    · refine .inr (.inr ⟨h2, ?_⟩)
      cases f with
      | true => rfl
      | false =>
        exfalso
        have h7 := h.clean _ _ _ _ h3
        have h5 : P.recursive ⊑ P.internal := Rec.recursive_internal P
        have h8 := hP.recursive_ne
        simp only [Bool.false_eq_true, if_false] at h4
        generalize P.recursive = R at *
        generalize P.internal = N at *
        clear h1 h2 hpl hE he hv h3
        apply h8
        ebits

/-- What is sent is in the tree at that moment. -/
theorem Exec.send_now {Y : Sys} (L : Laws Y) {t₁ t₂ : List (Lab Y.Req)} {s : State Y} {i : Nat} {k : Key} {ei : EventInfo}
    (h : Exec Y cfg (t₁ ++ .send i k ei :: t₂) s) : ∃ s₁, Exec Y cfg t₁ s₁ ∧ k ∈ Y.sends s₁.tree ei ∧ Y.okEv ei := by
  obtain ⟨s₁, h1, h2⟩ := Run.split h
  rw [show Lab.send i k ei :: t₂ = [Lab.send i k ei] ++ t₂ from rfl] at h2
  obtain ⟨s₂, h5, _⟩ := Run.split h2
  have hi := Exec.inv L h1
  have h6 := h5.single
  cases h6 with
  | send _ _ d _ a b hh =>
    have hm : (i, ei, Disp.reading d (some k)) ∈ s₁.disp := by rw [hh]; simp
    have h7 := hi.about _ _ _ _ hm
    exact ⟨s₁, h1, List.count_pos_iff.1 (Nat.lt_of_le_of_lt (Nat.zero_le _) h7), hi.oks.disp _ hm⟩

/-- **C114** (non-recursive tree).  Whatever the schedule, whatever fails: an event that is sent to a channel was asked for with Watches of this channel that took
effect before, and that no Stop of the channel and no removal took back since. -/
theorem C114_plain (hP : P.Facts) {t₁ t₂ : List (Lab Req)} {s : State (plainTree P)} {i c : Nat} {ei : EventInfo}
    (h : Exec (plainTree P) cfg (t₁ ++ .send i (.user c) ei :: t₂) s) (hpl : PlainEvent P ei.event) (hE : ei.event &&& P.internal = 0) :
    AskedFor (asked P (effects t₁)) c ei := by
  obtain ⟨s₁, h1, h2, h5⟩ := Exec.send_now (plainLaws P hP) h
  obtain ⟨ops, h3, h4⟩ := lin_hist (Exec.lin h1)
  have hw := within_hist hP h3
  rw [h4] at hw
  exact hw.sent hP (fun q _ => ((NonRec.Hist.shape hP h3).nr q).inv.nodup) hpl hE h5.2 h2

/-- **C114** (recursive tree). -/
theorem C114_rec (hP : P.Facts) {t₁ t₂ : List (Lab Req)} {s : State (recTree P)} {i c : Nat} {ei : EventInfo}
    (h : Exec (recTree P) cfg (t₁ ++ .send i (.user c) ei :: t₂) s) (hpl : PlainEvent P ei.event) (hE : ei.event &&& P.internal = 0) :
    AskedFor (asked P (effects t₁)) c ei := by
  obtain ⟨s₁, h1, h2, h5⟩ := Exec.send_now (recLaws P hP) h
  obtain ⟨ops, h3, h4⟩ := lin_rhist (Exec.lin h1) (Exec.quiet h1).eff
  have hw := within_rhist hP h3
  rw [h4] at hw
  exact hw.sent hP (fun q _ => (Rec.ROK.watchAt (Rec.RHist.rok hP h3) (Rec.RW.nil P) q).nodup) hpl hE h5.2 h2

/-! ### Where the events come from -/

/-- The events in the tree's goroutines. -/
structure Carries {Y : Sys} (Q : EventInfo → Prop) (s : State Y) : Prop where
  cq : ∀ ei ∈ s.cq, Q ei
  disp : ∀ x ∈ s.disp, Q x.2.1

theorem Carries.mono {Y : Sys} {Q Q' : EventInfo → Prop} {s : State Y} (h : Carries Q s) (hq : ∀ ei, Q ei → Q' ei) : Carries Q' s :=
  ⟨fun ei he => hq _ (h.cq ei he), fun x hx => hq _ (h.disp x hx)⟩

theorem Carries.tr {Y : Sys} {Q : EventInfo → Prop} {s s' : State Y} {l : Lab Y.Req} (h : Carries Q s) (ht : Tr Y cfg s l s')
    (hl : ∀ ei, l ≠ .push ei) : Carries Q s' ∧ ∀ i k ei, l = .send i k ei → Q ei := by
  have rep : ∀ {i : Nat} {ei : EventInfo} {x : Disp} {a b : List (Nat × EventInfo × Disp)}, s.disp = a ++ (i, ei, x) :: b →
      ∀ x', ∀ y ∈ a ++ (i, ei, x') :: b, Q y.2.1 := by
    intro i ei x a b hh x' y hy
    have hd := h.disp
    rw [hh] at hd
    rcases List.mem_append.1 hy with hy | hy
    · exact hd y (by simp [hy])
    · rcases List.mem_cons.1 hy with rfl | hy
      · exact hd (i, ei, x) (by simp)
      · exact hd y (by simp [hy])
  have del : ∀ {i : Nat} {ei : EventInfo} {x : Disp} {a b : List (Nat × EventInfo × Disp)}, s.disp = a ++ (i, ei, x) :: b →
      ∀ y ∈ a ++ b, Q y.2.1 := by
    intro i ei x a b hh y hy
    refine h.disp y ?_
    rw [hh]
    rcases List.mem_append.1 hy with hy | hy <;> simp [hy]
  cases ht with
  | push ei r hh hc => exact absurd rfl (hl ei)
  | spawn ei q hh =>
    refine ⟨⟨fun x hx => h.cq x (by rw [hh]; simp [hx]), fun x hx => ?_⟩, by intro _ _ _ h; cases h⟩
    rcases List.mem_cons.1 hx with rfl | hx
    · exact h.cq ei (by rw [hh]; simp)
    · exact h.disp x hx
  | rlock i ei a b hh hw hI hp => exact ⟨⟨h.cq, rep hh _⟩, by intro _ _ _ h; cases h⟩
  | pick i ei d k a b hh hk => exact ⟨⟨h.cq, rep hh _⟩, by intro _ _ _ h; cases h⟩
  | send i ei d k a b hh =>
    refine ⟨⟨h.cq, rep hh _⟩, ?_⟩
    intro _ _ _ h'
    cases h'
    exact h.disp (i, ei, .reading d (some k)) (by rw [hh]; simp)
  | runlock i ei d a b hh hk hd => exact ⟨⟨h.cq, rep hh _⟩, by intro _ _ _ h; cases h⟩
  | fin i ei d a b hh hk hd => exact ⟨⟨h.cq, del hh⟩, by intro _ _ _ h; cases h⟩
  | handed i ei a b hh hc => exact ⟨⟨h.cq, del hh⟩, by intro _ _ _ h; cases h⟩
  | _ => exact ⟨⟨h.cq, h.disp⟩, by intro _ _ _ h; cases h⟩

/-! ### Programs with the tree in them: an operation begins, and later it is done with the tree -/

/-- The request that has the lock, and is not done. -/
def Held {Y : Sys} (s : State Y) (r : Y.Req) : Prop := (∃ i, (i, r, Call.locked) ∈ s.calls) ∨ ∃ ei, s.int = .locked ei ∧ r = Y.intern ei

theorem Held.tr {Y : Sys} {s s' : State Y} {l : Lab Y.Req} {r : Y.Req} (h : Held s r) (ht : Tr Y cfg s l s') (h1 : ∀ i r, l ≠ .effect i r)
    (h2 : ∀ r, l ≠ .intEffect r) : Held s' r := by
  have rep : ∀ {i : Nat} {r' : Y.Req} {x : Call} {a b : List (Nat × Y.Req × Call)} (m : List (Nat × Y.Req × Call)), s.calls = a ++ (i, r', x) :: b → x ≠ .locked →
      (∃ i, (i, r, Call.locked) ∈ s.calls) → ∃ i, (i, r, Call.locked) ∈ a ++ m ++ b := by
    intro i r' x a b m hh hx hl
    obtain ⟨j, hj⟩ := hl
    rw [hh] at hj
    refine ⟨j, ?_⟩
    rcases List.mem_append.1 hj with hj | hj
    · simp [hj]
    · rcases List.mem_cons.1 hj with hj | hj
      · cases hj; exact absurd rfl hx
      · simp [hj]
  cases ht with
  | effect i r' a b t' hh => exact absurd rfl (h1 i r')
  | intEffect ei t' hh => exact absurd rfl (h2 _)
  | call r' hok hu => exact h.imp (fun ⟨i, hi⟩ => ⟨i, List.mem_cons_of_mem _ hi⟩) id
  | lock i r' a b hh => exact h.imp (fun hl => by simpa using rep [(i, r', .locked)] hh (by simp) hl) id
  | unlock i r' a b hh => exact h.imp (fun hl => by simpa using rep [(i, r', .unlocked)] hh (by simp) hl) id
  | ret i r' a b hh => exact h.imp (fun hl => by simpa using rep [] hh (by simp) hl) id
  | intRecv ei q hh hi => exact h.imp id fun ⟨ei', h', _⟩ => by rw [hi] at h'; cases h'
  | intLock ei hi => exact h.imp id fun ⟨ei', h', _⟩ => by rw [hi] at h'; cases h'
  | intUnlock ei hi => exact h.imp id fun ⟨ei', h', _⟩ => by rw [hi] at h'; cases h'
  | _ => exact h

/-- Nobody reads the tree then. -/
theorem Held.alone {Y : Sys} {s : State Y} {r : Y.Req} (h : Held s r) (hx : Excl s) : ¬ s.Reading := by
  intro hr
  rw [reading_iff] at hr
  rcases hx.excl with h1 | h1
  · omega
  · rcases h with ⟨i, hi⟩ | ⟨ei, hi, _⟩
    · have := (callHolds_iff s).1 ⟨i, r, .inl hi⟩
      omega
    · rw [hi] at h1
      simp [Intern.holds] at h1

/-- The tree after the operations that began, of which the last may be under way: `hist` tells what histories lead where. -/
def Tied {Y : Sys} {Op : Type} (hist : List Op → Y.σ → Prop) (ops : List Op) (s : State Y) (plan : Option (Y.Req × Y.σ)) : Prop :=
  (plan = none ∧ hist ops s.tree) ∨ ∃ r t, plan = some (r, t) ∧ hist ops t ∧ Held s r

variable {Y : Sys} {Op : Type} {hist : List Op → Y.σ → Prop} {ops : List Op}

theorem Tied.same {s s' : State Y} {plan : Option (Y.Req × Y.σ)} (h : Tied hist ops s plan) (h1 : s'.tree = s.tree) (h2 : s'.calls = s.calls)
    (h3 : s'.int = s.int) : Tied hist ops s' plan := by
  unfold Tied Held at *
  rw [h1, h2, h3]; exact h

theorem Tied.tr {s s' : State Y} {l : Lab Y.Req} {plan : Option (Y.Req × Y.σ)} (h : Tied hist ops s plan) (ht : Tr Y cfg s l s')
    (h1 : ∀ i r, l ≠ .effect i r) (h2 : ∀ r, l ≠ .intEffect r) : Tied hist ops s' plan := by
  have h3 : s'.tree = s.tree := by
    cases ht with
    | effect i r => exact absurd rfl (h1 i r)
    | intEffect => exact absurd rfl (h2 _)
    | _ => rfl
  refine h.imp (fun h => by rw [h3]; exact h) fun ⟨r, t, h4, h5, h6⟩ => ⟨r, t, h4, h5, h6.tr ht h1 h2⟩

theorem Tied.begin {s : State Y} {plan : Option (Y.Req × Y.σ)} {o : List Op} {r : Y.Req} {t : Y.σ} (h : Tied hist ops s plan) (hp : plan = none)
    (hr : Held s r) (ht : hist ops s.tree → hist (ops ++ o) t) : Tied hist (ops ++ o) s (some (r, t)) := by
  rcases h with ⟨_, h⟩ | ⟨r', t', h, _⟩
  · exact .inr ⟨r, t, rfl, ht h, hr⟩
  · rw [hp] at h; cases h

theorem Tied.finish {s s' : State Y} {plan : Option (Y.Req × Y.σ)} {r : Y.Req} {t : Y.σ} (h : Tied hist ops s plan) (hp : plan = some (r, t))
    (ht : s'.tree = t) : Tied hist ops s' none := by
  rcases h with ⟨h, _⟩ | ⟨r', t', h, h1, _⟩
  · rw [hp] at h; cases h
  · rw [hp] at h; cases h
    exact .inl ⟨rfl, by rw [ht]; exact h1⟩

/-- When an event is sent, no operation is under way, and the tree has the channel for the event. -/
theorem Tied.sent {L : Laws Y} {s s' : State Y} {plan : Option (Y.Req × Y.σ)} {i : Nat} {k : Key} {ei : EventInfo} (h : Tied hist ops s plan)
    (hi : Inv L s) (ht : Tr Y cfg s (.send i k ei) s') : hist ops s.tree ∧ k ∈ Y.sends s.tree ei ∧ Y.okEv ei := by
  cases ht with
  | send _ _ d _ a b hh =>
    have hm : (i, ei, Disp.reading d (some k)) ∈ s.disp := by rw [hh]; simp
    refine ⟨?_, List.count_pos_iff.1 (Nat.lt_of_le_of_lt (Nat.zero_le _) (hi.about _ _ _ _ hm)), hi.oks.disp _ hm⟩
    rcases h with ⟨_, h⟩ | ⟨r, t, _, _, h⟩
    · exact h
    · exact absurd ⟨i, ei, d, some k, hm⟩ (h.alone hi.excl)

theorem hist_steps {P : Platform} {b : Bool} {ops o : List NonRec.Op} {s t : St} (h : NonRec.Hist P false ops s) (h' : NonRec.Steps P b s o t) :
    NonRec.Hist P false (ops ++ o) t := by
  induction h' with
  | nil => simpa using h
  | snoc _ hs ih =>
    rw [← List.append_assoc]
    refine ih.snoc ?_
    cases hs with
    | watch h1 h2 h3 _ => exact .watch h1 h2 h3 (by intro h; cases h)
    | stop _ => exact .stop (by intro h; cases h)
    | internal h1 h2 _ => exact .internal h1 h2 (by intro h; cases h)
    | shuffle h => exact .shuffle h

theorem rhist_steps {P : Platform} {b : Bool} {ops o : List Rec.ROp} {s t : St} (h : Rec.RHist P false ops s) (h' : Rec.RSteps P b s o t) :
    Rec.RHist P false (ops ++ o) t := by
  induction h' with
  | nil => simpa using h
  | snoc _ hs ih =>
    rw [← List.append_assoc]
    refine ih.snoc ?_
    cases hs with
    | watch h1 h2 => exact .watch h1 h2
    | stop _ => exact .stop (by intro h; cases h)
    | shuffle h => exact .shuffle h

/-- What has been asked for with the operations that began. -/
def wanted (P : Platform) (ops : List NonRec.Op) : Reg := asked P (ops.filterMap reqOf)

/-- The same for the recursive tree. -/
def rwanted (P : Platform) (ops : List Rec.ROp) : Reg := asked P (ops.filterMap reqOfR)

theorem Tied.asked_plain {P : Platform} (hP : P.Facts) {ops : List NonRec.Op} {s s' : State (plainTree P)} {plan : Option (Req × St)} {i c : Nat}
    {ei : EventInfo} (h : Tied (Y := plainTree P) (NonRec.Hist P false) ops s plan) (hi : Inv (plainLaws P hP) s)
    (ht : Tr (plainTree P) cfg s (.send i (.user c) ei) s') (hpl : PlainEvent P ei.event) (hE : ei.event &&& P.internal = 0) :
    AskedFor (wanted P ops) c ei := by
  obtain ⟨h1, h2, h3⟩ := h.sent hi ht
  exact (within_hist hP h1).sent hP (fun q _ => ((NonRec.Hist.shape hP h1).nr q).inv.nodup) hpl hE h3.2 h2

theorem Tied.asked_rec {P : Platform} (hP : P.Facts) {ops : List Rec.ROp} {s s' : State (recTree P)} {plan : Option (Req × St)} {i c : Nat}
    {ei : EventInfo} (h : Tied (Y := recTree P) (Rec.RHist P false) ops s plan) (hi : Inv (recLaws P hP) s)
    (ht : Tr (recTree P) cfg s (.send i (.user c) ei) s') (hpl : PlainEvent P ei.event) (hE : ei.event &&& P.internal = 0) :
    AskedFor (rwanted P ops) c ei := by
  obtain ⟨h1, h2, h3⟩ := h.sent hi ht
  exact (within_rhist hP h1).sent hP (fun q _ => (Rec.ROK.watchAt (Rec.RHist.rok hP h1) (Rec.RW.nil P) q).nodup) hpl hE h3.2 h2

end Sched

/-! ### Linux -/

namespace Inotify
open Spec.Inotify (means kernelBits)

/-- The event comes from a record, of a watch of a path and a set that were asked for. -/
def Told (A : Path → Event → Prop) (tr : List Raw) (o : Out) : Prop :=
  o.sys ∈ tr ∧ (o.info.event, o.sys.mask &&& 0xfff) ∈ means ∧
    ∃ p e, A p e ∧ o.info.event ⊑ e ∧ o.info.path = if o.sys.name = [] then p else join p o.sys.name

/-- What is on its way. -/
structure SInv (A : Path → Event → Prop) (tr : List Raw) (s : PSt) : Prop where
  kern : ∀ r ∈ tr, FromKernel r
  queue : ∀ r ∈ s.queue, r ∈ tr
  batch : ∀ es, s.batch = some es → ∀ r ∈ es, r ∈ tr
  got : ∀ es, .got es ∈ s.cons → ∀ r ∈ es, r ∈ tr
  sending : ∀ l, .sending l ∈ s.cons → ∀ o ∈ l, Told A tr o
  out : ∀ o ∈ s.out, Told A tr o
  table : ∀ x ∈ s.k.m, accepts x.2.mask = true ∧ A x.2.path x.2.mask
  call : ∀ wd p e, s.caller = .added wd p e → accepts e = true ∧ A p e

theorem Told.mono {A A' : Path → Event → Prop} {tr l : List Raw} {o : Out} (h : Told A tr o) (ha : ∀ p e, A p e → A' p e) : Told A' (tr ++ l) o :=
  ⟨List.mem_append_left _ h.1, h.2.1, h.2.2.imp fun _ ⟨e, h1, h2⟩ => ⟨e, ha _ _ h1, h2⟩⟩

theorem SInv.mono {A A' : Path → Event → Prop} {tr : List Raw} {s : PSt} (h : SInv A tr s) (ha : ∀ p e, A p e → A' p e) : SInv A' tr s := by
  have told : ∀ o, Told A tr o → Told A' tr o := fun o ho => by simpa using ho.mono (l := []) ha
  exact ⟨h.kern, h.queue, h.batch, h.got, fun l hl o ho => told o (h.sending l hl o ho), fun o ho => told o (h.out o ho),
    fun x hx => ⟨(h.table x hx).1, ha _ _ (h.table x hx).2⟩, fun wd p e hc => ⟨(h.call wd p e hc).1, ha _ _ (h.call wd p e hc).2⟩⟩

theorem outs_told {A : Path → Event → Prop} {m : Table} {es tr : List Raw} (hk : ∀ r ∈ tr, FromKernel r)
    (hes : ∀ r ∈ es, r ∈ tr) (hm : ∀ x ∈ m, accepts x.2.mask = true ∧ A x.2.path x.2.mask) : ∀ o ∈ outs m es, Told A tr o := by
  intro o ho
  obtain ⟨r, hr, ho⟩ := List.mem_flatMap.1 ((outs_batch m es).mem_iff.1 ho)
  rw [outs_single] at ho
  obtain ⟨ei, hei, rfl⟩ := List.mem_map.1 ho
  obtain ⟨k, d, hkk, hmask⟩ := hk r (hes r hr)
  obtain ⟨w, hw, hsub, -, hpath⟩ := C33_sound hei
  obtain ⟨ha, hc⟩ := hm _ (GoMap.mem_of_get? hw)
  refine ⟨hes r hr, ?_, w.path, w.mask, hc, hsub, hpath⟩
  rcases hkk with hlt | h3
  · have hb : BitVec.twoPow 32 k ∈ kernelBits := by
      have : ∀ k < 12, BitVec.twoPow 32 k ∈ kernelBits := by decide
      exact this k hlt
    have hand : ∀ k < 12, ∀ d : Bool, (BitVec.twoPow 32 k ||| (if d then inIsdir else 0)) &&& 0xfff = BitVec.twoPow 32 k := by decide
    have h1 := (C33_exact hw ha hb d (by rw [hmask]; rfl)).1 ei.event
    show (ei.event, r.mask &&& 0xfff) ∈ means
    rw [hmask, hand k hlt d]
    apply Classical.byContradiction
    intro hno
    rw [if_neg (fun h => hno h.2), List.length_eq_zero_iff] at h1
    have hmem : ei ∈ (sent m [r]).filter (fun x => decide (x.event = ei.event)) := List.mem_filter.2 ⟨hei, by simp⟩
    rw [h1] at hmem
    cases hmem
  · rw [sent_other hw ha h3 hmask] at hei
    cases hei

theorem SInv.step {A : Path → Event → Prop} {tr l : List Raw} {s s' : PSt} (hi : SInv A tr s)
    (hc' : ∀ wd p e, s'.caller = .added wd p e → A p e) (h : PStep s l s') : SInv A (tr ++ l) s' := by
  have kern : (∀ r ∈ l, FromKernel r) → ∀ r ∈ tr ++ l, FromKernel r :=
    fun h r hr => (List.mem_append.1 hr).elim (hi.kern r) (h r)
  have queue : ∀ r ∈ s.queue, r ∈ tr ++ l := fun r hr => List.mem_append_left _ (hi.queue r hr)
  have batch : ∀ es, s.batch = some es → ∀ r ∈ es, r ∈ tr ++ l := fun es h r hr => List.mem_append_left _ (hi.batch es h r hr)
  have got : ∀ es, .got es ∈ s.cons → ∀ r ∈ es, r ∈ tr ++ l := fun es h r hr => List.mem_append_left _ (hi.got es h r hr)
  have sending : ∀ x, .sending x ∈ s.cons → ∀ o ∈ x, Told A (tr ++ l) o := fun x h o ho => (hi.sending x h o ho).mono fun _ _ h => h
  have out : ∀ o ∈ s.out, Told A (tr ++ l) o := fun o ho => (hi.out o ho).mono fun _ _ h => h
  cases h with
  | change r hr =>
    refine ⟨kern (by simpa using hr), fun x hx => ?_, batch, got, sending, out, hi.table, hi.call⟩
    rcases List.mem_append.1 hx with hx | hx
    · exact queue x hx
    · exact List.mem_append_right _ hx
  | fs k' hf => cases hf with | mk _ _ _ => exact ⟨kern (by simp), queue, batch, got, sending, out, hi.table, hi.call⟩
  | reorder k' _ hf =>
    cases hf with
    | mk m' hp => exact ⟨kern (by simp), queue, batch, got, sending, out, fun x hx => hi.table x (hp.mem_iff.1 hx), hi.call⟩
  | add p e wd k' hc he ha =>
    refine ⟨kern (by simp), queue, batch, got, sending, out, ?_, ?_⟩
    · simp only [addWatch_m ha]; exact hi.table
    · intro wd' p' e' h; cases h; exact ⟨he, hc' _ _ _ rfl⟩
  | table wd p e hc =>
    refine ⟨kern (by simp), queue, batch, got, sending, out, fun x hx => ?_, by intro _ _ _ h; cases h⟩
    rcases mem_set' hx with hx | rfl
    · exact hi.table x hx
    · exact hi.call _ _ _ hc
  | rm p wd w l hc hf hl =>
    refine ⟨kern ?_, fun x hx => ?_, batch, got, sending, out, hi.table, by intro _ _ _ h; cases h⟩
    · intro r hr
      rcases hl with rfl | rfl
      · cases hr
      · rw [List.mem_singleton.1 hr]; exact ⟨15, false, by decide, show inIgnored = _ by decide⟩
    · rcases List.mem_append.1 hx with hx | hx
      · exact queue x hx
      · exact List.mem_append_right _ hx
  | forget wd hc =>
    exact ⟨kern (by simp), queue, batch, got, sending, out, fun x hx => hi.table x (mem_del' hx), by intro _ _ _ h; cases h⟩
  | read n hb =>
    refine ⟨kern (by simp), fun x hx => queue x (List.mem_of_mem_drop hx), ?_, got, sending, out, hi.table, hi.call⟩
    intro es h r hr
    cases h
    exact queue r (List.mem_of_mem_take hr)
  | hand i es hb hc =>
    refine ⟨kern (by simp), queue, (by intro _ h; cases h), ?_, ?_, out, hi.table, hi.call⟩
    · intro es' h
      rcases List.mem_or_eq_of_mem_set h with h | h
      · exact got es' h
      · cases h; exact batch es hb
    · intro x h
      rcases List.mem_or_eq_of_mem_set h with h | h
      · exact sending x h
      · cases h
  | transform i es hc =>
    refine ⟨kern (by simp), queue, batch, ?_, ?_, out, hi.table, hi.call⟩
    · intro es' h
      rcases List.mem_or_eq_of_mem_set h with h | h
      · exact got es' h
      · cases h
    · intro x h
      rcases List.mem_or_eq_of_mem_set h with h | h
      · exact sending x h
      · cases h
        exact fun o ho => (outs_told hi.kern (hi.got es (List.mem_of_getElem? hc)) hi.table o ho).mono fun _ _ h => h
  | send i o x hc =>
    refine ⟨kern (by simp), queue, batch, ?_, ?_, ?_, hi.table, hi.call⟩
    · intro es' h
      rcases List.mem_or_eq_of_mem_set h with h | h
      · exact got es' h
      · cases h
    · intro y h
      rcases List.mem_or_eq_of_mem_set h with h | h
      · exact sending y h
      · cases h
        exact fun o' ho => sending _ (List.mem_of_getElem? hc) o' (List.mem_cons_of_mem _ ho)
    · intro o' ho
      rcases List.mem_append.1 ho with ho | ho
      · exact out o' ho
      · rw [List.mem_singleton.1 ho]
        exact sending _ (List.mem_of_getElem? hc) o List.mem_cons_self
  | next i hc =>
    refine ⟨kern (by simp), queue, batch, ?_, ?_, out, hi.table, hi.call⟩
    · intro es' h
      rcases List.mem_or_eq_of_mem_set h with h | h
      · exact got es' h
      · cases h
    · intro x h
      rcases List.mem_or_eq_of_mem_set h with h | h
      · exact sending x h
      · cases h

theorem SInv.init (A : Path → Event → Prop) (f : Path → Option Nat) (n : Nat) : SInv A [] (PSt.init f n) := by
  refine ⟨(by intro _ h; cases h), (by intro _ h; cases h), (by intro _ h; cases h), ?_, ?_, (by intro _ h; cases h), (by intro _ h; cases h),
    (by intro _ _ _ h; cases h)⟩
  · intro es h; cases (List.mem_replicate.1 h).2
  · intro es h; cases (List.mem_replicate.1 h).2

end Inotify

namespace Linux
open Inotify (PSt PStep Raw Out SInv Told join)
open Spec.Inotify (means)

/-- The watcher was asked, by Watch or Rewatch, to watch the path for the set. -/
def Set (l : Log) (p : Path) (e : Event) : Prop := ∃ c, (c, true) ∈ l ∧ Asks c p e

/-- The event comes from a record of the kernel, about a path that the watcher was asked to watch, for a set that has the event, or about an entry of it. -/
def Reported (l : Log) (raws : List Raw) (ei : EventInfo) : Prop :=
  ∃ r ∈ raws, (ei.event, r.mask &&& 0xfff) ∈ means ∧
    ∃ p e, Set l p e ∧ ei.event ⊑ e ∧ ei.path = if r.name = [] then p else join p r.name

theorem Reported.mono {l l' : Log} {raws raws' : List Raw} {ei : EventInfo} (h : Reported l raws ei) (hl : ∀ x ∈ l, x ∈ l')
    (hr : ∀ x ∈ raws, x ∈ raws') : Reported l' raws' ei := by
  obtain ⟨r, h1, h2, p, e, ⟨c, h3, h4⟩, h5⟩ := h
  exact ⟨r, hr _ h1, h2, p, e, ⟨c, hl _ h3, h4⟩, h5⟩

theorem Told.reported {l : Log} {raws : List Raw} {o : Out} (h : Told (Set l) raws o) : Reported l raws o.info :=
  ⟨o.sys, h.1, h.2.1, h.2.2⟩

/-- Every signal is about something the kernel reported. -/
theorem LRun.reported {cfg : Sched.Cfg} {st : Bool} {I : LSt → Prop} {f : Path → Option Nat} {n : Nat} {ops raws sg} {s : LSt}
    (h : LRun cfg st I (LSt.init f n) ops raws sg s) :
    SInv (Set s.log) raws s.pipe ∧ Sched.Carries (Reported s.log raws) s.sys ∧ ∀ x ∈ sg, Reported s.log raws x.2 := by
  induction h with
  | refl _ => exact ⟨SInv.init _ f n, ⟨(by intro _ h; cases h), (by intro _ h; cases h)⟩, by intro _ h; cases h⟩
  | @step ops raws sg o r g s' s'' h0 hs _ ih =>
    obtain ⟨h1, h2, h3⟩ := ih
    have grow : ∀ {l' : Log}, (∀ x ∈ s'.log, x ∈ l') → Sched.Carries (Reported l' (raws ++ r)) s'.sys ∧ ∀ x ∈ sg, Reported l' (raws ++ r) x.2 :=
      fun hl => ⟨h2.mono fun ei he => he.mono hl fun x hx => List.mem_append_left _ hx,
        fun x hx => (h3 x hx).mono hl fun x hx => List.mem_append_left _ hx⟩
    have same := grow (l' := s'.log) fun _ h => h
    have call : ∀ wd p e, s'.pipe.caller = .added wd p e → Set s'.log p e := fun wd p e hc => (h1.call wd p e hc).2
    have cons : ∀ c ok, ∀ x ∈ s'.log, x ∈ (c, ok) :: s'.log := fun c ok x hx => List.mem_cons_of_mem _ hx
    cases hs with
    | go l sys' htr hfree =>
      have h4 := h2.tr htr (by rintro ei rfl; exact hfree)
      refine ⟨by simpa using h1, by simpa using h4.1, fun x hx => ?_⟩
      rw [List.append_nil]
      rcases List.mem_append.1 hx with hx | hx
      · exact h3 x hx
      · cases l with
        | send i k ei => rw [List.mem_singleton.1 hx]; exact h4.2 i k ei rfl
        | _ => cases hx
    | pipe raws' p' hst hc ho hk =>
      refine ⟨h1.step (fun wd p e h => call wd p e (hc ▸ h)) hst, same.1, by simpa using same.2⟩
    | send i o l hi hc hok =>
      have h4 := h1.step (s' := { s'.pipe with cons := s'.pipe.cons.set i (.sending l), out := s'.pipe.out ++ [o] }) call (.send i o l hi)
      refine ⟨h4, ⟨fun ei hei => ?_, same.1.disp⟩, by simpa using same.2⟩
      rcases List.mem_append.1 hei with hei | hei
      · exact same.1.cq ei hei
      · rw [List.mem_singleton.1 hei]
        exact Told.reported (h4.out o (by simp))
    | plan r ops' t' new hr hp ht hn => exact ⟨by simpa using h1, same.1, by simpa using same.2⟩
    | add c p e rest wd k' ht ha hc he hk =>
      have hm : ∀ q e', Set s'.log q e' → Set ((c, true) :: s'.log) q e' := fun q e' ⟨c', h, h'⟩ => ⟨c', List.mem_cons_of_mem _ h, h'⟩
      have h4 := (h1.mono hm).step (s' := { s'.pipe with k := k', caller := .added wd p e })
        (by intro wd' p' e' h; cases h; exact ⟨c, List.mem_cons_self, ha⟩) (.add p e wd k' hc he hk)
      exact ⟨h4, (grow (cons c true)).1, by simpa using (grow (cons c true)).2⟩
    | table wd p e hc =>
      exact ⟨h1.step (by intro wd' p' e' h; cases h) (.table wd p e hc), same.1, by simpa using same.2⟩
    | rm p rest wd w l ht hc hf hl =>
      have hm : ∀ q e', Set s'.log q e' → Set ((.unwatch p, true) :: s'.log) q e' := fun q e' ⟨c', h, h'⟩ => ⟨c', List.mem_cons_of_mem _ h, h'⟩
      exact ⟨(h1.mono hm).step (by intro wd' p' e' h; cases h) (.rm p wd w _ hc hf hl), (grow (cons _ _)).1, by simpa using (grow (cons _ _)).2⟩
    | forget wd hc =>
      exact ⟨h1.step (by intro wd' p' e' h; cases h) (.forget wd hc), same.1, by simpa using same.2⟩
    | refuse c rest ht hc hf =>
      have hm : ∀ q e', Set s'.log q e' → Set ((c, false) :: s'.log) q e' := fun q e' ⟨c', h, h'⟩ => ⟨c', List.mem_cons_of_mem _ h, h'⟩
      exact ⟨by simpa using h1.mono hm, (grow (cons _ _)).1, by simpa using (grow (cons _ _)).2⟩
    | effect i r a b t' hcalls hp ht hc => exact ⟨by simpa using h1, ⟨same.1.cq, same.1.disp⟩, by simpa using same.2⟩
    | intEffect ei t' hi hp ht hc => exact ⟨by simpa using h1, ⟨same.1.cq, same.1.disp⟩, by simpa using same.2⟩

theorem free_effect {l : Sched.Lab Sched.Req} (h : Free l) : (∀ i r, l ≠ .effect i r) ∧ ∀ r, l ≠ .intEffect r :=
  ⟨by rintro i r rfl; exact h, by rintro r rfl; exact h⟩

/-- The tree is that of the operations. -/
theorem LRun.tied {cfg : Sched.Cfg} {st : Bool} {J : LSt → Prop} {f : Path → Option Nat} {n : Nat} {ops raws sg} {s : LSt}
    (h : LRun cfg st J (LSt.init f n) ops raws sg s) : Sched.Tied (Y := Y) (NonRec.Hist I false) ops s.sys s.plan := by
  induction h with
  | refl _ => exact .inl ⟨rfl, .nil⟩
  | step _ hs _ ih =>
    cases hs with
    | go l sys' htr hfree => simpa using ih.tr htr (free_effect hfree).1 (free_effect hfree).2
    | plan r ops' t' new hr hp ht hn => exact ih.begin hp hr fun h => Sched.hist_steps h ht.1
    | effect i r a b t' hcalls hp ht hc => simpa using ih.finish hp rfl
    | intEffect ei t' hi hp ht hc => simpa using ih.finish hp rfl
    | _ => rw [List.append_nil]; exact ih.same rfl rfl rfl

/-- **C114, Linux.**  In every execution of the whole program, under every schedule and whatever fails: an event that is now signalled to a channel was asked for with
Watches of that channel that began before and that no Stop of it and no removal took back since; and it comes from a record that the kernel queued, which
has the event, for a path that the watcher was asked to watch for a set with this event, or for an entry of it. -/
theorem C114_linux {cfg : Sched.Cfg} {st : Bool} {f : Path → Option Nat} {n : Nat} {ops raws sg} {s s' : LSt}
    (h : LRun cfg st (fun _ => True) (LSt.init f n) ops raws sg s) {o r g} (hs : LStep cfg st s o r g s') {c : Nat} {ei : EventInfo}
    (hm : (Key.user c, ei) ∈ g) :
    Sched.AskedFor (Sched.wanted I ops) c ei ∧ Reported s.log raws ei := by
  have h1 := (LRun.reported (h.step hs trivial)).2.2 _ (List.mem_append_right _ hm)
  cases hs with
  | go l sys' htr hfree =>
    cases l with
    | send i k ei' =>
      cases List.mem_singleton.1 hm
      rw [List.append_nil] at h1
      refine ⟨?_, h1⟩
      obtain ⟨⟨t, h2, _⟩, _⟩ := C90_parts h
      have h4 : ∀ x ∈ means, NonRec.PlainEvent I x.1 ∧ x.1 &&& I.internal = 0 := by
        intro x hx
        refine ⟨fun hw => absurd hw (by decide), ?_⟩
        revert x
        decide
      obtain ⟨r, _, h5, _⟩ := h1
      exact (LRun.tied h).asked_plain factsI (Sched.Exec.inv _ h2) htr (h4 _ h5).1 (h4 _ h5).2
    | _ => cases hm
  | _ => cases hm

/-- Every signal is made in some step. -/
theorem LRun.moment {cfg : Sched.Cfg} {st : Bool} {J : LSt → Prop} {s₀ s : LSt} {ops raws sg} (h : LRun cfg st J s₀ ops raws sg s) {x : Key × EventInfo}
    (hx : x ∈ sg) : ∃ ops₁ raws₁ sg₁ s₁ o r g s₂, LRun cfg st J s₀ ops₁ raws₁ sg₁ s₁ ∧ LStep cfg st s₁ o r g s₂ ∧ x ∈ g ∧ ops₁ <+: ops ∧ raws₁ <+: raws := by
  induction h with
  | refl _ => cases hx
  | step h0 hs _ ih =>
    rcases List.mem_append.1 hx with hx | hx
    · obtain ⟨a, b, c, d, e, f, g, k, h1, h2, h3, h4, h5⟩ := ih hx
      exact ⟨a, b, c, d, e, f, g, k, h1, h2, h3, h4.trans (List.prefix_append _ _), h5.trans (List.prefix_append _ _)⟩
    · exact ⟨_, _, _, _, _, _, _, _, h0, hs, hx, List.prefix_append _ _, List.prefix_append _ _⟩

/-- Channel 1 watches `/d` for Create, channel 2 for Write; `/d/f` is created: a signal is made, and it was asked for. -/
example : ∃ ops₁ raws₁ sg₁ s₁ g s₂, LRun Ex.cfg true (fun _ => True) (LSt.init Ex.fs 2) ops₁ raws₁ sg₁ s₁ ∧ LStep Ex.cfg true s₁ [] [] g s₂ ∧
    (Key.user 1, Ex.ei) ∈ g ∧ Sched.AskedFor (Sched.wanted I ops₁) 1 Ex.ei := by
  obtain ⟨s', h2, _⟩ := Ex.run2
  have h := Ex.run1.trans (h2.mono fun _ _ => trivial)
  obtain ⟨ops₁, raws₁, sg₁, s₁, o, r, g, s₂, h3, h4, h5, _⟩ := h.moment (x := (.user 1, Ex.ei)) (by simp)
  have h6 := (C114_linux h3 h4 h5).1
  cases h4 with
  | go l sys' htr hfree => exact ⟨_, _, _, _, _, _, h3, .go l sys' htr hfree, h5, h6⟩
  | _ => cases h5

theorem signals_split {t : List (Sched.Lab Sched.Req)} {k : Key} {ei : EventInfo} (h : (k, ei) ∈ signals t) :
    ∃ t₁ i t₂, t = t₁ ++ .send i k ei :: t₂ := by
  obtain ⟨l, hl, h⟩ := List.mem_flatMap.1 h
  cases l with
  | send i k' ei' =>
    have := List.mem_singleton.1 h
    cases this
    obtain ⟨a, b, rfl⟩ := List.append_of_mem hl
    exact ⟨a, i, b, rfl⟩
  | _ => cases h

/-- The same, without the watcher. -/
example : ∃ t₁ i t₂ s, Sched.Exec Y Ex.cfg (t₁ ++ .send i (.user 1) Ex.ei :: t₂) s ∧ Sched.AskedFor (Sched.asked I (Sched.effects t₁)) 1 Ex.ei := by
  obtain ⟨s', h2, _⟩ := Ex.run2
  have h := Ex.run1.trans (h2.mono fun _ _ => trivial)
  obtain ⟨⟨t, h3, h4⟩, _⟩ := C90_parts h
  obtain ⟨t₁, i, t₂, rfl⟩ := signals_split (t := t) (k := .user 1) (ei := Ex.ei) (by rw [h4]; simp)
  exact ⟨t₁, i, t₂, _, h3, Sched.C114_plain factsI h3 (fun hw => absurd hw (by decide)) (by decide)⟩

end Linux
end Verif
