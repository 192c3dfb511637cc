/-
Properties of the recursive tree: C02, C03, C04, C06, C07, C08, C43.
-/
import Verif.RecEx

namespace Verif
namespace Rec
open GoMap NonRec Spec

variable {P : Platform}

/-- Both trees have the same dispatch (tree_nonrecursive.go:35-77, tree_recursive.go:124-153). -/
theorem sends_eq (P : Platform) (root : Node) (ei : EventInfo) : Rec.sends P root ei = NonRec.sends P root ei := rfl

/-- **C02.**  After every history of Watch and Stop calls (any outcome of the OS calls made by Stop, any map
iteration order) an event on a path of at least two components is sent to each channel none of whose own
Watch calls failed exactly as often as the registration table says, and to nobody who never registered. -/
theorem C02_delivery_exact (hP : P.Facts) {rel : Bool} {ops : List ROp} {s : St} (h : RHist P rel ops s)
    {ei : EventInfo} (hlen : 2 ≤ ei.path.length) (hpath : [] ∉ ei.path)
    (hE : ei.event &&& P.internal = 0) (hpl : PlainEvent P ei.event) :
    (∀ c, (∀ op ∈ ops, op.succeededFor c) → (Rec.sends P s.root ei).count (.user c) = copies (rregOf ops) c ei.event ei.path) ∧
    (∀ k ∈ Rec.sends P s.root ei, ∃ c, k = .user c) := by
  have hs := RHist.rok hP h
  have hdl : [] ∉ ei.path.dropLast := fun hc => hpath (List.dropLast_subset _ hc)
  rw [sends_eq]
  constructor
  · intro c hops
    have hr := RHist.refinesAt hP h hops
    rw [count_sends hs.sound hlen]
    rw [hit_wants (hs.sound _) (hr.ent _ hdl) hE hpl, hit_wants (hs.sound _) (hr.ent _ hpath) hE hpl]
    have : ∀ i, (watchAt s.root (ei.path.dropLast.take i)).hit P (.user c) (WP.eventmask P ei P.recursive) =
        wantsBelow (rregOf ops) c ei.event (ei.path.dropLast.take i) := by
      intro i
      exact hit_wantsBelow hP (hs.sound _) (hr.ent _ fun hc => hdl (List.take_subset _ _ hc))
        (fun e f hx => (hr.clean _ _ _ hx).1) hE hpl
    simp only [this]
    rfl
  · intro k hk
    cases k with
    | user c => exact ⟨c, rfl⟩
    | nil => exact absurd rfl (mem_sends hk).1
    | recCh =>
      obtain ⟨_, q, nd, v, hg, hv, _⟩ := mem_sends hk
      have hw : watchAt s.root q = nd.watch := by unfold watchAt Node.find; rw [hg]; rfl
      have h1 := ROK.watchAt hs (RW.nil P) q
      rw [hw] at h1
      have := h1.norec
      rw [get?_of_mem h1.nodup hv] at this
      simp at this

/-- Non-trivial case: channel 1 gets its copy of a Write to `/a/b/f` through `/a/...`, channel 2 through
`/a/b`, channel 3 nothing. -/
example : RHist Ex.F true Ex.ops2 Ex.s2 ∧ (∀ op ∈ Ex.ops2, op.succeeded) ∧ 2 ≤ Ex.ei.path.length ∧ [] ∉ Ex.ei.path ∧
    Ex.ei.event &&& Ex.F.internal = 0 ∧ PlainEvent Ex.F Ex.ei.event ∧
    copies (rregOf Ex.ops2) 1 Ex.ei.event Ex.ei.path = 1 ∧ copies (rregOf Ex.ops2) 2 Ex.ei.event Ex.ei.path = 1 ∧
    copies (rregOf Ex.ops2) 3 Ex.ei.event Ex.ei.path = 0 ∧
    Rec.sends Ex.F Ex.s2.root Ex.ei = [.user 1, .user 2] :=
  ⟨Ex.hist2, Ex.ok2, by decide, by decide, by decide, by unfold PlainEvent; decide, by decide, by decide, by decide,
    by decide⟩

/-- The Watch of channel 3 on `/a/...` fails: channels 1 and 2, registered at the same place and below, get the same as before.
(Channel 3 gets events too: C10.) -/
example : ∃ s', RHist Ex.F true (Ex.ops2 ++ [.watch [Ex.a] true 3 (Ex.CW ||| Ex.F.remove) false]) s' ∧
    (∀ op ∈ Ex.ops2 ++ [.watch [Ex.a] true 3 (Ex.CW ||| Ex.F.remove) false], op.succeededFor 1 ∧ op.succeededFor 2) ∧
    ¬ (∀ op ∈ Ex.ops2 ++ [.watch [Ex.a] true 3 (Ex.CW ||| Ex.F.remove) false], op.succeededFor 3) ∧
    Rec.sends Ex.F s'.root Ex.ei = [.user 1, .user 3, .user 2] := by
  refine ⟨(watchOp Ex.F (fun _ _ => false) Ex.s2 [Ex.a] true 3 (Ex.CW ||| Ex.F.remove)).1, ?_, ?_, ?_, by decide⟩
  · have : (watchOp Ex.F (fun _ _ => false) Ex.s2 [Ex.a] true 3 (Ex.CW ||| Ex.F.remove)).2 = false := by decide
    rw [← this]
    exact Ex.hist2.snoc (.watch Ex.good_a (by unfold UserEvents; decide))
  · simp [Ex.ops2, ROp.succeededFor]
  · simp [ROp.succeededFor]

/-- **C03** (recursive tree).  On every tree whatever its content: an event is sent to a channel only if an
entry of that channel on the parent directory or on the path contains the event, or an entry with the
recursive bit on a directory above contains it. -/
theorem C03_only_requested (hP : P.Facts) (root : Node) {ei : EventInfo} (hpl : PlainEvent P ei.event)
    (hE : ei.event &&& P.internal = 0) {k : Key} (h : k ∈ Rec.sends P root ei) :
    ∃ q nd v, root.get? q = some nd ∧ (k, v) ∈ nd.watch ∧ ei.event ⊑ v ∧ v &&& P.omitted = 0 ∧
      (q = ei.path ∨ q = ei.path.dropLast ∨
        (q <+: ei.path.dropLast ∧ q ≠ ei.path.dropLast ∧ P.recursive ⊑ v)) :=
  NonRec.C03_only_requested hP root hpl hE h

example : Key.user 1 ∈ Rec.sends Ex.F Ex.s2.root Ex.ei ∧ Ex.ei.event &&& Ex.F.internal = 0 := by decide

/-! ### C02 and C03 are false for raw events on Windows -/

namespace ExW

/-- The Windows platform. -/
abbrev D : Platform := Platform.readdcw

/-- `FileNotifyChangeSize` (event_readdcw.go:40). -/
abbrev size : Event := 0x8

theorem uSize : UserEvents D size := by unfold UserEvents; decide

/-- Channel 1 watches `/a`, channel 2 watches `/a/...`, both for FileNotifyChangeSize. -/
def s1 : St := (watchOp D .ok init [Ex.a] true 2 size).1
def s2 : St := (watchOp D .ok s1 [Ex.a] false 1 size).1

def ops : List ROp := [.watch [Ex.a] true 2 size true, .watch [Ex.a] false 1 size true]

theorem hist : RHist D true ops s2 :=
  (RSteps.nil.snoc (RStep.watch (O := .ok) Ex.good_a uSize)).snoc (RStep.watch (O := .ok) Ex.good_a uSize)

/-- `FileActionModified` (event_readdcw.go:66) on `/a/b/f`. -/
def ei : EventInfo := { event := 0xc000, path := [Ex.a, Ex.b, Ex.f], ftype := .unknown }

end ExW

/-- On Windows a channel that watches a directory without recursion is sent the modifications of files
anywhere below it: `matches` (watchpoint_readdcw.go:37-39) accepts when any `FileNotifyChange*` bit is
shared and then does not look at the recursive bit. -/
theorem C03_refuted_windows : ∃ (ops : List ROp) (s : St), RHist Platform.readdcw true ops s ∧
    (∀ op ∈ ops, op.succeeded) ∧ rregOf ops 1 [Ex.a] = some (ExW.size, false) ∧
    (∀ q, q ≠ [Ex.a] → rregOf ops 1 q = none) ∧
    Key.user 1 ∈ Rec.sends Platform.readdcw s.root ExW.ei ∧ ExW.ei.path = [Ex.a, Ex.b, Ex.f] := by
  refine ⟨ExW.ops, ExW.s2, ExW.hist, by simp [ExW.ops, ROp.succeeded], by decide, ?_, by decide, rfl⟩
  intro q hq
  simp [ExW.ops, rregOf, rregStep, Reg.watch, Reg.empty, hq]

/-! ### Stop -/

/-- A channel without entries is sent nothing. -/
theorem not_sent {root : Node} (hs : ROK (RW P) root) {c : Nat} (h : ∀ q, [] ∉ q → entry root c q = none)
    {ei : EventInfo} (hpath : [] ∉ ei.path) : Key.user c ∉ Rec.sends P root ei := by
  intro hk
  rw [sends_eq] at hk
  obtain ⟨_, q, nd, v, hg, hv, hh⟩ := mem_sends hk
  have hdl : [] ∉ ei.path.dropLast := fun hc => hpath (List.dropLast_subset _ hc)
  have hq : [] ∉ q := by
    rcases hh with ⟨h1, _⟩ | ⟨h1 | h1, _⟩
    · exact fun hc => hdl (h1.subset hc)
    · rw [h1]; exact hdl
    · rw [h1]; exact hpath
  have hw : watchAt root q = nd.watch := by unfold watchAt Node.find; rw [hg]; rfl
  have h1 := h q hq
  have h2 := (ROK.watchAt hs (RW.nil P) q).nodup
  unfold entry at h1
  rw [hw] at h1 h2
  rw [get?_of_mem h2 hv] at h1
  simp at h1

/-- The operation is a Watch with the channel. -/
def ROp.watches (c : Nat) : ROp → Prop
  | .watch _ _ d _ _ => d = c
  | _ => False

theorem RStep.absent (hP : P.Facts) {rel : Bool} {s s' : St} {op : ROp} {c : Nat} (hs : ROK (RW P) s.root)
    (hst : RStep P rel s op s') (hop : ¬ op.watches c) (h : ∀ q, [] ∉ q → entry s.root c q = none) :
    ∀ q, [] ∉ q → entry s'.root c q = none := by
  intro q hq
  cases hst with
  | @watch p isrec d e O hp he =>
    rw [(watchOp_eff hP O hs hp.2 isrec d he).frame c q hq, h q hq]
    rintro ⟨rfl, _⟩; exact hop rfl
  | stop hO => rw [stop_entry _ hs, h q hq, ite_self]
  | shuffle hsh =>
    have := hsh.get q (.user c)
    unfold entry; rw [this]; exact h q hq

theorem RSteps.absent (hP : P.Facts) {rel : Bool} {s s' : St} {ops : List ROp} {c : Nat} (hs : ROK (RW P) s.root)
    (hst : RSteps P rel s ops s') (hops : ∀ op ∈ ops, ¬ op.watches c) (h : ∀ q, [] ∉ q → entry s.root c q = none) :
    ∀ q, [] ∉ q → entry s'.root c q = none := by
  induction hst with
  | nil => exact h
  | @snoc ops s₁ op s₂ h1 h2 ih =>
    exact h2.absent hP (h1.rok hP hs) (hops op (by simp)) (ih (fun o ho => hops o (by simp [ho])))

/-- **C04** (recursive tree).  After every history, failed calls included, after Stop(c) and any later
operations without a Watch with `c`, no event is sent to `c`. -/
theorem C04_stop_silences (hP : P.Facts) {rel : Bool} {ops ops' : List ROp} {s s₁ s₂ : St} {c : Nat}
    (h : RHist P rel ops s) (hstop : RStep P rel s (.stop c) s₁) (hlater : RSteps P rel s₁ ops' s₂)
    (hops' : ∀ op ∈ ops', ¬ op.watches c) {ei : EventInfo} (hpath : [] ∉ ei.path) :
    Key.user c ∉ Rec.sends P s₂.root ei := by
  have hs := RHist.rok hP h
  have hs₁ := hstop.rok hP hs
  refine not_sent (hlater.rok hP hs₁) (hlater.absent hP hs₁ hops' ?_) hpath
  intro q hq
  cases hstop with
  | stop hO => rw [stop_entry _ hs]; simp

/-- Non-trivial case: before Stop(1) the event is sent to channel 1. -/
example : RHist Ex.F true Ex.ops2 Ex.s2 ∧ RStep Ex.F true Ex.s2 (.stop 1) Ex.s3 ∧
    RSteps Ex.F true Ex.s3 [.stop 2] Ex.s4 ∧ (∀ op ∈ [ROp.stop 2], ¬ op.watches 1) ∧ [] ∉ Ex.ei.path ∧
    Key.user 1 ∈ Rec.sends Ex.F Ex.s2.root Ex.ei :=
  ⟨Ex.hist2, Ex.step3, RSteps.nil.snoc Ex.step4, by simp [ROp.watches], by decide, by decide⟩

/-- **C06** (recursive tree).  Stop(c) does not change how many copies of any event any other channel is
sent. -/
theorem C06_stop_frame (hP : P.Facts) {rel : Bool} {ops : List ROp} {s s₁ : St} {c : Nat}
    (h : RHist P rel ops s) (hstop : RStep P rel s (.stop c) s₁) {d : Nat} (hd : d ≠ c) (ei : EventInfo) :
    (Rec.sends P s₁.root ei).count (.user d) = (Rec.sends P s.root ei).count (.user d) := by
  rw [sends_eq, sends_eq]
  by_cases hlen : 2 ≤ ei.path.length
  case neg => rw [sends_short _ (by omega), sends_short _ (by omega)]
  have hs := RHist.rok hP h
  have hs₁ := hstop.rok hP hs
  rw [count_sends hs.sound hlen, count_sends hs₁.sound hlen]
  cases hstop with
  | @stop _ O hO =>
    have hh : ∀ q m, (watchAt (stop P O s c).root q).hit P (.user d) m = (watchAt s.root q).hit P (.user d) m := by
      intro q m
      rw [hit_user (hs.sound q), hit_user (hs₁.sound q)]
      have := stop_entry O hs c d q
      rw [if_neg hd] at this
      unfold entry at this
      rw [this]
    simp only [hh]

/-- Non-trivial case: channel 2 is sent one copy before and after. -/
example : RHist Ex.F true Ex.ops2 Ex.s2 ∧ RStep Ex.F true Ex.s2 (.stop 1) Ex.s3 ∧
    (Rec.sends Ex.F Ex.s2.root Ex.ei).count (.user 2) = 1 ∧ (Rec.sends Ex.F Ex.s3.root Ex.ei).count (.user 2) = 1 :=
  ⟨Ex.hist2, Ex.step3, by decide, by decide⟩

/-! ### Watch -/

/-- **C07**, first half (recursive tree).  No Watch, successful or not, takes an event away from any
channel. -/
theorem C07_watch_expands (hP : P.Facts) {rel : Bool} {ops : List ROp} {s s₁ : St} {p : Path} {isrec res : Bool}
    {c : Nat} {e : Event} (h : RHist P rel ops s) (hw : RStep P rel s (.watch p isrec c e res) s₁)
    {d : Nat} {q : Path} (hq : [] ∉ q) {v : Event} (hv : entry s.root d q = some v) (hne : v &^ P.internal ≠ 0) :
    ∃ v', entry s₁.root d q = some v' ∧ v ⊑ v' := by
  have hs := RHist.rok hP h
  obtain ⟨O, hp, he, hres, rfl⟩ := hw.watch_inv
  have hx := watchOp_eff hP O hs hp.2 isrec c he
  by_cases hdq : d = c ∧ q = p
  · obtain ⟨rfl, rfl⟩ := hdq
    have hval : (watchAt s.root q).val (.user d) = v := val_of_some hv
    cases hr : (watchOp P O s q isrec d e).2 with
    | true =>
      rw [hx.done hr, hval]
      exact ⟨_, rfl, Event.sub_or_left _ _⟩
    | false =>
      rcases (hx.undone hr).1 with h1 | h1
      · exfalso
        rw [hval] at h1
        apply hne
        clear hx hr hres hv hval hne h hw
        ebits
      · rw [hval] at h1
        unfold entry
        cases hg : GoMap.get? (watchAt (watchOp P O s q isrec d e).1.root q) (.user d) with
        | none =>
          rw [WP.val_eq_zero_of_none hg] at h1
          have := Event.sub_zero h1
          subst this
          exact absurd (by simp) hne
        | some v' =>
          rw [WP.val_eq_of_get? hg] at h1
          exact ⟨v', rfl, h1⟩
  · rw [hx.frame d q hq hdq, hv]
    exact ⟨v, rfl, Event.Sub.refl _⟩

example : RHist Ex.F true [.watch [Ex.a, Ex.b] false 2 Ex.CW true] Ex.s1 ∧
    RStep Ex.F true Ex.s1 (.watch [Ex.a] true 1 Ex.W true) Ex.s2 ∧
    entry Ex.s1.root 2 [Ex.a, Ex.b] = some Ex.CW ∧ Ex.CW &^ Ex.F.internal ≠ 0 :=
  ⟨Ex.hist1, Ex.step2, by decide, by decide⟩

/-- **C08** (recursive tree).  An empty event list is a no-op for every path, valid or not; a nil channel
panics before anything is changed, whatever the other arguments are. -/
theorem C08_empty_list (P : Platform) (O : Oracle) (s : St) (clean : Option (Path × Bool)) :
    (∀ c, apiWatch P O s clean (some c) [] = (s, .ok)) ∧
    (∀ es, apiWatch P O s clean none es = (s, .panic)) := ⟨fun _ => rfl, fun _ => rfl⟩

/-! ### Top-level paths -/

/-- **C43** refuted for the recursive tree: whatever is registered, an event on a top-level path is sent to
nobody. -/
theorem C43_refuted (P : Platform) (root : Node) {ei : EventInfo} (h : ei.path.length < 2) :
    Rec.sends P root ei = [] := by rw [sends_eq]; exact sends_short root h

end Rec
end Verif
