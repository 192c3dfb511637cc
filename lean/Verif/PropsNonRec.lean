/-
Properties of the non-recursive tree: C01, C03, C04, C06, C07, C08, C10-C14, C20.
-/
import Verif.NonRecReg
import Verif.NonRecEx

namespace Verif
namespace NonRec
open GoMap Spec

variable {P : Platform}

/-! ### Who is sent an event -/

/-- Every send comes from an entry of a watchpoint that matches: on the parent directory or on
the path itself, or with the recursive bit on a node above.  Holds for every tree. -/
theorem mem_sends {root : Node} {ei : EventInfo} {k : Key} (h : k ∈ sends P root ei) :
    k ≠ .nil ∧ ∃ q nd v, root.get? q = some nd ∧ (k, v) ∈ nd.watch ∧
      ((q <+: ei.path.dropLast ∧ q ≠ ei.path.dropLast ∧ WP.matchesEv P v (WP.eventmask P ei P.recursive) = true) ∨
       ((q = ei.path.dropLast ∨ q = ei.path) ∧ WP.matchesEv P v (WP.eventmask P ei 0) = true)) := by
  have hd : ∀ {w : WP} {extra : Event}, k ∈ w.dispatch P ei extra →
      k ≠ .nil ∧ ∃ v, (k, v) ∈ w ∧ WP.matchesEv P v (WP.eventmask P ei extra) = true := by
    intro w extra h
    unfold WP.dispatch at h
    simp only at h
    split at h
    · simp only [List.mem_map, List.mem_filter, Bool.and_eq_true, decide_eq_true_eq] at h
      obtain ⟨⟨k', v⟩, ⟨h1, h2, h3⟩, rfl⟩ := h
      exact ⟨h2, v, h1, h3⟩
    · simp at h
  unfold sends at h
  simp only [List.mem_append, List.mem_flatMap] at h
  rcases h with ⟨nd, hnd, h⟩ | h
  · rw [Node.walkPath_visited, List.mem_filterMap] at hnd
    obtain ⟨i, hi, hg⟩ := hnd
    obtain ⟨h1, v, h2, h3⟩ := hd h
    refine ⟨h1, _, nd, v, hg, h2, .inl ⟨List.take_prefix _ _, ?_, h3⟩⟩
    intro he
    have := congrArg List.length he
    rw [List.length_take] at this
    have := List.mem_range.1 hi
    omega
  · by_cases hne : ei.path.dropLast = []
    · rw [hne] at h; simp [Node.walkPath] at h
    · rw [Node.walkPath_base _ hne] at h
      cases hg : root.get? ei.path.dropLast with
      | none => rw [hg] at h; simp at h
      | some nd =>
        rw [hg] at h
        simp only [List.mem_append] at h
        rcases h with h | h
        · obtain ⟨h1, v, h2, h3⟩ := hd h
          exact ⟨h1, _, nd, v, hg, h2, .inr ⟨.inl rfl, h3⟩⟩
        · have hp0 : ei.path ≠ [] := by rintro h0; simp [h0] at hne
          have hpath : ei.path.dropLast ++ [ei.path.getLastD []] = ei.path := by
            rw [List.getLastD_eq_getLast?, List.getLast?_eq_some_getLast hp0]
            exact List.dropLast_concat_getLast hp0
          cases hg2 : nd.child.get? (ei.path.getLastD []) with
          | none => rw [hg2] at h; simp at h
          | some leaf =>
            rw [hg2] at h
            obtain ⟨h1, v, h2, h3⟩ := hd h
            refine ⟨h1, ei.path, leaf, v, ?_, h2, .inr ⟨.inr rfl, h3⟩⟩
            rw [← hpath, Node.get?_append, hg]
            simp only [Option.bind_some, Node.get?_cons, hg2, Node.get?_nil]

/-- **C01.**  After every history (any map iteration order, any outcome of the OS calls) an event on
a path of at least two components is sent to each channel of which no non-recursive Watch failed
exactly as often as the registration table says, and never to the internal channel. -/
theorem C01_delivery_exact (hP : P.Facts) {rel : Bool} {ops : List Op} {s : St} (h : Hist P rel ops s)
    {ei : EventInfo} (hlen : 2 ≤ ei.path.length)
    (hE : ei.event &&& P.internal = 0) (hpl : PlainEvent P ei.event) :
    (∀ c, (∀ op ∈ ops, NoFail c op) → (sends P s.root ei).count (.user c) = copies (regOf P ops) c ei.event ei.path) ∧
    (∀ k ∈ sends P s.root ei, ∃ c, k = .user c) := by
  have hs := Hist.shape hP h
  constructor
  · intro c hops
    have hr := Hist.refines hP h hops
    rw [count_sends hs.sound hlen]
    simp only [hr.hit_parent hs hE hpl, hr.hit_above hP hs hE hpl]
    rfl
  · intro k hk
    cases k with
    | user c => exact ⟨c, rfl⟩
    | nil => exact absurd rfl (mem_sends hk).1
    | recCh =>
      exfalso
      have h1 : 0 < (sends P s.root ei).count .recCh := List.count_pos_iff.2 hk
      rw [count_sends hs.sound hlen] at h1
      have ho := omit_of_internal hE
      have hm0 : WP.eventmask P ei 0 &&& P.omitted = 0 := by rw [hpl.mask]; exact ho
      have hm1 : WP.eventmask P ei P.recursive &&& P.omitted = 0 := by
        rw [hpl.maskRec]
        have := hP.rec_omit
        generalize ei.event = E at ho
        clear hm0 h1 hpl hE hs
        ebits
      simp only [hit_rec hP (hs.nr _) hm0, hit_rec hP (hs.nr _) hm1] at h1
      simp at h1

/-- Non-trivial case: channel 1 gets its copy of a Write to `/a/b/f` through `/a/...`, channel 2
through `/a/b`, channel 3 nothing. -/
example : Hist Ex.I true Ex.ops2 Ex.s2 ∧ (∀ op ∈ Ex.ops2, NoPlainFail op) ∧ 2 ≤ Ex.ei.path.length ∧
    Ex.ei.event &&& Ex.I.internal = 0 ∧ PlainEvent Ex.I Ex.ei.event ∧
    copies (regOf Ex.I Ex.ops2) 1 Ex.ei.event Ex.ei.path = 1 ∧
    copies (regOf Ex.I Ex.ops2) 2 Ex.ei.event Ex.ei.path = 1 ∧
    copies (regOf Ex.I Ex.ops2) 3 Ex.ei.event Ex.ei.path = 0 ∧
    sends Ex.I Ex.s2.root Ex.ei = [.user 1, .user 2] :=
  ⟨Ex.hist2, Ex.nofail2, by decide, by decide, by unfold PlainEvent; decide, by decide, by decide, by decide, by decide⟩

/-- **C03.**  On every tree whatever its content: an event is sent to a channel only if an entry
of that channel on the parent directory or on the path contains the event, or an entry with the
recursive bit on a directory above contains it. -/
theorem C03_only_requested (hP : P.Facts) (root : Node) {ei : EventInfo} (hpl : PlainEvent P ei.event)
    (hE : ei.event &&& P.internal = 0) {k : Key} (h : k ∈ sends P root ei) :
    ∃ q nd v, root.get? q = some nd ∧ (k, v) ∈ nd.watch ∧ ei.event ⊑ v ∧ v &&& P.omitted = 0 ∧
      (q = ei.path ∨ q = ei.path.dropLast ∨
        (q <+: ei.path.dropLast ∧ q ≠ ei.path.dropLast ∧ P.recursive ⊑ v)) := by
  obtain ⟨hk, q, nd, v, hg, hv, hh⟩ := mem_sends h
  have key : ∀ m, m &&& P.omitted = 0 → (P.windows = true → m &&& P.changeModified = 0) →
      WP.matchesEv P v m = true → m ⊑ v ∧ v &&& P.omitted = 0 := by
    intro m hm hw hmv
    have ho : v &&& P.omitted = 0 := by
      unfold WP.matchesEv at hmv
      split at hmv
      · simp only [Bool.and_eq_true, decide_eq_true_eq, hm, BitVec.xor_eq_zero_iff] at hmv
        have := hmv.1
        simpa using this
      · simp only [Bool.and_eq_true, decide_eq_true_eq, hm, BitVec.xor_eq_zero_iff] at hmv
        have := hmv.1
        simpa using this
    rw [matches_iff hw ho hm] at hmv
    exact ⟨by simpa using hmv, ho⟩
  have ho := omit_of_internal hE
  rcases hh with ⟨h1, h2, h3⟩ | ⟨h1, h3⟩
  · rw [hpl.maskRec] at h3
    obtain ⟨h4, h5⟩ := key _ (by
      have := hP.rec_omit
      generalize ei.event = E at ho
      clear h3 hpl hE key
      ebits) hpl.modified.2 h3
    have h4 := (show ei.event ⊑ v ∧ P.recursive ⊑ v from
      ⟨Event.Sub.trans (Event.sub_or_left _ _) h4, Event.Sub.trans (Event.sub_or_right _ _) h4⟩)
    exact ⟨q, nd, v, hg, hv, h4.1, h5, .inr (.inr ⟨h1, h2, h4.2⟩)⟩
  · rw [hpl.mask] at h3
    obtain ⟨h4, h5⟩ := key _ ho hpl.modified.1 h3
    refine ⟨q, nd, v, hg, hv, h4, h5, ?_⟩
    rcases h1 with h1 | h1
    · exact .inr (.inl h1)
    · exact .inl h1

example : Key.user 1 ∈ sends Ex.I Ex.s2.root Ex.ei ∧ Ex.ei.event &&& Ex.I.internal = 0 := by decide

/-! ### Stop -/

theorem entry_of_mem {root : Node} (hs : Shape P root) {q : Path} {nd : Node} (hg : root.get? q = some nd)
    {c : Nat} {v : Event} (hv : (Key.user c, v) ∈ nd.watch) : entry root c q = some v := by
  have hw : watchAt root q = nd.watch := by unfold watchAt Node.find; rw [hg]; rfl
  unfold entry
  have hn := (hs.nr q).inv.nodup
  rw [hw] at hn ⊢
  exact get?_of_mem hn hv

/-- A channel without entries is sent nothing. -/
theorem not_sent {root : Node} (hs : Shape P root) {c : Nat} (h : ∀ q, entry root c q = none) (ei : EventInfo) :
    Key.user c ∉ sends P root ei := by
  intro hk
  obtain ⟨_, q, nd, v, hg, hv, _⟩ := mem_sends hk
  have h1 := h q
  rw [entry_of_mem hs hg hv] at h1
  simp at h1

/-- The operation is a Watch with the channel. -/
def Op.watches (c : Nat) : Op → Prop
  | .watch _ _ d _ _ => d = c
  | _ => False

/-- An operation that is not a Watch with `c` gives `c` no entry. -/
theorem Step.absent (hP : P.Facts) {rel : Bool} {s s' : St} {op : Op} {c : Nat} (hs : Shape P s.root)
    (hst : Step P rel s op s') (hop : ¬ op.watches c) (h : ∀ q, entry s.root c q = none) :
    ∀ q, entry s'.root c q = none := by
  intro q
  cases hst with
  | @watch p isrec d e O dt hp he hd hO =>
    rw [(watchOp_effect hP O hs hp isrec d he hd).2 c q, if_neg, h q]
    rintro ⟨rfl, _⟩; exact hop rfl
  | stop hO => rw [(stop_effect hP _ hs _).2 c q, h q, ite_self]
  | internal hp hd hO => rw [(internal_effect _ hs hp hd).2 c q, h q, ite_self]
  | shuffle hsh =>
    have := hsh.get q (.user c)
    unfold entry; rw [this]; exact h q

theorem Steps.absent (hP : P.Facts) {rel : Bool} {s s' : St} {ops : List Op} {c : Nat} (hs : Shape P s.root)
    (hst : Steps P rel s ops s') (hops : ∀ op ∈ ops, ¬ op.watches c) (h : ∀ q, entry s.root c q = none) :
    ∀ q, entry s'.root c q = none := by
  induction hst with
  | nil => exact h
  | @snoc ops s₁ op s₂ h1 h2 ih =>
    exact h2.absent hP (h1.shape hP hs) (hops op (by simp)) (ih (fun o ho => hops o (by simp [ho])))

theorem Step.watch_inv {rel : Bool} {s s' : St} {p : Path} {isrec res : Bool} {c : Nat} {e : Event}
    (h : Step P rel s (.watch p isrec c e res) s') :
    ∃ O dt, GoodPath p ∧ UserEvents P e ∧ dt.Named ∧ (rel = true → isrec = true → O = .ok) ∧
      res = (watchOp P O dt s p isrec c e).2 ∧ s' = (watchOp P O dt s p isrec c e).1 := by
  generalize hop : Op.watch p isrec c e res = op at h
  cases h with
  | @watch p' isrec' c' e' O dt hp he hd hO =>
    simp only [Op.watch.injEq] at hop
    obtain ⟨rfl, rfl, rfl, rfl, rfl⟩ := hop
    exact ⟨O, dt, hp, he, hd, hO, rfl, rfl⟩
  | _ => simp at hop

/-- **C04** (non-recursive tree).  After every history, after Stop(c) and any later operations
without a Watch with `c`, no event is sent to `c`. -/
theorem C04_stop_silences (hP : P.Facts) {rel : Bool} {ops ops' : List Op} {s s₁ s₂ : St} {c : Nat}
    (h : Hist P rel ops s) (hstop : Step P rel s (.stop c) s₁) (hlater : Steps P rel s₁ ops' s₂)
    (hops' : ∀ op ∈ ops', ¬ op.watches c) (ei : EventInfo) : Key.user c ∉ sends P s₂.root ei := by
  have hs := Hist.shape hP h
  have hs₁ := hstop.shape hP hs
  refine not_sent (hlater.shape hP hs₁) (hlater.absent hP hs₁ hops' ?_) ei
  intro q
  cases hstop with
  | stop hO => rw [(stop_effect hP _ hs c).2 c q]; simp

/-- Non-trivial case: before Stop(1) the event is sent to channel 1. -/
example : Hist Ex.I true Ex.ops2 Ex.s2 ∧ Step Ex.I true Ex.s2 (.stop 1) Ex.s3 ∧
    Steps Ex.I true Ex.s3 [.stop 2] Ex.s4 ∧ (∀ op ∈ [Op.stop 2], ¬ op.watches 1) ∧
    Key.user 1 ∈ sends Ex.I Ex.s2.root Ex.ei :=
  ⟨Ex.hist2, Ex.step3, Steps.nil.snoc Ex.step4, by simp [Op.watches], by decide⟩

/-- An event on a path of fewer than two components is sent to nobody. -/
theorem sends_short (root : Node) {ei : EventInfo} (h : ei.path.length < 2) : sends P root ei = [] := by
  have : ei.path.dropLast = [] := List.length_eq_zero_iff.1 (by rw [List.length_dropLast]; omega)
  simp [sends, this, Node.walkPath]

/-- **C06** (non-recursive tree).  Stop(c) does not change how many copies of any event any other
channel is sent. -/
theorem C06_stop_frame (hP : P.Facts) {rel : Bool} {ops : List Op} {s s₁ : St} {c : Nat}
    (h : Hist P rel ops s) (hstop : Step P rel s (.stop c) s₁) {d : Nat} (hd : d ≠ c) (ei : EventInfo) :
    (sends P s₁.root ei).count (.user d) = (sends P s.root ei).count (.user d) := by
  by_cases hlen : 2 ≤ ei.path.length
  case neg => rw [sends_short _ (by omega), sends_short _ (by omega)]
  have hs := Hist.shape hP h
  have hs₁ := hstop.shape hP hs
  rw [count_sends hs.sound hlen, count_sends hs₁.sound hlen]
  cases hstop with
  | @stop _ O hO =>
    have he := (stop_effect hP O hs c).2 d
    simp only [hd, if_false] at he
    have hh : ∀ q m, (watchAt (stop P O s c).root q).hit P (.user d) m = (watchAt s.root q).hit P (.user d) m := by
      intro q m
      rw [hit_user (hs.sound q), hit_user (hs₁.sound q)]
      have := he q
      unfold entry at this
      rw [this]
    simp only [hh]

/-- Non-trivial case: channel 2 is sent one copy before and after. -/
example : Hist Ex.I true Ex.ops2 Ex.s2 ∧ Step Ex.I true Ex.s2 (.stop 1) Ex.s3 ∧ 2 ≤ Ex.ei.path.length ∧
    (sends Ex.I Ex.s2.root Ex.ei).count (.user 2) = 1 ∧ (sends Ex.I Ex.s3.root Ex.ei).count (.user 2) = 1 :=
  ⟨Ex.hist2, Ex.step3, by decide, by decide, by decide⟩

/-! ### Watch -/

theorem rolledBack_ge {w : WP} (hw : NR P w) (c : Nat) {e : Event} (he : UserEvents P e) {v : Event}
    (hv : w.get? (.user c) = some v) : ∃ v', rolledBack P w c e = some v' ∧ v ⊑ v' := by
  have hsub := sub_total hw.inv (k := .user c) nofun hv
  have h2 := he.2
  have h3 : v &^ P.internal ≠ 0 := (hw.user c v hv).1
  have hle : v ⊑ ((v ||| e) &^ (e &^ w.total P)) := by
    clear hv h3 he hw
    ebits
  unfold rolledBack
  rw [val_of_some hv]
  simp only
  rw [if_neg]
  · exact ⟨_, rfl, hle⟩
  · intro h0
    rw [h0] at hle
    have := Event.sub_zero hle
    rw [this] at h3
    exact h3 (by simp)

/-- **C07**, first half.  No Watch, successful or not, takes an event away from any channel. -/
theorem C07_watch_expands (hP : P.Facts) {rel : Bool} {ops : List Op} {s s₁ : St} {p : Path} {isrec res : Bool}
    {c : Nat} {e : Event} (h : Hist P rel ops s) (hw : Step P rel s (.watch p isrec c e res) s₁)
    {d : Nat} {q : Path} {v : Event} (hv : entry s.root d q = some v) :
    ∃ v', entry s₁.root d q = some v' ∧ v ⊑ v' := by
  have hs := Hist.shape hP h
  cases hw with
  | @watch _ _ _ _ O dt hp he hdt hO =>
    rw [(watchOp_effect hP O hs hp isrec c he hdt).2 d q]
    split
    · next hdq =>
      obtain ⟨rfl, rfl⟩ := hdq
      split
      · refine ⟨_, rfl, ?_⟩
        unfold entry at hv
        rw [val_of_some hv]
        exact Event.Sub.trans (Event.sub_or_left _ _) (Event.sub_or_left _ _)
      · split
        · exact ⟨v, hv, Event.Sub.refl _⟩
        · exact rolledBack_ge (hs.nr q) d he hv
    · exact ⟨v, hv, Event.Sub.refl _⟩

example : Hist Ex.I true [.watch [Ex.a] true 1 Ex.W true] Ex.s1 ∧
    Step Ex.I true Ex.s1 (.watch [Ex.a, Ex.b] false 2 Ex.CW true) Ex.s2 ∧
    entry Ex.s1.root 1 [Ex.a] = some (Ex.W ||| Ex.I.recursive) := ⟨Ex.hist1, Ex.step2, by decide⟩

/-- **C07**, second half.  A non-recursive Watch for events that the channel has on that path
already makes no OS call, succeeds and leaves every entry of every watchpoint as it was. -/
theorem C07_repeat_noop (hP : P.Facts) (O : Oracle) (dt : DirTree) {rel : Bool} {ops : List Op} {s : St} {p : Path}
    {c : Nat} {e v : Event} (h : Hist P rel ops s) (hv : entry s.root c p = some v) (he : e ⊑ v)
    (hi : e &&& P.internal = 0) :
    (watchOp P O dt s p false c e).2 = true ∧ (watchOp P O dt s p false c e).1.world = s.world ∧
    ∀ q k, (watchAt (watchOp P O dt s p false c e).1.root q).get? k = (watchAt s.root q).get? k := by
  have hs := Hist.shape hP h
  have hw := hs.nr p
  have hdiff : ((watchAt (s.root.add p) p).add P (.user c) e).2 = Diff.none := by
    rw [watchAt_add, add_diffOf P _ (k := .user c) nofun, diffOf_none, total_add P _ (k := .user c) nofun]
    have h1 := sub_total hw.inv (k := .user c) nofun hv
    clear hv
    generalize (watchAt s.root p).total P = t at h1
    clear hs h hw
    ebits
  unfold watchOp
  simp only [Bool.false_eq_true, if_false]
  unfold NonRec.watch
  simp only [hdiff, if_true, true_and]
  intro q k
  rw [watchAt_setWatch (Node.add_get_ne_none s.root p)]
  split
  · next hq =>
    subst hq
    rw [watchAt_add, WP.get?_add P _ (by simp)]
    have hvv := val_of_some hv
    split
    · next hk =>
      subst hk
      cases hn : (watchAt s.root q).get? .nil with
      | none =>
        have := hw.inv.nil_none.1 hn (.user c) nofun
        unfold entry at hv
        rw [hv] at this; simp at this
      | some t =>
        rw [val_of_some hn]
        have h1 : (v &^ P.omitted) ⊑ t := by
          have := hw.inv.val_sub (k := .user c) nofun
          rwa [hvv, val_of_some hn] at this
        have h2 : t &&& P.omitted = 0 := by
          apply Event.zero_of_getLsbD
          intro i
          rw [BitVec.getLsbD_and, Bool.and_eq_false_iff]
          by_contra hc
          have h4 := (hw.inv.total_bit i).1 (by rw [val_of_some hn]; simpa using (not_or.1 hc).1)
          exact (not_or.1 hc).2 h4.1
        clear hn hvv hv hdiff
        congr 1
        ebits
    · split
      · next hk =>
        subst hk
        rw [hvv]; unfold entry at hv; rw [hv]
        congr 1
        exact Event.sub_iff_or.1 he
      · rfl
  · rw [watchAt_add]

example : Hist Ex.I true Ex.ops2 Ex.s2 ∧ entry Ex.s2.root 2 [Ex.a, Ex.b] = some Ex.CW ∧
    Ex.W ⊑ Ex.CW ∧ Ex.W &&& Ex.I.internal = 0 := ⟨Ex.hist2, by decide, by decide, by decide⟩

/-- **C08** (non-recursive tree).  An empty event list is a no-op for every path, valid or not;
a nil channel panics before anything is changed, whatever the other arguments are. -/
theorem C08_empty_list (P : Platform) (O : Oracle) (dt : DirTree) (s : St) (clean : Option (Path × Bool)) :
    (∀ c, apiWatch P O dt s clean (some c) [] = (s, .ok)) ∧
    (∀ es, apiWatch P O dt s clean none es = (s, .panic)) := ⟨fun _ => rfl, fun _ => rfl⟩

/-! ### OS watches -/

/-- **C11.**  After every history, for every path: an event is watched by the OS on that path iff
it is not an internal bit and some channel (a user's, or the internal one for recursive
watchpoints) has it in its set there; in particular nothing is watched where nothing is
registered. -/
theorem C11_os_mirror (hP : P.Facts) {ops : List Op} {s : St} (h : Hist P true ops s) (q : Path) :
    (∀ i, BitVec.getLsbD (osOf s.world.log q) i = true ↔ BitVec.getLsbD P.internal i = false ∧
      ((∃ c v, entry s.root c q = some v ∧ BitVec.getLsbD v i = true) ∨
       (∃ v, (watchAt s.root q).get? .recCh = some v ∧ BitVec.getLsbD v i = true))) ∧
    (osOf s.world.log q = 0 ↔ watchAt s.root q = []) := by
  have hg := Hist.good hP h
  rw [hg.sync q]
  have hn := hg.shape.nr q
  refine ⟨fun i => ?_, hn.total_eq_zero hP⟩
  rw [total_bit hn.inv]
  constructor
  · rintro ⟨h1, k, v, hk, hv, hb⟩
    refine ⟨h1, ?_⟩
    cases k with
    | nil => exact absurd rfl hk
    | recCh => exact .inr ⟨v, hv, hb⟩
    | user c => exact .inl ⟨c, v, hv, hb⟩
  · rintro ⟨h1, ⟨c, v, hv, hb⟩ | ⟨v, hv, hb⟩⟩
    · exact ⟨h1, .user c, v, nofun, hv, hb⟩
    · exact ⟨h1, .recCh, v, nofun, hv, hb⟩

/-- Non-trivial case: after two Watch calls `/a` and `/a/b` are watched and `/a/f` is not. -/
example : Hist Ex.I true Ex.ops2 Ex.s2 ∧ osOf Ex.s2.world.log [Ex.a] = Ex.CW ∧
    osOf Ex.s2.world.log [Ex.a, Ex.b] = Ex.CW ∧ osOf Ex.s2.world.log [Ex.a, Ex.f] = 0 :=
  ⟨Ex.hist2, by decide, by decide, by decide⟩

/-- **C12.**  Every call made in any history meets the contract of the watcher at the moment it
is made, and no `panic("eset is empty")` is reached. -/
theorem C12_contract (hP : P.Facts) {ops : List Op} {s : St} (h : Hist P true ops s) :
    ValidLog P s.world.log ∧ s.world.panicked = false := (Hist.good hP h).fine

example : Hist Ex.I true (Ex.ops2 ++ [.stop 1] ++ [.stop 2]) Ex.s4 ∧ Ex.s4.world.log.length = 4 :=
  ⟨Ex.hist4, by decide⟩

/-- `c` was passed to Watch and not stopped since. -/
def Pending (c : Nat) (ops : List Op) : Prop :=
  ∃ a b p isrec e res, ops = a ++ Op.watch p isrec c e res :: b ∧ Op.stop c ∉ b

theorem pending_snoc {c : Nat} {ops : List Op} {op : Op} (h : Pending c ops) (hop : op ≠ .stop c) :
    Pending c (ops ++ [op]) := by
  obtain ⟨a, b, p, r, e, res, rfl, hb⟩ := h
  refine ⟨a, b ++ [op], p, r, e, res, by simp, ?_⟩
  simp [hb, Ne.symm hop]

theorem pending_watch (c : Nat) (ops : List Op) (p : Path) (isrec : Bool) (e : Event) (res : Bool) :
    Pending c (ops ++ [.watch p isrec c e res]) := ⟨ops, [], p, isrec, e, res, by simp, by simp⟩

/-- A channel that is not pending has no entries. -/
theorem absent_of_not_pending (hP : P.Facts) {rel : Bool} {ops : List Op} {s : St} (h : Hist P rel ops s) {c : Nat}
    (hc : ¬ Pending c ops) : ∀ q, entry s.root c q = none := by
  induction h with
  | nil => intro q; have := (refines_init P c).ent q; rw [this]; rfl
  | @snoc ops s op s' h1 h2 ih =>
    by_cases hop : op = .stop c
    · subst hop
      intro q
      cases h2 with
      | stop hO => rw [(stop_effect hP _ (Hist.shape hP h1) c).2 c q]; simp
    · have hnp : ¬ Pending c ops := fun hh => hc (pending_snoc hh hop)
      refine h2.absent hP (Hist.shape hP h1) ?_ (ih hnp)
      intro hw
      cases op with
      | watch p isrec d e res =>
        simp only [Op.watches] at hw
        subst hw
        exact hc (pending_watch _ _ _ _ _ _)
      | _ => exact hw

/-- Stopping the last channel empties every watchpoint. -/
theorem stop_last (hP : P.Facts) (O : Oracle) {s : St} (hs : Shape P s.root) {c : Nat}
    (h : ∀ d q, d ≠ c → entry s.root d q = none) (q : Path) : watchAt (stop P O s c).root q = [] := by
  have key : ∀ (q : Path) (nd : Node) (n : Path), nd.OK (NR P) noR n →
      (∀ d q, d ≠ c → (watchAt nd q).get? (.user d) = none) →
      (Node.travW (fun pw w => if w.length ≠ 0 then
        (watchDelMin P (pw.val .recCh) w (.user c) allEvents).1 else w) [] nd q).getD [] = [] := by
    have hone : ∀ w : WP, NR P w → (∀ d, d ≠ c → w.get? (.user d) = none) →
        (if w.length ≠ 0 then (watchDelMin P (WP.val [] .recCh) w (.user c) allEvents).1 else w) = [] := by
      intro w hw hd
      split
      · obtain ⟨h1, h2, _, _, h5⟩ := watchDelMin_spec hP hw (NR.minOK (nr_nil P)) c
        apply (h1.inv.eq_nil_iff).2
        rw [h1.inv.nil_none]
        intro k hk
        cases k with
        | nil => exact absurd rfl hk
        | user d =>
          rw [h2 d]
          split
          · rfl
          · next hdc => exact hd d hdc
        | recCh =>
          rw [h5]
          refine .inr ⟨rfl, ?_⟩
          intro d v i hdc hv
          rw [hd d hdc] at hv; simp at hv
      · next hl => exact List.length_eq_zero_iff.1 (by simpa using hl)
    intro q
    induction q with
    | nil =>
      intro nd n hok hd
      simp only [Node.travW, Option.getD_some]
      exact hone _ hok.watch (fun d hdc => by simpa [watchAt_nil] using hd d [] hdc)
    | cons b q ih =>
      intro nd n hok hd
      simp only [Node.travW]
      rw [hone _ hok.watch (fun d hdc => by simpa [watchAt_nil] using hd d [] hdc)]
      cases hc : nd.child.get? b with
      | none => simp
      | some c' =>
        simp only [Option.bind_some]
        have h' := hok.child.get hc
        have hb : b ≠ [] := h'.1
        refine ih c' _ (h'.2 hb) ?_
        intro d q' hdc
        have := hd d (b :: q') hdc
        simpa [watchAt, Node.find_cons, hc] using this
  have hfind : (stop P O s c).root.find q = Node.travW (fun pw w => if w.length ≠ 0 then
      (watchDelMin P (pw.val .recCh) w (.user c) allEvents).1 else w) [] s.root q :=
    Node.trav_find (fun s pw n w => stopFunc_snd P O c s pw n w) hs.ok q
  unfold watchAt
  rw [hfind]
  exact key q s.root [] hs.ok (fun d q hd => h d q hd)

theorem pickSet_none {ws : List WP} (h : ∀ w ∈ ws, w = []) : pickSet P ws = P.internal := by
  unfold pickSet
  generalize P.internal = x
  induction ws with
  | nil => rfl
  | cons w ws ih =>
    rw [List.foldl_cons, h w (by simp)]
    simpa using ih (fun w' hw' => h w' (by simp [hw']))

/-- **C13.**  After every history, if every channel ever passed to Watch has been stopped since,
the OS holds no watch and every watchpoint is empty. -/
theorem C13_all_stopped (hP : P.Facts) {ops : List Op} {s : St} (h : Hist P true ops s)
    (hstop : ∀ c, ¬ Pending c ops) : ∀ q, osOf s.world.log q = 0 ∧ watchAt s.root q = [] := by
  have key : ∀ q, watchAt s.root q = [] := by
    induction h with
    | nil =>
      intro q
      cases q <;> simp [watchAt, init, Node.find, Node.new, Node.get?, Node.watch, Forest.get?]
    | @snoc ops s op s' h1 h2 ih =>
      intro q
      have hs := Hist.shape hP h1
      cases h2 with
      | @watch p isrec c e O dt hp he hd hO => exact absurd (pending_watch _ _ _ _ _ _) (hstop c)
      | @stop c O hO =>
        refine stop_last hP O hs ?_ q
        intro d q hd
        refine absent_of_not_pending hP h1 ?_ q
        intro hh
        exact hstop d (pending_snoc hh (by simp [Ne.symm hd]))
      | @internal ei O dt hp hd hO =>
        have ih := ih (fun c hh => hstop c (pending_snoc hh (by simp)))
        unfold NonRec.internal
        split
        · split
          · exact ih q
          · next nd hnd =>
            have hsome := Node.del_isSome s.root hp.1
            rw [hnd] at hsome
            obtain ⟨root', hroot'⟩ := Option.isSome_iff_exists.1 hsome
            rw [hroot']
            simp only [Option.getD_some]
            rw [hs.del_watchAt hroot' q, ih q, ite_self]
        · have : pickSet P ((onPath s.root ei.path).map Node.watch) = P.internal := by
            apply pickSet_none
            intro w hw
            obtain ⟨nd, hnd, rfl⟩ := List.mem_map.1 hw
            obtain ⟨r, _, hr⟩ := mem_onPath hnd
            have := ih r
            unfold watchAt Node.find at this
            rw [hr] at this
            exact this
          rw [this, if_pos rfl]
          exact ih q
      | shuffle hsh =>
        have ih := ih (fun c hh => hstop c (pending_snoc hh (by simp)))
        apply (eq_nil_iff_get? _).2
        intro k
        rw [hsh.get q k, ih q]; rfl
  intro q
  exact ⟨((C11_os_mirror hP h q).2).2 (key q), key q⟩

/-- Non-trivial case: two channels watched and both stopped. -/
example : Hist Ex.I true (Ex.ops2 ++ [.stop 1] ++ [.stop 2]) Ex.s4 ∧
    (∀ c, ¬ Pending c (Ex.ops2 ++ [.stop 1] ++ [.stop 2])) ∧ osOf Ex.s2.world.log [Ex.a] ≠ 0 := by
  refine ⟨Ex.hist4, ?_, by decide⟩
  rintro c ⟨x, y, p, r, e, res, h, hn⟩
  simp only [Ex.ops2, List.cons_append, List.nil_append] at h
  rcases x with _ | ⟨x1, _ | ⟨x2, _ | ⟨x3, _ | ⟨x4, x⟩⟩⟩⟩ <;> simp at h
  · obtain ⟨⟨_, _, rfl, _⟩, rfl⟩ := h; simp at hn
  · obtain ⟨_, ⟨_, _, rfl, _⟩, rfl⟩ := h; simp at hn

/-- **C14.**  From a successful Watch on until Stop of that channel or removal of the path (or of a
directory above), the OS watch on the path includes all the events. -/
theorem C14_backed (hP : P.Facts) {ops ops' : List Op} {s s₁ s₂ : St} {p : Path} {isrec : Bool} {c : Nat} {e : Event}
    (h : Hist P true ops s) (hw : Step P true s (.watch p isrec c e true) s₁) (hlater : Steps P true s₁ ops' s₂)
    (hops' : ∀ op ∈ ops', op ≠ .stop c ∧ ∀ ei, op = .internal ei → ei.event = P.remove → ¬ ei.path <+: p) :
    e ⊑ osOf s₂.world.log p := by
  have hs := Hist.shape hP h
  have hs₁ := hw.shape hP hs
  have hgood : Good P s₂ := Steps.good hP (Step.good hP (Hist.good hP h) hw) hlater
  have hi : e &&& P.internal = 0 := by obtain ⟨_, _, _, he, _⟩ := hw.watch_inv; exact he.2
  have key : ∃ v, entry s₂.root c p = some v ∧ e ⊑ v := by
    clear hgood
    induction hlater with
    | nil =>
      obtain ⟨O, dt, hp, he, hd, _, hb, rfl⟩ := hw.watch_inv
      rw [(watchOp_effect hP O hs hp isrec c he hd).2 c p, ← hb]
      refine ⟨(watchAt s.root p).val (.user c) ||| e ||| (if isrec then P.recursive else 0), ?_, ?_⟩
      · simp only [and_self, if_true]
      · exact Event.Sub.trans (Event.sub_or_right _ _) (Event.sub_or_left _ _)
    | @snoc ops'' s₃ op s₄ h3 h4 ih =>
      obtain ⟨v, hv, hev⟩ := ih (fun o ho => hops' o (by simp [ho]))
      have hs₃ := h3.shape hP hs₁
      obtain ⟨hop1, hop2⟩ := hops' op (by simp)
      cases h4 with
      | @watch p' isrec' d e' O dt hp he hd hO =>
        rw [(watchOp_effect hP O hs₃ hp isrec' d he hd).2 c p]
        split
        · next hdq =>
          obtain ⟨rfl, rfl⟩ := hdq
          have hvv := val_of_some hv
          split
          · rw [hvv]
            exact ⟨_, rfl, hev.trans (Event.Sub.trans (Event.sub_or_left _ _) (Event.sub_or_left _ _))⟩
          · split
            · exact ⟨v, hv, hev⟩
            · obtain ⟨v', h5, h6⟩ := rolledBack_ge (hs₃.nr p) c he hv
              exact ⟨v', h5, hev.trans h6⟩
        · exact ⟨v, hv, hev⟩
      | @stop d O hO =>
        rw [(stop_effect hP O hs₃ d).2 c p, if_neg]
        · exact ⟨v, hv, hev⟩
        · rintro rfl; exact hop1 rfl
      | @internal ei O dt hp hd hO =>
        rw [(internal_effect O hs₃ hp hd).2 c p, if_neg]
        · exact ⟨v, hv, hev⟩
        · rintro ⟨h5, h6⟩; exact hop2 ei rfl h5 h6
      | shuffle hsh =>
        refine ⟨v, ?_, hev⟩
        have := hsh.get p (.user c)
        unfold entry; rw [this]; exact hv
  obtain ⟨v, hv, hev⟩ := key
  rw [hgood.sync p]
  have hsub := sub_total (hgood.shape.nr p).inv (k := .user c) nofun hv
  clear hv hops'
  generalize (watchAt s₂.root p).total P = t at hsub
  clear hgood hlater
  ebits

example : Hist Ex.I true [.watch [Ex.a] true 1 Ex.W true] Ex.s1 ∧
    Step Ex.I true Ex.s1 (.watch [Ex.a, Ex.b] false 2 Ex.CW true) Ex.s2 ∧
    Steps Ex.I true Ex.s2 [.stop 1] Ex.s3 ∧ Op.stop 1 ≠ .stop 2 ∧ Ex.CW ⊑ osOf Ex.s3.world.log [Ex.a, Ex.b] :=
  ⟨Ex.hist1, Ex.step2, Steps.nil.snoc Ex.step3, by simp, by decide⟩

/-- **C20.**  When the removal of a directory is handled, every OS watch and every registration at
or below it is dropped and everything else is left as it was. -/
theorem C20_removed (hP : P.Facts) {ops : List Op} {s s₁ : St} {ei : EventInfo} (h : Hist P true ops s)
    (hrm : ei.event = P.remove) (hst : Step P true s (.internal ei) s₁) (q : Path) :
    (ei.path <+: q → osOf s₁.world.log q = 0 ∧ ∀ c, entry s₁.root c q = none) ∧
    (¬ ei.path <+: q → osOf s₁.world.log q = osOf s.world.log q ∧
      ∀ k, (watchAt s₁.root q).get? k = (watchAt s.root q).get? k) := by
  have hg := Hist.good hP h
  have hg₁ := Step.good hP hg hst
  have key : watchAt s₁.root q = if ei.path <+: q then [] else watchAt s.root q := by
    cases hst with
    | @internal _ O dt hp hd hO =>
      unfold NonRec.internal
      rw [if_pos hrm]
      split
      · next hnone =>
        split
        · next hq => unfold watchAt; rw [prefix_of_get hnone hq]; rfl
        · rfl
      · next nd hnd =>
        have hsome := Node.del_isSome s.root hp.1
        rw [hnd] at hsome
        obtain ⟨root', hroot'⟩ := Option.isSome_iff_exists.1 hsome
        rw [hroot']
        exact hg.shape.del_watchAt hroot' q
  rw [hg.sync, hg₁.sync, key]
  constructor
  · intro hq
    rw [if_pos hq]
    refine ⟨by simp [WP.total], fun c => ?_⟩
    unfold entry; rw [key, if_pos hq]; rfl
  · intro hq
    rw [if_neg hq]
    exact ⟨rfl, fun _ => rfl⟩

/-- Non-trivial case: `/a/b` is removed while two channels are interested. -/
example : Hist Ex.I true Ex.ops2 Ex.s2 ∧
    Step Ex.I true Ex.s2 (.internal { event := Ex.I.remove, path := [Ex.a, Ex.b] })
      (internal Ex.I .ok .err Ex.s2 { event := Ex.I.remove, path := [Ex.a, Ex.b] }) ∧
    osOf Ex.s2.world.log [Ex.a, Ex.b] = Ex.CW ∧ entry Ex.s2.root 2 [Ex.a, Ex.b] ≠ none :=
  ⟨Ex.hist2, Step.internal Ex.good_ab (by simp [DirTree.Named]) (fun _ => rfl), by decide, by decide⟩

end NonRec
end Verif
