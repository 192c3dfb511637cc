/-
The goroutines of the inotify watcher under all schedules (C68).
-/
import Verif.InotifyPipe
import Verif.PropsInotify2

namespace Verif
namespace Inotify
open Spec.Inotify

/-! ### What is counted -/

/-- The path a record is about, if its descriptor belongs to the path `p`. -/
def at_ (p : Path) (n : Comp) : Path := if n = [] then p else join p n

/-- An event `E` for the path `q` that came from the descriptor `wd`. -/
def hit (wd : Nat) (E : Event) (q : Path) (o : Out) : Bool :=
  decide (o.sys.wd = wd) && decide (o.info.event = E) && decide (o.info.path = q)

/-- A record of descriptor `wd` for the entry `n` whose event bit is an `E` (inotify(7), doc.go). -/
def says (wd : Nat) (E : Event) (n : Comp) (r : Raw) : Bool :=
  decide (r.wd = wd) && decide (r.name = n) && decide ((E, r.mask &&& 0xfff) ∈ means)

theorem at_inj {p : Path} {n n' : Comp} (h : at_ p n = at_ p n') : n = n' := by
  unfold at_ join at h
  by_cases hp : p = [[]]
  · subst hp
    by_cases h1 : n = [] <;> by_cases h2 : n' = [] <;> simp_all
  · by_cases h1 : n = [] <;> by_cases h2 : n' = [] <;> simp_all

theorem outs_single (m : Table) (r : Raw) : outs m [r] = (sent m [r]).map (Out.mk r) := by
  rw [sent_single]
  unfold outs
  simp only [List.map_cons, List.map_nil, List.flatMap_cons, List.flatMap_nil, List.append_nil, List.map_append, List.filterMap_append]
  congr 1
  · cases (transform1 m r).1 <;> simp
  · rw [List.filterMap_map, List.map_filterMap]
    congr 1

theorem outs_batch (m : Table) (es : List Raw) : (outs m es).Perm (es.flatMap (fun r => outs m [r])) := by
  have h0 : ∀ r, outs m [r] = ((transform1 m r).1.map (Out.mk r)).toList ++
      ((transform1 m r).2.map (·.map (Out.mk r))).filterMap id := by
    intro r
    unfold outs
    simp only [List.map_cons, List.map_nil, List.flatMap_cons, List.flatMap_nil, List.append_nil, List.filterMap_append]
    cases (transform1 m r).1 <;> simp
  simp only [h0]
  unfold outs
  rw [List.filterMap_append]
  induction es with
  | nil => simp
  | cons r es ih =>
    simp only [List.map_cons, List.flatMap_cons, List.filterMap_append]
    have h1 : ∀ (o : Option Out) (l : List (Option Out)), List.filterMap id (o :: l) = o.toList ++ List.filterMap id l := by
      intro o l; cases o <;> simp
    rw [h1]
    refine List.Perm.trans ?_ (List.Perm.append_left _ ih)
    simp only [List.append_assoc]
    apply List.Perm.append_left
    rw [← List.append_assoc, ← List.append_assoc]
    exact List.Perm.append_right _ List.perm_append_comm

/-- What `send` sends is what `transform` of module `Inotify` gives. -/
theorem outs_sent (m : Table) (es : List Raw) : ((outs m es).map Out.info).Perm (sent m es) := by
  refine ((outs_batch m es).map _).trans (List.Perm.trans ?_ (C33_batch m es).symm)
  rw [List.map_flatMap]
  have : (fun r => List.map Out.info (outs m [r])) = fun r => sent m [r] := by
    funext r
    rw [outs_single, List.map_map]
    simp [Function.comp_def]
  rw [this]

/-- Records of a descriptor that are not about one of the twelve events give nothing. -/
theorem sent_other {m : Table} {r : Raw} {w : Watched} (hw : m.get? r.wd = some w) (ha : accepts w.mask = true) {k : Nat} {d : Bool}
    (hk : k = 13 ∨ k = 14 ∨ k = 15) (hr : r.mask = BitVec.twoPow 32 k ||| (if d then inIsdir else 0)) : sent m [r] = [] := by
  have hb : r.mask.getLsbD k = true := by
    rw [hr, BitVec.getLsbD_or, BitVec.getLsbD_twoPow]
    rcases hk with rfl | rfl | rfl <;> simp
  rcases hk with rfl | rfl | rfl
  · have h0 : r.mask &&& (inIgnored ||| inQOverflow) = 0 := by
      rw [hr]; cases d <;> decide
    rw [sent_known hw h0, if_pos]
    rw [Event.bext]
    intro i
    rw [BitVec.getLsbD_and, show BitVec.getLsbD (0 : Event) i = false from Event.bit_zero i]
    rcases he : (encode w.mask).getLsbD i with _ | _
    · simp
    · have h1 := (C32_mask _ ha).1 i he
      have h2 : ∀ d : Bool, ∀ i < 32, (0xfff : Event).getLsbD i = true →
          (BitVec.twoPow 32 13 ||| (if d then inIsdir else 0)).getLsbD i = false := by decide
      by_cases hi : i < 32
      · rw [hr, h2 d i hi h1]; rfl
      · rw [BitVec.getLsbD_of_ge _ _ (by omega)]; rfl
  · exact C33_nothing _ _ (.inl hb)
  · exact C33_nothing _ _ (.inr (.inl hb))

/-- What one record gives, whatever the set of events is, as long as it includes `E`. -/
theorem weight {m : Table} {wd : Nat} {w : Watched} (hw : m.get? wd = some w) (ha : accepts w.mask = true) {E : Event} (hE : E ⊑ w.mask)
    {r : Raw} (hr : FromKernel r) (n : Comp) :
    (outs m [r]).countP (hit wd E (at_ w.path n)) = if says wd E n r = true then 1 else 0 := by
  rw [outs_single, List.countP_map]
  by_cases hwd : r.wd = wd
  · subst hwd
    obtain ⟨k, d, hk, hm⟩ := hr
    rcases hk with hk | hk
    · have hbk : BitVec.twoPow 32 k ∈ kernelBits := by
        have : ∀ k < 12, BitVec.twoPow 32 k ∈ kernelBits := by decide
        exact this k hk
      obtain ⟨h1, h2⟩ := C33_exact hw ha hbk d hm
      have hb : r.mask &&& 0xfff = BitVec.twoPow 32 k := by
        have : ∀ k < 12, ∀ d : Bool, (BitVec.twoPow 32 k ||| (if d then inIsdir else 0)) &&& 0xfff = BitVec.twoPow 32 k := by decide
        rw [hm]; exact this k hk d
      have h3 := h1 E
      rw [← List.countP_eq_length_filter] at h3
      by_cases hn : r.name = n
      · subst hn
        have : (sent m [r]).countP (hit r.wd E (at_ w.path r.name) ∘ Out.mk r) = (sent m [r]).countP (fun ei => decide (ei.event = E)) := by
          apply List.countP_congr
          intro ei hei
          have := (h2 ei hei).1
          simp only [hit, Function.comp, at_, this]
          simp
        rw [this, h3]
        unfold says
        rw [hb]
        simp [hE]
      · rw [List.countP_eq_zero.2, if_neg]
        · simp [says, hn]
        · intro ei hei
          have := (h2 ei hei).1
          simp only [hit, Function.comp, decide_true, Bool.true_and]
          rw [this, show (if r.name = [] then w.path else join w.path r.name) = at_ w.path r.name from rfl]
          have hne : ¬ at_ w.path r.name = at_ w.path n := fun h => hn (at_inj h)
          simp [hne]
    · rw [sent_other hw ha hk hm]
      have h0 : ∀ k, (k = 13 ∨ k = 14 ∨ k = 15) → ∀ d : Bool,
          (BitVec.twoPow 32 k ||| (if d then inIsdir else 0)) &&& 0xfff = (0 : Event) := by
        rintro k (rfl | rfl | rfl) <;> decide
      have h1 : ∀ x ∈ means, x.2 ≠ 0 := by decide
      rw [if_neg]
      · rfl
      · unfold says
        rw [hm, h0 k hk d]
        have h2 : decide ((E, (0 : Event)) ∈ means) = false := decide_eq_false fun h => h1 _ h rfl
        rw [h2]
        simp
  · rw [List.countP_eq_zero.2, if_neg]
    · simp [says, hwd]
    · intro ei _
      simp [hit, hwd]

/-! ### Invariants -/

/-- The records a consumer holds. -/
def Consumer.recs : Consumer → List Raw
  | .got es => es
  | _ => []

/-- Everything read or queued and not yet transformed. -/
def PSt.pending (s : PSt) : List Raw := s.queue ++ s.batch.getD [] ++ s.cons.flatMap Consumer.recs

structure PInv (s : PSt) : Prop where
  acc : ∀ x ∈ s.k.m, accepts x.2.mask = true
  call : ∀ wd p e, s.caller = .added wd p e → accepts e = true
  recs : ∀ r ∈ s.pending, FromKernel r

theorem mem_set' {m : Table} {k : Nat} {v : Watched} {x : Nat × Watched} (h : x ∈ m.set k v) : x ∈ m ∨ x = (k, v) := by
  induction m with
  | nil => simpa [GoMap.set] using h
  | cons y m ih =>
    obtain ⟨a, b⟩ := y
    unfold GoMap.set at h
    split at h
    · rcases List.mem_cons.1 h with h | h
      · exact .inr h
      · exact .inl (List.mem_cons_of_mem _ h)
    · rcases List.mem_cons.1 h with h | h
      · exact .inl (by rw [h]; exact List.mem_cons_self ..)
      · exact (ih h).imp (List.mem_cons_of_mem _) id

theorem mem_del' {m : Table} {k : Nat} {x : Nat × Watched} (h : x ∈ m.del k) : x ∈ m := by
  induction m with
  | nil => cases h
  | cons y m ih =>
    obtain ⟨a, b⟩ := y
    unfold GoMap.del at h
    split at h
    · exact List.mem_cons_of_mem _ (ih h)
    · rcases List.mem_cons.1 h with h | h
      · rw [h]; exact List.mem_cons_self ..
      · exact List.mem_cons_of_mem _ (ih h)

theorem mem_flatMap_set {l : List Consumer} {i : Nat} {c : Consumer} {r : Raw} (h : r ∈ (l.set i c).flatMap Consumer.recs) :
    r ∈ l.flatMap Consumer.recs ∨ r ∈ c.recs := by
  obtain ⟨x, hx, hr⟩ := List.mem_flatMap.1 h
  rcases List.mem_or_eq_of_mem_set hx with hx | hx
  · exact .inl (List.mem_flatMap.2 ⟨x, hx, hr⟩)
  · exact .inr (hx ▸ hr)

theorem addWatch_m {s : St} {p : Path} {e : Event} {wd : Nat} {s' : St} (h : addWatch s p e = some (wd, s')) : s'.m = s.m := by
  unfold addWatch at h
  split at h
  · cases h
  · split at h
    · cases h
    · split at h <;> (cases h; rfl)

theorem PInv.init (f : Path → Option Nat) (n : Nat) : PInv (PSt.init f n) where
  acc := by intro x hx; cases hx
  call := by intro wd p e h; cases h
  recs := by
    intro r hr
    simp only [PSt.pending, PSt.init, List.nil_append, Option.getD_none] at hr
    obtain ⟨x, hx, hr⟩ := List.mem_flatMap.1 hr
    rw [(List.mem_replicate.1 hx).2] at hr
    cases hr

theorem PInv.step {s s' : PSt} {l : List Raw} (hi : PInv s) (h : PStep s l s') : PInv s' := by
  have key : ∀ {r : Raw} {s' : PSt}, (∀ r ∈ s'.pending, r ∈ s.pending) → r ∈ s'.pending → FromKernel r := fun h1 h2 => hi.recs _ (h1 _ h2)
  cases h with
  | change r hr =>
    refine ⟨hi.acc, hi.call, fun x hx => ?_⟩
    simp only [PSt.pending, List.mem_append] at hx
    rcases hx with ((hx | hx) | hx) | hx
    · exact hi.recs x (by simp [PSt.pending, hx])
    · rw [List.mem_singleton.1 hx]; exact hr
    · exact hi.recs x (by simp [PSt.pending, hx])
    · exact hi.recs x (by simp only [PSt.pending, List.mem_append]; exact .inr hx)
  | fs k' hf => cases hf with | mk _ _ _ => exact ⟨hi.acc, hi.call, hi.recs⟩
  | reorder k' _ hf => cases hf with | mk m' hp => exact ⟨fun x hx => hi.acc x (hp.mem_iff.1 hx), hi.call, hi.recs⟩
  | add p e wd k' hc he ha =>
    refine ⟨?_, ?_, hi.recs⟩
    · simp only [addWatch_m ha]; exact hi.acc
    · intro wd' p' e' h; cases h; exact he
  | table wd p e hc =>
    refine ⟨fun x hx => ?_, (by intro _ _ _ h; cases h), hi.recs⟩
    rcases mem_set' hx with hx | rfl
    · exact hi.acc x hx
    · exact hi.call _ _ _ hc
  | rm p wd w l hc hf hl =>
    refine ⟨hi.acc, (by intro _ _ _ h; cases h), fun x hx => ?_⟩
    simp only [PSt.pending, List.mem_append] at hx
    rcases hx with ((hx | hx) | hx) | hx
    · exact hi.recs x (by simp [PSt.pending, hx])
    · rcases hl with rfl | rfl
      · cases hx
      · rw [List.mem_singleton.1 hx]; exact ⟨15, false, by decide, show inIgnored = _ by decide⟩
    · exact hi.recs x (by simp [PSt.pending, hx])
    · exact hi.recs x (by simp only [PSt.pending, List.mem_append]; exact .inr hx)
  | forget wd hc =>
    exact ⟨fun x hx => hi.acc x (mem_del' hx), (by intro _ _ _ h; cases h), hi.recs⟩
  | read n hb =>
    refine ⟨hi.acc, hi.call, fun x hx => ?_⟩
    simp only [PSt.pending, List.mem_append, Option.getD_some] at hx
    rcases hx with (hx | hx) | hx
    · exact hi.recs x (by simp [PSt.pending, List.mem_of_mem_drop hx])
    · exact hi.recs x (by simp [PSt.pending, List.mem_of_mem_take hx])
    · exact hi.recs x (by simp only [PSt.pending, List.mem_append]; exact .inr hx)
  | hand i es hb hc =>
    refine ⟨hi.acc, hi.call, fun x hx => ?_⟩
    simp only [PSt.pending, List.mem_append, Option.getD_none] at hx
    rcases hx with (hx | hx) | hx
    · exact hi.recs x (by simp [PSt.pending, hx])
    · cases hx
    · rcases mem_flatMap_set hx with hx | hx
      · exact hi.recs x (by simp only [PSt.pending, List.mem_append]; exact .inr hx)
      · exact hi.recs x (by simp only [PSt.pending, List.mem_append, hb]; exact .inl (.inr hx))
  | transform i es hc =>
    refine ⟨hi.acc, hi.call, fun x hx => ?_⟩
    simp only [PSt.pending, List.mem_append] at hx
    rcases hx with hx | hx
    · exact hi.recs x (by simp only [PSt.pending, List.mem_append]; exact .inl hx)
    · rcases mem_flatMap_set hx with hx | hx
      · exact hi.recs x (by simp only [PSt.pending, List.mem_append]; exact .inr hx)
      · cases hx
  | send i o l hc =>
    refine ⟨hi.acc, hi.call, fun x hx => ?_⟩
    simp only [PSt.pending, List.mem_append] at hx
    rcases hx with hx | hx
    · exact hi.recs x (by simp only [PSt.pending, List.mem_append]; exact .inl hx)
    · rcases mem_flatMap_set hx with hx | hx
      · exact hi.recs x (by simp only [PSt.pending, List.mem_append]; exact .inr hx)
      · cases hx
  | next i hc =>
    refine ⟨hi.acc, hi.call, fun x hx => ?_⟩
    simp only [PSt.pending, List.mem_append] at hx
    rcases hx with hx | hx
    · exact hi.recs x (by simp only [PSt.pending, List.mem_append]; exact .inl hx)
    · rcases mem_flatMap_set hx with hx | hx
      · exact hi.recs x (by simp only [PSt.pending, List.mem_append]; exact .inr hx)
      · cases hx

/-- States of a watcher. -/
def PReach (s : PSt) : Prop := ∃ f n tr, Runs (fun _ => True) (PSt.init f n) tr s

theorem Runs.last {I : PSt → Prop} {s s' : PSt} {tr : List Raw} (h : Runs I s tr s') : I s' := by
  cases h <;> assumption

theorem Runs.mono {I J : PSt → Prop} (hij : ∀ x, I x → J x) {s s' : PSt} {tr : List Raw} (h : Runs I s tr s') : Runs J s tr s' := by
  induction h with
  | refl h => exact .refl (hij _ h)
  | step _ hs hI ih => exact ih.step hs (hij _ hI)

theorem Runs.inv {I : PSt → Prop} {s s' : PSt} {tr : List Raw} (h : Runs I s tr s') (hi : PInv s) : PInv s' := by
  induction h with
  | refl _ => exact hi
  | step _ hs _ ih => exact ih.step hs

theorem PReach.inv {s : PSt} (h : PReach s) : PInv s := by
  obtain ⟨f, n, tr, h⟩ := h
  exact h.inv (PInv.init f n)

/-! ### Counting -/

/-- What a consumer will still send. -/
def load (f : Out → Bool) (g : Raw → Bool) : Consumer → Nat
  | .idle => 0
  | .got es => es.countP g
  | .sending l => l.countP f

/-- What has been sent and what will be sent. -/
def total (f : Out → Bool) (g : Raw → Bool) (s : PSt) : Nat :=
  s.out.countP f + s.queue.countP g + (s.batch.getD []).countP g + (s.cons.map (load f g)).sum

theorem sum_set {α : Type} (h : α → Nat) : ∀ {l : List α} {i : Nat} {a b : α}, l[i]? = some a →
    ((l.set i b).map h).sum + h a = (l.map h).sum + h b
  | [], _, _, _, hi => by cases hi
  | x :: l, 0, a, b, hi => by
    simp at hi
    subst hi
    simp; omega
  | x :: l, i + 1, a, b, hi => by
    have := sum_set h (l := l) (i := i) (a := a) (b := b) (by simpa using hi)
    simp only [List.set_cons_succ, List.map_cons, List.sum_cons]; omega

theorem total_step {f : Out → Bool} {g : Raw → Bool} {s s' : PSt} {l : List Raw} (hi : PInv s) (h : PStep s l s')
    (hw : ∀ r, FromKernel r → (outs s.k.m [r]).countP f = if g r = true then 1 else 0) :
    total f g s' = total f g s + l.countP g := by
  cases h with
  | change r hr => simp only [total, List.countP_append]; omega
  | fs k' hf => simp [total]
  | reorder k' _ hf => simp [total]
  | add p e wd k' hc he ha => simp [total]
  | table wd p e hc => simp [total]
  | rm p wd w l hc hf hl => simp only [total, List.countP_append]; omega
  | forget wd hc => simp [total]
  | read n hb =>
    have := congrArg (List.countP g) (List.take_append_drop n s.queue)
    rw [List.countP_append] at this
    simp only [total, hb, Option.getD_some, Option.getD_none, List.countP_nil]
    omega
  | hand i es hb hc =>
    have := sum_set (load f g) (b := .got es) hc
    simp only [total, hb, Option.getD_some, Option.getD_none, List.countP_nil]
    simp only [load] at this
    omega
  | transform i es hc =>
    have h1 := sum_set (load f g) (b := .sending (outs s.k.m es)) hc
    have h2 : (outs s.k.m es).countP f = es.countP g := by
      rw [(outs_batch _ _).countP_eq]
      have hes : ∀ r ∈ es, FromKernel r := by
        intro r hr
        apply hi.recs
        simp only [PSt.pending, List.mem_append]
        exact .inr (List.mem_flatMap.2 ⟨_, List.mem_of_getElem? hc, hr⟩)
      clear h1 hc
      induction es with
      | nil => rfl
      | cons r es ih =>
        rw [List.flatMap_cons, List.countP_append, ih (fun x hx => hes x (List.mem_cons_of_mem _ hx)),
          hw r (hes r (List.mem_cons_self ..)), List.countP_cons]
        omega
    simp only [total]
    simp only [load] at h1
    simp only [List.countP_nil]
    omega
  | send i o l hc =>
    have h1 := sum_set (load f g) (b := .sending l) hc
    simp only [load, List.countP_cons] at h1
    simp only [total, List.countP_append, List.countP_cons, List.countP_nil]
    omega
  | next i hc =>
    have h1 := sum_set (load f g) (b := .idle) hc
    simp only [load, List.countP_nil] at h1
    simp only [total, List.countP_nil]
    omega

theorem total_runs {f : Out → Bool} {g : Raw → Bool} {I : PSt → Prop} {s s' : PSt} {tr : List Raw} (hi : PInv s) (h : Runs I s tr s')
    (hw : ∀ s, PInv s → I s → ∀ r, FromKernel r → (outs s.k.m [r]).countP f = if g r = true then 1 else 0) :
    total f g s' = total f g s + tr.countP g := by
  induction h with
  | refl _ => simp
  | @step tr l s1 s2 h1 hs _ ih =>
    have hI : I s1 := h1.last
    rw [total_step (h1.inv hi) hs (hw _ (h1.inv hi) hI), ih, List.countP_append]
    omega

theorem total_quiet {f : Out → Bool} {g : Raw → Bool} {s : PSt} (h : s.Quiet) : total f g s = s.out.countP f := by
  obtain ⟨h1, h2, h3⟩ := h
  have : (s.cons.map (load f g)).sum = 0 := by
    revert h3
    generalize s.cons = l
    intro h3
    induction l with
    | nil => rfl
    | cons c l ih =>
      rw [List.map_cons, List.sum_cons, ih (fun c hc => h3 c (List.mem_cons_of_mem _ hc)), h3 c (List.mem_cons_self ..)]
      rfl
  simp [total, h1, h2, this]

/-- The descriptor `wd` belongs to the path `p`, and `E` is requested. -/
def Held (wd : Nat) (p : Path) (E : Event) (s : PSt) : Prop := ∃ w, s.k.m.get? wd = some w ∧ w.path = p ∧ E ⊑ w.mask

/-- **C68.**  Any number of consumers, any schedule, and any calls of the tree meanwhile; all that matters is that `E` stays requested
for the path of the descriptor `wd` (the set may be changed otherwise).  From one moment when nothing is on its way to another: for every
entry `n`, the number of events `E` for `n` that reached the tree is the number of records that the kernel queued for that descriptor
and entry whose event is an `E`. -/
theorem C68_once {s s' : PSt} (hs : PReach s) {tr : List Raw} {wd : Nat} {p : Path} {E : Event} (h : Runs (Held wd p E) s tr s')
    (hq : s.Quiet) (hq' : s'.Quiet) (n : Comp) :
    s'.out.countP (hit wd E (at_ p n)) = s.out.countP (hit wd E (at_ p n)) + tr.countP (says wd E n) := by
  have := total_runs (f := hit wd E (at_ p n)) (g := says wd E n) hs.inv h (by
    rintro s hi ⟨w, hw, rfl, hE⟩ r hr
    exact weight hw (hi.acc _ (GoMap.mem_of_get? hw)) hE hr n)
  rwa [total_quiet hq, total_quiet hq'] at this

theorem Runs.prefix {I : PSt → Prop} {s s' : PSt} {tr : List Raw} (h : Runs I s tr s') : s.out <+: s'.out := by
  induction h with
  | refl _ => exact List.prefix_rfl
  | step _ hs _ ih => cases hs <;> first | exact ih | exact ih.trans (List.prefix_append _ _)

/-- No call takes the descriptor `wd` away from `p`, or takes `E` out of the set: the call that is running, if any, is not an Unwatch that found
`wd`, and not a Watch or Rewatch that got `wd` for another path or without `E`. -/
def Kept (wd : Nat) (p : Path) (E : Event) (s : PSt) : Prop :=
  s.caller ≠ .removed wd ∧ ∀ q e, s.caller = .added wd q e → q = p ∧ E ⊑ e

theorem Held.step {wd : Nat} {p : Path} {E : Event} {s s' : PSt} {l : List Raw} (hn : s.k.m.Nodup) (hh : Held wd p E s)
    (hk : Kept wd p E s) (h : PStep s l s') : Held wd p E s' ∧ s'.k.m.Nodup := by
  obtain ⟨w, hw, hp, hE⟩ := hh
  cases h with
  | fs k' hf => cases hf with | mk _ _ _ => exact ⟨⟨w, hw, hp, hE⟩, hn⟩
  | reorder k' _ hf =>
    cases hf with
    | mk m' hpm =>
      refine ⟨⟨w, ?_, hp, hE⟩, ?_⟩
      · simp only [get?_perm hn hpm]; exact hw
      · exact (hpm.map Prod.fst).nodup_iff.2 hn
  | add q e wd' k' hc he ha =>
    refine ⟨⟨w, ?_, hp, hE⟩, ?_⟩ <;> simp only [addWatch_m ha]
    · exact hw
    · exact hn
  | table wd' q e hc =>
    refine ⟨?_, hn.set _ _⟩
    by_cases h1 : wd' = wd
    · subst h1
      obtain ⟨rfl, h2⟩ := hk.2 q e hc
      exact ⟨⟨q, e⟩, by simp [GoMap.get?_set], rfl, h2⟩
    · exact ⟨w, by simp only [GoMap.get?_set, if_neg h1]; exact hw, hp, hE⟩
  | forget wd' hc =>
    refine ⟨⟨w, ?_, hp, hE⟩, hn.del _⟩
    have h1 : ¬ wd' = wd := by rintro rfl; exact hk.1 hc
    simp only [GoMap.get?_del, if_neg h1]
    exact hw
  | _ => exact ⟨⟨w, hw, hp, hE⟩, hn⟩

theorem Runs.nodup {I : PSt → Prop} {s s' : PSt} {tr : List Raw} (h : Runs I s tr s') (hn : s.k.m.Nodup) : s'.k.m.Nodup := by
  induction h with
  | refl _ => exact hn
  | step _ hs _ ih =>
    cases hs with
    | fs k' hf => cases hf with | mk _ _ _ => exact ih
    | reorder k' _ hf => cases hf with | mk m' hpm => exact (hpm.map Prod.fst).nodup_iff.2 ih
    | add q e wd' k' hc he ha => simp only [addWatch_m ha]; exact ih
    | table wd' q e hc => exact ih.set _ _
    | forget wd' hc => exact ih.del _
    | _ => exact ih

/-- **C68, in terms of calls.**  `C68_once` for an execution that starts when `E` is requested for the path of `wd`, and in which no
call takes the descriptor away or `E` out of the set. -/
theorem C68_calls {s s' : PSt} (hs : PReach s) {tr : List Raw} {wd : Nat} {p : Path} {E : Event} (hh : Held wd p E s)
    (h : Runs (Kept wd p E) s tr s') (hq : s.Quiet) (hq' : s'.Quiet) (n : Comp) :
    s'.out.countP (hit wd E (at_ p n)) = s.out.countP (hit wd E (at_ p n)) + tr.countP (says wd E n) := by
  have hn : s.k.m.Nodup := by
    obtain ⟨f, n, tr, h⟩ := hs
    exact h.nodup (by simp [PSt.init])
  refine C68_once hs ?_ hq hq' n
  clear hq'
  suffices Runs (Held wd p E) s tr s' ∧ s'.k.m.Nodup from this.1
  induction h with
  | refl _ => exact ⟨.refl hh, hn⟩
  | step h1 hs _ ih =>
    have := ih.1.last.step ih.2 h1.last hs
    exact ⟨ih.1.step hs this.1, this.2⟩

/-- **C68, nothing else.**  Events that are not requested for the path of a descriptor, at no time of an execution, do not reach the tree. -/
theorem C68_only {s s' : PSt} (hs : PReach s) {tr : List Raw} {wd : Nat} {E : Event}
    (h : Runs (fun s => ∀ w, s.k.m.get? wd = some w → ¬ E ⊑ w.mask) s tr s') (hq : s.Quiet) :
    s'.out.countP (fun o => decide (o.sys.wd = wd) && decide (o.info.event = E)) =
      s.out.countP (fun o => decide (o.sys.wd = wd) && decide (o.info.event = E)) := by
  have := total_runs (f := fun o => decide (o.sys.wd = wd) && decide (o.info.event = E)) (g := fun _ => false) hs.inv h (by
    intro s hi hno r hr
    rw [if_neg (by simp), outs_single, List.countP_map, List.countP_eq_zero]
    intro ei hei hc
    simp only [Function.comp, Bool.and_eq_true, decide_eq_true_eq] at hc
    obtain ⟨w, hw, hsub⟩ := (C33_sound hei)
    rw [hc.1] at hw
    exact hno w hw (hc.2 ▸ hsub.1))
  rw [total_quiet hq] at this
  have h0 : ∀ l : List Raw, l.countP (fun _ => false) = 0 := fun l => List.countP_eq_zero.2 (by simp)
  rw [h0] at this
  obtain ⟨x, hx⟩ := h.prefix
  simp only [total, ← hx, List.countP_append] at this
  rw [← hx, List.countP_append]
  omega

/-! ### Nothing gets stuck -/

theorem Runs.trans {I : PSt → Prop} {a b c : PSt} {tr tr' : List Raw} (h : Runs I a tr b) (h' : Runs I b tr' c) : Runs I a (tr ++ tr') c := by
  induction h' with
  | refl _ => simpa using h
  | step _ hs hI ih => rw [← List.append_assoc]; exact ih.step hs hI

/-- Steps of the goroutines alone. -/
abbrev Quietly (k : St) (c : Caller) (s s' : PSt) : Prop := Runs (fun x => x.k = k ∧ x.caller = c) s [] s'

theorem drain1 {k : St} {c : Caller} (i : Nat) : ∀ (x : Consumer) (s : PSt), s.k = k → s.caller = c → s.cons[i]? = some x →
    ∃ s', Quietly k c s s' ∧ s'.cons = s.cons.set i .idle ∧ s'.queue = s.queue ∧ s'.batch = s.batch := by
  have hset : ∀ {l : List Consumer} {x y : Consumer}, l[i]? = some x → (l.set i y)[i]? = some y := by
    intro l x y h
    have : i < l.length := (List.getElem?_eq_some_iff.1 h).1
    rw [List.getElem?_set_self this]
  have hsend : ∀ (l : List Out) (s : PSt), s.k = k → s.caller = c → s.cons[i]? = some (.sending l) →
      ∃ s', Quietly k c s s' ∧ s'.cons = s.cons.set i .idle ∧ s'.queue = s.queue ∧ s'.batch = s.batch := by
    intro l
    induction l with
    | nil =>
      intro s hk hc hx
      exact ⟨_, (Runs.refl ⟨hk, hc⟩).step (.next i hx) ⟨hk, hc⟩, rfl, rfl, rfl⟩
    | cons o l ih =>
      intro s hk hc hx
      obtain ⟨s', h1, h2, h3, h4⟩ := ih { s with cons := s.cons.set i (.sending l), out := s.out ++ [o] } hk hc (hset hx)
      refine ⟨s', ((Runs.refl ⟨hk, hc⟩).step (.send i o l hx) ⟨hk, hc⟩).trans h1, ?_, h3, h4⟩
      rw [h2, List.set_set]
  intro x s hk hc hx
  cases x with
  | idle =>
    refine ⟨s, .refl ⟨hk, hc⟩, ?_, rfl, rfl⟩
    obtain ⟨hlt, hv⟩ := List.getElem?_eq_some_iff.1 hx
    rw [← hv, List.set_getElem_self]
  | got es =>
    obtain ⟨s', h1, h2, h3, h4⟩ := hsend _ { s with cons := s.cons.set i (.sending (outs s.k.m es)) } hk hc (hset hx)
    refine ⟨s', ((Runs.refl ⟨hk, hc⟩).step (.transform i es hx) ⟨hk, hc⟩).trans h1, ?_, h3, h4⟩
    rw [h2, List.set_set]
  | sending l => exact hsend l s hk hc hx

theorem drain {k : St} {c : Caller} (s : PSt) (hk : s.k = k) (hc : s.caller = c) :
    ∃ s', Quietly k c s s' ∧ (∀ x ∈ s'.cons, x = .idle) ∧ s'.cons.length = s.cons.length ∧ s'.queue = s.queue ∧ s'.batch = s.batch := by
  have : ∀ j : Nat, ∃ s' : PSt, Quietly k c s s' ∧ (∀ i < j, ∀ x : Consumer, s'.cons[i]? = some x → x = .idle) ∧ s'.cons.length = s.cons.length ∧
      s'.queue = s.queue ∧ s'.batch = s.batch := by
    intro j
    induction j with
    | zero => exact ⟨s, .refl ⟨hk, hc⟩, by simp, rfl, rfl, rfl⟩
    | succ j ih =>
      obtain ⟨s1, h1, h2, h3, h4, h5⟩ := ih
      have hI : s1.k = k ∧ s1.caller = c := h1.last
      rcases hj : s1.cons[j]? with _ | x
      · refine ⟨s1, h1, fun i hi x hx => ?_, h3, h4, h5⟩
        rcases Nat.lt_succ_iff_lt_or_eq.1 hi with hi | rfl
        · exact h2 i hi x hx
        · rw [hj] at hx; cases hx
      · obtain ⟨s2, g1, g2, g3, g4⟩ := drain1 j x s1 hI.1 hI.2 hj
        refine ⟨s2, h1.trans g1, fun i hi x hx => ?_, by rw [g2, List.length_set, h3], g3.trans h4, g4.trans h5⟩
        rw [g2] at hx
        by_cases hij : j = i
        · subst hij
          have : j < s1.cons.length := (List.getElem?_eq_some_iff.1 hj).1
          rw [List.getElem?_set_self this] at hx
          exact (Option.some.inj hx).symm
        · rw [List.getElem?_set_ne hij] at hx
          exact h2 i (by omega) x hx
  obtain ⟨s', h1, h2, h3, h4, h5⟩ := this s.cons.length
  refine ⟨s', h1, fun x hx => ?_, h3, h4, h5⟩
  obtain ⟨i, hi, rfl⟩ := List.getElem_of_mem hx
  exact h2 i (by omega) _ (List.getElem?_eq_getElem hi)

/-- **C68, progress.**  In every state, even in the middle of a call, the goroutines can go on until everything that the kernel queued
has reached the tree; they do not need the call to go on, and do not change the table. -/
theorem C68_progress (s : PSt) (hn : s.cons ≠ []) : ∃ s', Quietly s.k s.caller s s' ∧ s'.Quiet := by
  have hpos : 0 < s.cons.length := List.length_pos_iff.2 hn
  have hand : ∀ (s1 : PSt) (es : List Raw), s1.k = s.k → s1.caller = s.caller → s1.batch = some es → 0 < s1.cons.length →
      (∀ x ∈ s1.cons, x = .idle) → ∃ s', Quietly s.k s.caller s1 s' ∧ (∀ x ∈ s'.cons, x = .idle) ∧ 0 < s'.cons.length ∧
        s'.queue = s1.queue ∧ s'.batch = none := by
    intro s1 es hk hc hb hp hidle
    have h0 : s1.cons[0]? = some .idle := by
      rw [List.getElem?_eq_getElem hp, hidle _ (List.getElem_mem hp)]
    obtain ⟨s2, g1, g2, g3, g4, g5⟩ := drain { s1 with batch := none, cons := s1.cons.set 0 (.got es) } (k := s.k) (c := s.caller) hk hc
    refine ⟨s2, ((Runs.refl ⟨hk, hc⟩).step (.hand 0 es hb h0) ⟨hk, hc⟩).trans g1, g2, ?_, g4, g5⟩
    rw [g3]; simpa using hp
  obtain ⟨s1, h1, h2, h3, h4, h5⟩ := drain s (k := s.k) (c := s.caller) rfl rfl
  have hI1 : s1.k = s.k ∧ s1.caller = s.caller := h1.last
  obtain ⟨s2, g1, g2, g3, g4, g5⟩ : ∃ s', Quietly s.k s.caller s1 s' ∧ (∀ x ∈ s'.cons, x = .idle) ∧ 0 < s'.cons.length ∧
        s'.queue = s1.queue ∧ s'.batch = none := by
    rcases hb : s1.batch with _ | es
    · exact ⟨s1, .refl hI1, h2, by omega, rfl, hb⟩
    · exact hand s1 es hI1.1 hI1.2 hb (by omega) h2
  have hI2 : s2.k = s.k ∧ s2.caller = s.caller := g1.last
  obtain ⟨s3, f1, f2, f3, f4, f5⟩ := hand
    { s2 with queue := s2.queue.drop s2.queue.length, batch := some (s2.queue.take s2.queue.length) } _ hI2.1 hI2.2 rfl g3 g2
  refine ⟨s3, (h1.trans g1).trans (((Runs.refl hI2).step (.read s2.queue.length g5) hI2).trans f1), ?_, f5, f2⟩
  rw [f4]; simp

/-- **C68, corollary.**  A record queued in a state where nothing else is on its way, while no call runs: it may be that exactly one event
`E` reaches the tree, and it cannot be that nothing does or more than one. -/
theorem C68_change {s : PSt} (hs : PReach s) (hq : s.Quiet) (hn : s.cons ≠ []) {wd : Nat} {p : Path} {E : Event} (hh : Held wd p E s)
    {r : Raw} (hr : FromKernel r) {n : Comp} (hsays : says wd E n r = true) :
    (∃ s', Runs (Held wd p E) s [r] s' ∧ s'.Quiet) ∧
    ∀ s', Runs (Held wd p E) s [r] s' → s'.Quiet →
      s'.out.countP (hit wd E (at_ p n)) = s.out.countP (hit wd E (at_ p n)) + 1 := by
  constructor
  · obtain ⟨s', h1, h2⟩ := C68_progress { s with queue := s.queue ++ [r] } hn
    have hmono : Runs (Held wd p E) { s with queue := s.queue ++ [r] } [] s' :=
      h1.mono fun x hx => by obtain ⟨w, hw⟩ := hh; exact ⟨w, by rw [hx.1]; exact hw⟩
    exact ⟨s', ((Runs.refl hh).step (.change r hr) hh).trans hmono, h2⟩
  · intro s' h hq'
    rw [C68_once hs h hq hq' n, List.countP_cons, List.countP_nil, if_pos hsays]

/-! ### With the tree -/

open NonRec (Hist Op NoFail GoodPath regOf C11_os_mirror C01_delivery_exact sends) in
open Spec (copies wants) in
/-- **C68 and C36 together.**  Under the conditions of C36 (a history of the tree whose calls the watcher answered, without hard links and
with watched paths that stay where they are), when everything has been handed on.  Channel `c` is registered on the directory `p` for
`E`.  Then there is a kernel watch of `p` that asks for the kernel events that are an `E`; and whatever the kernel queues for it from now on,
in any schedule of the goroutines: when everything has been handed on again, as many events `E` for an entry `n` have reached
the tree as the kernel reported, and the tree sends each of them to `c` as often as its registrations ask for (at least once).
Missing: calls in between (for the watcher alone see `C68_once`), and the histories excluded in C36. -/
theorem C68_linux_partial {ops : List Op} {t : Verif.St} (ht : Hist Platform.inotify true ops t) {c : Nat} (hops : ∀ op ∈ ops, NoFail c op)
    {k : St} (hk : Drives t.world.log k) {p : Path} (hp : GoodPath p) {E b : Event} (hEb : (E, b) ∈ means)
    (hreg : wants (regOf Platform.inotify ops) c E p = true) (nc : Nat) :
    ∃ wd kw, k.watches.get? wd = some kw ∧ k.inode p = some kw.inode ∧ b ⊑ kw.mask ∧
      ∀ (n : Comp) (tr : List Raw) (s' : PSt), n ≠ [] →
        Runs (fun x => x.k = k) { k := k, cons := List.replicate nc .idle } tr s' → s'.Quiet →
        s'.out.countP (hit wd E (p ++ [n])) = tr.countP (says wd E n) ∧
        ∀ o ∈ s'.out, hit wd E (p ++ [n]) o = true →
          (sends Platform.inotify t.root o.info).count (.user c) = copies (regOf Platform.inotify ops) c E (p ++ [n]) ∧
          1 ≤ (sends Platform.inotify t.root o.info).count (.user c) := by
  have hP := Platform.inotify_wf.facts
  have hEint : ∀ x ∈ means, x.1 &&& Platform.inotify.internal = 0 ∧ x.1 ≠ 0 := by decide
  have hbk : b ∈ kernelBits := by
    have : ∀ x ∈ means, x.2 ∈ kernelBits := by decide
    exact this _ hEb
  obtain ⟨hEi, hE0⟩ := hEint _ hEb
  have href := NonRec.Hist.refines hP ht hops
  have hos : E ⊑ osOf t.world.log p := by
    have hw := hreg
    unfold wants at hw
    rcases hx : regOf Platform.inotify ops c p with _ | ⟨ev, fl⟩
    · rw [hx] at hw; cases hw
    · rw [hx] at hw
      have hs : E ⊑ ev := by simpa using hw
      intro i hb
      refine ((C11_os_mirror hP ht p).1 i).2 ⟨?_, .inl ⟨c, ev ||| (if fl then Platform.inotify.recursive else 0), ?_, ?_⟩⟩
      · have := congrArg (fun v => BitVec.getLsbD v i) hEi
        simp only [BitVec.getLsbD_and] at this
        have hi' : BitVec.getLsbD E i = true := hb
        rw [hi'] at this
        simpa using this
      · rw [href.ent, hx]; rfl
      · rw [BitVec.getLsbD_or, hs i hb]; rfl
  have hos0 : osOf t.world.log p ≠ 0 := by
    intro h0; rw [h0] at hos; exact hE0 (Event.sub_zero hos)
  obtain ⟨wd, hwd⟩ := hk.agree.1 p hos0
  obtain ⟨kw, hkw, hino⟩ := hk.reach.exact _ _ hwd
  obtain ⟨w', hw', hpath, hmask⟩ := hk.reach.base.live _ _ hkw
  rw [hwd] at hw'
  obtain rfl := Option.some.inj hw'
  have hacc := hk.reach.base.acc _ _ hwd
  refine ⟨wd, kw, hkw, hino, ?_, ?_⟩
  · rw [hmask]
    exact ((C32_mask _ hacc).2 b hbk).2 ⟨E, hos, hEb⟩
  · intro n tr s' hn h hq
    have hi : PInv { k := k, cons := List.replicate nc .idle } := by
      refine ⟨fun x hx => hk.reach.base.acc x.1 x.2 (GoMap.get?_of_mem hk.reach.base.mnodup hx), fun _ _ _ h => (by cases h), ?_⟩
      exact (PInv.init (fun _ => none) nc).recs
    have hq0 : PSt.Quiet { k := k, cons := List.replicate nc .idle } := ⟨rfl, rfl, fun c hc => (List.mem_replicate.1 hc).2⟩
    have hat : at_ p n = p ++ [n] := by
      unfold at_ join
      rw [if_neg hn, if_neg]
      rintro rfl
      exact hp.2 (by simp)
    refine ⟨?_, ?_⟩
    · have := total_runs (f := hit wd E (at_ p n)) (g := says wd E n) hi h (by
        intro s _ hs r hr
        have hw2 : s.k.m.get? wd = some ⟨p, osOf t.world.log p⟩ := by rw [hs]; exact hwd
        exact weight hw2 hacc hos hr n)
      rw [total_quiet hq, total_quiet hq0, hat] at this
      simpa using this
    · intro o _ ho
      simp only [hit, Bool.and_eq_true, decide_eq_true_eq] at ho
      obtain ⟨⟨-, ho1⟩, ho2⟩ := ho
      have hlen : 2 ≤ o.info.path.length := by
        rw [ho2]
        have : p.length ≠ 0 := fun h => hp.1 (List.length_eq_zero_iff.1 h)
        simp; omega
      have hc := (C01_delivery_exact hP ht hlen (by rw [ho1]; exact hEi) (by intro h; cases h)).1 c hops
      rw [ho1, ho2] at hc
      refine ⟨hc, ?_⟩
      rw [hc]
      unfold copies
      rw [List.dropLast_concat, hreg]
      simp only [if_true]
      omega

/-! ### Order, and examples -/

namespace Ex

def pd : Path := [['d']]
def pf : Comp := ['f']
def pfs : Path → Option Nat := fun p => if p = pd then some 1 else none
/-- The file `/d/f` is created, and removed. -/
def p1 : Raw := { wd := 1, mask := inCreate, name := pf }
def p2 : Raw := { wd := 1, mask := inDelete, name := pf }

/-- `/d` is watched for Create and Remove; nothing is on its way. -/
def ps0 : PSt := { k := (watch false { inode := pfs } pd (create ||| remove)).1, cons := [.idle, .idle] }

theorem ps0_reach : PReach ps0 := by
  refine ⟨pfs, consumersCount, [], ?_⟩
  have h1 := (Runs.refl (I := fun _ => True) (s := PSt.init pfs consumersCount) trivial).step
    (.add pd (create ||| remove) 1 _ rfl (by decide) rfl) trivial
  exact h1.step (.table 1 pd (create ||| remove) rfl) trivial

theorem ps0_quiet : ps0.Quiet := ⟨rfl, rfl, by decide⟩

theorem held0 {E : Event} (h : E ⊑ create ||| remove) {x : PSt} (hx : x.k = ps0.k) : Held 1 pd E x :=
  ⟨⟨pd, create ||| remove⟩, by rw [hx]; decide, rfl, h⟩

/-- The two goroutines overtake each other. -/
def psEnd : PSt := { ps0 with out := [⟨p2, { event := remove, path := pd ++ [pf] }⟩, ⟨p1, { event := create, path := pd ++ [pf] }⟩] }

theorem overtake : Runs (fun x => x.k = ps0.k) ps0 [p1, p2] psEnd := by
  have f1 : FromKernel p1 := ⟨8, false, by decide, by decide⟩
  have f2 : FromKernel p2 := ⟨9, false, by decide, by decide⟩
  have h := Runs.refl (I := fun x => x.k = ps0.k) (s := ps0) rfl
  have h := h.step (.change p1 f1) rfl
  have h := h.step (.read 1 rfl) rfl
  have h := h.step (.hand 0 [p1] rfl rfl) rfl
  have h := h.step (.change p2 f2) rfl
  have h := h.step (.read 1 rfl) rfl
  have h := h.step (.hand 1 [p2] rfl rfl) rfl
  have h := h.step (.transform 1 [p2] rfl) rfl
  have h := h.step (.send 1 ⟨p2, { event := remove, path := pd ++ [pf] }⟩ [] (by decide)) rfl
  have h := h.step (.next 1 rfl) rfl
  have h := h.step (.transform 0 [p1] rfl) rfl
  have h := h.step (.send 0 ⟨p1, { event := create, path := pd ++ [pf] }⟩ [] (by decide)) rfl
  have h := h.step (.next 0 rfl) rfl
  exact h

end Ex

/-- The premises of C68 can be met, and the counts are not all zero. -/
example : Ex.psEnd.out.countP (hit 1 create (at_ Ex.pd Ex.pf)) = 1 := by
  rw [C68_once Ex.ps0_reach (Ex.overtake.mono fun x hx => Ex.held0 (by decide) hx) Ex.ps0_quiet ⟨rfl, rfl, by decide⟩ Ex.pf]
  decide

example : ∃ s', Runs (Held 1 Ex.pd create) Ex.ps0 [Ex.p1] s' ∧ s'.Quiet :=
  (C68_change Ex.ps0_reach Ex.ps0_quiet (by decide) (Ex.held0 (by decide) rfl) ⟨8, false, by decide, by decide⟩
    (n := Ex.pf) (by decide)).1

/-- With a call in between: while the file is created, the set is extended by Write. -/
example : ∃ s', Runs (Kept 1 Ex.pd create) Ex.ps0 [Ex.p1] s' ∧ s'.Quiet ∧ s'.out.countP (hit 1 create (at_ Ex.pd Ex.pf)) = 1 := by
  have f1 : FromKernel Ex.p1 := ⟨8, false, by decide, by decide⟩
  have idle : ∀ {x : PSt}, x.caller = .idle → Kept 1 Ex.pd create x := fun h => ⟨by simp [h], fun q e h' => by rw [h] at h'; cases h'⟩
  have call : ∀ {x : PSt}, x.caller = .added 1 Ex.pd (create ||| write) → Kept 1 Ex.pd create x :=
    fun h => ⟨by simp [h], fun q e h' => by rw [h] at h'; cases h'; exact ⟨rfl, by decide⟩⟩
  have h := Runs.refl (I := Kept 1 Ex.pd create) (s := Ex.ps0) (idle rfl)
  have h := h.step (.add Ex.pd (create ||| write) 1 _ rfl (by decide) rfl) (call rfl)
  have h := h.step (.change Ex.p1 f1) (call rfl)
  have h := h.step (.read 1 rfl) (call rfl)
  have h := h.step (.hand 0 [Ex.p1] rfl rfl) (call rfl)
  have h := h.step (.transform 0 [Ex.p1] rfl) (call rfl)
  have h := h.step (.table 1 Ex.pd (create ||| write) rfl) (idle rfl)
  have h := h.step (.send 0 ⟨Ex.p1, { event := create, path := Ex.pd ++ [Ex.pf] }⟩ [] (by decide)) (idle rfl)
  have h := h.step (.next 0 rfl) (idle rfl)
  refine ⟨_, h, ⟨rfl, rfl, by decide⟩, ?_⟩
  rw [C68_calls Ex.ps0_reach (Ex.held0 (by decide) rfl) h Ex.ps0_quiet ⟨rfl, rfl, by decide⟩ Ex.pf]
  decide

/-- Write is not requested, and does not arrive. -/
example : Ex.psEnd.out.countP (fun o => decide (o.sys.wd = 1) && decide (o.info.event = write)) = 0 :=
  C68_only Ex.ps0_reach (Ex.overtake.mono fun x hx w hw => by
    rw [hx] at hw
    have : w = ⟨Ex.pd, create ||| remove⟩ := by
      have h2 : Ex.ps0.k.m.get? 1 = some ⟨Ex.pd, create ||| remove⟩ := by decide
      exact Option.some.inj (hw.symm.trans h2)
    subst this
    decide) Ex.ps0_quiet

/-- The premises of `C68_linux_partial` are those of C36, met in `NonRec.Ex.s2`. -/
example : Runs (fun x => x.k = Ex.k2) { k := Ex.k2, cons := List.replicate 2 .idle } [] { k := Ex.k2, cons := List.replicate 2 .idle } :=
  .refl rfl

/-- **C68, the order is not kept**: a file is created in a watched directory and removed, and the tree receives the removal first.
Each of the two goroutines has one of the two events. -/
theorem C68_order_refuted : ∃ (s s' : PSt) (r r' : Raw) (o o' : Out), PReach s ∧ s.Quiet ∧ s.cons.length = consumersCount ∧
    Runs (fun x => x.k = s.k) s [r, r'] s' ∧ s'.Quiet ∧ s'.out = [o', o] ∧
    r.mask = inCreate ∧ r'.mask = inDelete ∧ o.sys = r ∧ o'.sys = r' ∧ o.info.event = create ∧ o'.info.event = remove ∧
    o.info.path = o'.info.path :=
  ⟨Ex.ps0, Ex.psEnd, Ex.p1, Ex.p2, _, _, Ex.ps0_reach, Ex.ps0_quiet, rfl, Ex.overtake, ⟨rfl, rfl, by decide⟩, rfl, rfl, rfl, rfl, rfl,
    rfl, rfl, rfl⟩

end Inotify
end Verif
