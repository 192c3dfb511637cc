/-
C49 and C50: the FSEvents watcher meets the contract of the interface the recursive tree uses, and the two together
deliver what was asked for.
-/
import Verif.PropsFsevents
import Verif.PropsRecSync
import Verif.PropsRec

namespace Verif
namespace Fsevents
open Spec PathStr

/-- What is watched on a path: the event set and whether recursively. -/
def tab (t : Table) (p : Path) : Option (Event × Bool) := (t.get? p).map fun w => (w.events, w.isrec)

/-- The table after the calls of the log (latest first), each answered as the log says. -/
inductive Drives : Log → Table → Prop
  | nil : Drives [] []
  | call {l t} (start : Bool) (c : Call) (h : Drives l t) : Drives ((c, (serve start t c).2) :: l) (serve start t c).1

/-- The call moves a watch to another path. -/
def Relocates : Call → Prop
  | .recRewatch p p' _ _ => p ≠ p'
  | _ => False

/-- What a successful call does to the watches, by the contract (watcher.go:22-85). -/
def after (c : Call) (os : Path → Option (Event × Bool)) (q : Path) : Option (Event × Bool) :=
  match c with
  | .watch p e => if q = p then some (e, false) else os q
  | .unwatch p => if q = p then none else os q
  | .rewatch p _ e => if q = p then some (e, false) else os q
  | .recWatch p e => if q = p then some (e, true) else os q
  | .recUnwatch p => if q = p then none else os q
  | .recRewatch p p' _ e => if q = p' then some (e, true) else if q = p then none else os q

theorem osRec_after (c : Call) (l : Log) (q : Path) : osRec ((c, true) :: l) q = after c (osRec l) q := by
  cases c <;> rfl

theorem osRec_failed (c : Call) (l : Log) (q : Path) : osRec ((c, false) :: l) q = osRec l q := by
  cases c <;> simp [osRec]

theorem tab_set (t : Table) (p : Path) (w : Watch) (q : Path) :
    tab (t.set p w) q = if q = p then some (w.events, w.isrec) else tab t q := by
  unfold tab
  rw [GoMap.get?_set]
  by_cases h : q = p
  · rw [if_pos h.symm, if_pos h]; rfl
  · rw [if_neg (fun hh => h hh.symm), if_neg h]

theorem tab_del (t : Table) (p q : Path) : tab (t.del p) q = if q = p then none else tab t q := by
  unfold tab
  rw [GoMap.get?_del]
  by_cases h : q = p
  · rw [if_pos h.symm, if_pos h]; rfl
  · rw [if_neg (fun hh => h hh.symm), if_neg h]

theorem tab_none {t : Table} {p : Path} (h : tab t p = none) : t.get? p = none := by
  unfold tab at h; simpa using h

theorem tab_some {t : Table} {p : Path} {e : Event} {f : Bool} (h : tab t p = some (e, f)) :
    ∃ w, t.get? p = some w ∧ w.events = e ∧ w.isrec = f := by
  unfold tab at h
  cases hw : t.get? p with
  | none => rw [hw] at h; simp at h
  | some w => rw [hw] at h; simp at h; exact ⟨w, rfl, h.1, h.2⟩

theorem watch_ok {start : Bool} {t : Table} {p : Path} (hp : t.get? p = none) (e : Event) (f : Bool) :
    ((watch start t p e f).2 = start) ∧ (start = true → ∀ q, tab (watch start t p e f).1 q = if q = p then some (e, f) else tab t q) ∧
      (start = false → (watch start t p e f).1 = t) := by
  unfold watch
  rw [hp]
  cases start
  · exact ⟨rfl, fun h => (by cases h), fun _ => rfl⟩
  · refine ⟨rfl, fun _ q => ?_, fun h => (by cases h)⟩
    simp only [if_true]
    rw [tab_set]

/-- **C49, one call.**  A call that keeps the contract succeeds unless FSEvents refuses to start a stream; on success
the watches are changed as the contract says, and on failure they are as before, except that a failed move of a watch
to another path has removed the old watch. -/
theorem C49_serve (P : Platform) (start : Bool) (t : Table) (c : Call) (hc : c.ValidRec P (tab t)) :
    ((serve start t c).2 = true → ∀ q, tab (serve start t c).1 q = after c (tab t) q) ∧
    ((serve start t c).2 = false → start = false ∧ (¬ Relocates c → ∀ q, tab (serve start t c).1 q = tab t q)) := by
  cases c with
  | watch p e =>
    obtain ⟨h1, h2, h3⟩ := watch_ok (start := start) (tab_none hc.1) e false
    simp only [serve]
    rw [h1]
    exact ⟨fun h => h2 h, fun h => ⟨h, fun _ q => by rw [h3 h]⟩⟩
  | recWatch p e =>
    obtain ⟨h1, h2, h3⟩ := watch_ok (start := start) (tab_none hc.1) e true
    simp only [serve]
    rw [h1]
    exact ⟨fun h => h2 h, fun h => ⟨h, fun _ q => by rw [h3 h]⟩⟩
  | unwatch p =>
    simp only [serve, unwatch]
    cases hw : t.get? p with
    | none => exact absurd (by rw [tab, hw]; rfl) hc
    | some w => exact ⟨fun _ q => tab_del t p q, fun h => (by cases h)⟩
  | recUnwatch p =>
    simp only [serve, unwatch]
    cases hw : t.get? p with
    | none => exact absurd (by rw [tab, hw]; rfl) hc
    | some w => exact ⟨fun _ q => tab_del t p q, fun h => (by cases h)⟩
  | rewatch p old new =>
    obtain ⟨⟨f, hf⟩, _⟩ := hc
    obtain ⟨w, hw, he, _⟩ := tab_some hf
    simp only [serve, rewatch, hw, he, if_true]
    exact ⟨fun _ q => by rw [tab_set]; rfl, fun h => (by cases h)⟩
  | recRewatch p p' old new =>
    obtain ⟨⟨f, hf⟩, hp', _⟩ := hc
    obtain ⟨w, hw, he, _⟩ := tab_some hf
    simp only [serve, recRewatch]
    by_cases hpp : p = p'
    · subst hpp
      rw [if_pos rfl]
      have hafter : ∀ q, (if q = p then some (new, true) else tab t q) = after (.recRewatch p p old new) (tab t) q := by
        intro q; simp only [after]; split <;> rfl
      by_cases hee : old = new
      · rw [if_pos hee]
        simp only [hw]
        refine ⟨fun _ q => ?_, fun h => (by cases h)⟩
        rw [tab_set, ← hafter, ← hee, ← he]
      · rw [if_neg hee]
        simp only [hw, he, if_true]
        refine ⟨fun _ q => ?_, fun h => (by cases h)⟩
        rw [tab_set, ← hafter]
    · rw [if_neg hpp]
      have hn : t.get? p' = none := by
        rcases hp' with h | h
        · exact absurd h.symm hpp
        · exact tab_none h
      rw [hn]
      simp only [unwatch, hw]
      rw [if_neg (by simp)]
      have hn' : (t.del p).get? p' = none := by rw [GoMap.get?_del, if_neg hpp]; exact hn
      obtain ⟨h1, h2, _⟩ := watch_ok (start := start) hn' new true
      rw [h1]
      refine ⟨fun h q => ?_, fun h => ⟨h, fun hr => absurd hpp hr⟩⟩
      rw [h2 h, tab_del]
      rfl

/-- **C49.**  After every sequence of calls that keep the contract, in which no move of a watch to another path failed,
the watches of the FSEvents watcher are exactly those the log stands for. -/
theorem C49_contract_partial (P : Platform) {l : Log} {t : Table} (h : Drives l t) (hv : ValidLogRec P l)
    (hr : ∀ c, (c, false) ∈ l → ¬ Relocates c) : tab t = osRec l := by
  induction h with
  | nil => funext q; rfl
  | @call l t start c h ih =>
    have iht := ih hv.2 (fun c hc => hr c (by simp [hc]))
    have hc : c.ValidRec P (tab t) := by rw [iht]; exact hv.1
    obtain ⟨h1, h2⟩ := C49_serve P start t c hc
    funext q
    cases hs : (serve start t c).2 with
    | true => rw [osRec_after, h1 hs q, iht]
    | false => rw [osRec_failed, (h2 hs).2 (hr c (by simp [hs])) q, iht]

/-- **C49 is false** of the code without the exception: if the new stream cannot be started when a watch is moved, the
call fails and the old watch is gone. -/
theorem C49_refuted : ∃ l t, Drives l t ∧ ValidLogRec Platform.fsevents l ∧
    l = [(.recRewatch [Rec.Ex.a, Rec.Ex.b] [Rec.Ex.a] Rec.Ex.W Rec.Ex.W, false), (.recWatch [Rec.Ex.a, Rec.Ex.b] Rec.Ex.W, true)] ∧
    osRec l [Rec.Ex.a, Rec.Ex.b] = some (Rec.Ex.W, true) ∧ ∀ q, tab t q = none := by
  refine ⟨_, _, .call false (.recRewatch [Rec.Ex.a, Rec.Ex.b] [Rec.Ex.a] Rec.Ex.W Rec.Ex.W)
    (.call true (.recWatch [Rec.Ex.a, Rec.Ex.b] Rec.Ex.W) .nil), ?_, ?_, ?_, ?_⟩
  · refine ⟨⟨⟨true, by decide⟩, .inr (by decide), by decide, by decide⟩, ⟨by decide, by decide, by decide⟩, trivial⟩
  · rfl
  · decide
  · intro q; rfl

/-- The entries of the table are kept under their own paths. -/
theorem Drives.path {l : Log} {t : Table} (h : Drives l t) : ∀ p w, t.get? p = some w → w.path = str p := by
  have hw : ∀ (start : Bool) (t : Table) (p : Path) (e : Event) (f : Bool), (∀ p w, t.get? p = some w → w.path = str p) →
      ∀ q w, (watch start t p e f).1.get? q = some w → w.path = str q := by
    intro start t p e f ih q w
    unfold watch
    cases hp : t.get? p with
    | some _ => exact ih q w
    | none =>
      cases start
      · exact ih q w
      · simp only [if_true]
        rw [GoMap.get?_set]
        split
        · rename_i hq; intro h; cases h; rw [hq]
        · exact ih q w
  have hu : ∀ (t : Table) (p : Path), (∀ p w, t.get? p = some w → w.path = str p) →
      ∀ q w, (unwatch t p).1.get? q = some w → w.path = str q := by
    intro t p ih q w
    unfold unwatch
    cases hp : t.get? p with
    | none => exact ih q w
    | some _ =>
      simp only
      rw [GoMap.get?_del]
      split
      · intro h; cases h
      · exact ih q w
  have hset : ∀ (t : Table) (p : Path) (w w' : Watch), (∀ p w, t.get? p = some w → w.path = str p) → t.get? p = some w →
      w'.path = w.path → ∀ q x, (t.set p w').get? q = some x → x.path = str q := by
    intro t p w w' ih hp hpath q x
    rw [GoMap.get?_set]
    split
    · rename_i hq; intro h; cases h; rw [hpath, ← hq]; exact ih p w hp
    · exact ih q x
  induction h with
  | nil => intro p w h; simp at h
  | @call l t start c h ih =>
    cases c with
    | watch p e => exact hw start t p e false ih
    | recWatch p e => exact hw start t p e true ih
    | unwatch p => exact hu t p ih
    | recUnwatch p => exact hu t p ih
    | rewatch p old new =>
      simp only [serve, rewatch]
      cases hp : t.get? p with
      | none => exact ih
      | some w =>
        simp only
        split
        · exact hset t p w _ ih hp rfl
        · exact ih
    | recRewatch p p' old new =>
      simp only [serve, recRewatch]
      split
      · split
        · cases hp : t.get? p with
          | none => exact ih
          | some w => exact hset t p w _ ih hp rfl
        · cases hp : t.get? p with
          | none => exact ih
          | some w =>
            simp only
            split
            · exact hset t p w _ ih hp rfl
            · exact ih
      · cases hp : t.get? p' with
        | some w => exact ih
        | none =>
          simp only
          split
          · exact hu t p ih
          · exact hw start _ p' new true (hu t p ih)

/-! ### C50: from FSEvents to the channel -/

theorem copies_pos {r : Reg} {c : Nat} {q x : Path} {E F : Event} {f : Bool} (hreg : r c q = some (E, f)) (hF : F ⊑ E)
    (hx : x ≠ []) (hwant : x = q ∨ x.dropLast = q ∨ (f = true ∧ q <+: x.dropLast)) : 0 < copies r c F x := by
  have hw : wants r c F q = true := by simp [wants, hreg, hF]
  unfold copies
  rcases hwant with rfl | rfl | ⟨rfl, hpre⟩
  · rw [hw, if_pos rfl]; omega
  · rw [hw, if_pos rfl]; omega
  · by_cases heq : q = x.dropLast
    · rw [← heq, hw, if_pos rfl]; omega
    · have hlt : q.length < x.dropLast.length := by
        rcases Nat.lt_or_ge q.length x.dropLast.length with h | h
        · exact h
        · exact absurd (hpre.eq_of_length_le h) heq
      have : 0 < (List.range x.dropLast.length).countP (fun i => wantsBelow r c F (x.dropLast.take i)) := by
        refine List.countP_pos_iff.2 ⟨q.length, List.mem_range.2 hlt, ?_⟩
        rw [← List.prefix_iff_eq_take.1 hpre]
        simp [wantsBelow, hreg, hF]
      omega

theorem stripVal_keeps (prev : Event) {set : Event} {k : Nat} (hk : set.getLsbD k = true)
    (h : k ≠ 8 ∧ k ≠ 9 ∧ k ≠ 10 ∧ k ≠ 12 ∨ set &&& (created ||| removed) = 0) : (stripVal prev set).1.getLsbD k = true := by
  rcases h with ⟨h8, h9, h10, h12⟩ | h
  · have hlt := BitVec.lt_of_getLsbD hk
    have hc : created.getLsbD k = false := by
      cases hx : created.getLsbD k with
      | false => rfl
      | true => exact absurd ((bit_flag (k := 8) (by omega) k).1 hx) h8
    have hr : removed.getLsbD k = false := by
      cases hx : removed.getLsbD k with
      | false => rfl
      | true => exact absurd ((bit_flag (k := 9) (by omega) k).1 hx) h9
    have hw : (modified ||| inodeMetaMod).getLsbD k = false := by rw [write_lit k hlt]; simp [h10, h12]
    unfold stripVal
    split
    · simp only
      split <;> simp only [Event.bit_andNot, hk, hc, hw] <;> rfl
    · split
      · simp only
        split <;> simp only [Event.bit_andNot, hk, hr] <;> rfl
      · split
        · exact hk
        · split
          · simp only [Event.bit_andNot, hk, hw]; rfl
          · exact hk
  · rw [stripVal_plain _ h]; exact hk

/-- **C50, from FSEvents to the channel.**  After a harmless history (see `SafeHist`) in which no move of a watch failed,
if channel `c` asked for an event that FSEvents reports as flag number `k` on a path in scope, then exactly one FSEvents
watch is at or above the path; if it is recursive or the path is directly below it, it forwards the event, and the
tree sends it to `c` as often as the registrations ask for.  Creation, removal and what is dropped with them are
governed by C39 and C48; here the flag is another one, or neither is among the flags.
Missing: paths further below a non-recursive watch (`Rec.C45_refuted`). -/
theorem C50_macos_partial {ops : List Rec.ROp} {s : St} (h : Rec.SafeHist Platform.fsevents ops s) {t : Table}
    (hd : Drives s.world.log t) (hrel : ∀ c, (c, false) ∈ s.world.log → ¬ Relocates c) {c : Nat} {q : Path} {E : Event}
    {f : Bool} (hreg : Rec.rregOf ops c q = some (E, f)) (hq : Comps q) {x : Path} (hx : Comps x) (hx0 : [] ∉ x)
    (hlen : 2 ≤ x.length) (hwant : x = q ∨ x.dropLast = q ∨ (f = true ∧ q <+: x.dropLast)) {flags : Event} {k : Nat}
    (hk : flags.getLsbD k = true) (hkE : E.getLsbD k = true)
    (hkeep : k ≠ 8 ∧ k ≠ 9 ∧ k ≠ 10 ∧ k ≠ 12 ∨ flags &&& (created ||| removed) = 0) :
    (∃ tp w, t.get? tp = some w ∧ tp <+: x ∧ (∀ tp' w', t.get? tp' = some w' → tp' <+: x → tp' = tp) ∧
      ∀ w1 : Watch, w1.path = w.path → w1.events = w.events → w1.isrec = w.isrec → Considered w1 [] ⟨str x, flags⟩ →
        (w.isrec = true ∨ x.length ≤ tp.length + 1) → (⟨str x, flags⟩, flag k) ∈ (w1.dispatch1 ⟨str x, flags⟩).2) ∧
    ∀ ei : EventInfo, ei.event = flag k → ei.path = x →
      0 < copies (Rec.rregOf ops) c (flag k) x ∧
      (Rec.sends Platform.fsevents s.root ei).count (.user c) = copies (Rec.rregOf ops) c (flag k) x := by
  have hP := Platform.fsevents_wf.facts
  obtain ⟨hm, hv, _⟩ := Rec.C26_mirror_partial hP h
  have htab := C49_contract_partial _ hd hv hrel
  have hk32 := BitVec.lt_of_getLsbD hk
  have hsub : flag k ⊑ E := fun i hi => by rw [(bit_flag hk32 i).1 hi]; exact hkE
  have hqx : q <+: x := by
    rcases hwant with rfl | rfl | ⟨_, hp⟩
    · exact List.prefix_refl _
    · exact List.dropLast_prefix _
    · exact hp.trans (List.dropLast_prefix _)
  constructor
  · obtain ⟨tp, E', f', h1, h2, h3⟩ := Rec.mirror_covered hm c q E f hreg
    rw [← htab] at h2
    obtain ⟨w, hw, he, hf⟩ := tab_some h2
    refine ⟨tp, w, hw, h1.trans hqx, ?_, ?_⟩
    · intro tp' w' hw' hp'
      have n1 : osRec s.world.log tp ≠ none := by rw [← htab, h2]; simp
      have n2 : osRec s.world.log tp' ≠ none := by rw [← htab, tab, hw']; simp
      rcases List.prefix_or_prefix_of_prefix (h1.trans hqx) hp' with hh | hh
      · exact (hm.apart tp tp' n1 n2 hh).symm
      · exact hm.apart tp' tp n2 n1 hh
    · intro w1 hp1 he1 hi1 hcons hin
      have htp : Comps tp := fun b hb => hq b (h1.subset hb)
      have hpath : w1.path = str tp := hp1.trans (hd.path tp w hw)
      have hins : Inside w1.isrec tp x := ⟨h1.trans hqx, by rw [hi1]; exact hin⟩
      obtain ⟨b, hb⟩ := (base_str w1 htp hx hpath).2 hins
      obtain ⟨c1, c2, c3⟩ := hcons
      have hfl : w1.flushed = true := by simpa using c1
      rw [dispatch1_eq, if_neg, hb]
      · refine List.mem_map.2 ⟨flag k, mem_splitflags.2 ⟨k, hk32, ?_, rfl⟩, rfl⟩
        rw [BitVec.getLsbD_and, Bool.and_eq_true, strip_eq, he1, he]
        exact ⟨stripVal_keeps _ hk hkeep, h3 k hkE⟩
      · rintro (hh | hh | ⟨hh, hh'⟩)
        · exact hh c2
        · rw [hfl] at hh; cases hh
        · exact c3 hh hh'
  · intro ei he hp
    refine ⟨copies_pos hreg hsub (by intro h0; rw [h0] at hlen; simp at hlen) hwant, ?_⟩
    have hr := Rec.RHist.refines hP h.hist.1 h.hist.2
    have hint : ei.event &&& Platform.fsevents.internal = 0 := by
      have hcl := (hr.clean c q E f hreg).1
      rw [he]
      refine Event.zero_of_getLsbD fun i => ?_
      rw [BitVec.getLsbD_and]
      cases hb : (flag k).getLsbD i with
      | false => rfl
      | true =>
        have := congrArg (fun e => BitVec.getLsbD e i) hcl
        simp only [BitVec.getLsbD_and, hsub i hb] at this
        simpa using this
    have := (Rec.C02_delivery_exact hP h.hist.1 (ei := ei) (by rw [hp]; exact hlen) (by rw [hp]; exact hx0)
      hint (fun hw => absurd hw (by decide))).1 c fun o ho => (h.hist.2 o ho).for c
    rw [this, he, hp]

namespace Ex

/-- The table after channel 2 watched `/a/b` and channel 1 `/a/...`. -/
def t2 : Table := (serve true (serve true [] (.watch [Rec.Ex.a, Rec.Ex.b] Rec.Ex.CW)).1
  (.recRewatch [Rec.Ex.a, Rec.Ex.b] [Rec.Ex.a] Rec.Ex.CW Rec.Ex.CW)).1

theorem drives2 : Drives Rec.Ex.s2.world.log t2 := by
  have hl : Rec.Ex.s2.world.log = [(.recRewatch [Rec.Ex.a, Rec.Ex.b] [Rec.Ex.a] Rec.Ex.CW Rec.Ex.CW, true),
    (.watch [Rec.Ex.a, Rec.Ex.b] Rec.Ex.CW, true)] := by decide
  rw [hl]
  exact .call true (.recRewatch [Rec.Ex.a, Rec.Ex.b] [Rec.Ex.a] Rec.Ex.CW Rec.Ex.CW)
    (.call true (.watch [Rec.Ex.a, Rec.Ex.b] Rec.Ex.CW) .nil)

theorem safe2 : Rec.SafeHist Platform.fsevents Rec.Ex.ops2 Rec.Ex.s2 :=
  (Rec.watchOnly_safe Rec.Ex.hF Rec.Ex.hist2 (by simp [Rec.Ex.ops2, Rec.ROp.isWatch])).1

/-- The watch of `/a/b` was moved to `/a` and made recursive; it keeps both events. -/
example : tab t2 [Rec.Ex.a] = some (Rec.Ex.CW, true) ∧ tab t2 [Rec.Ex.a, Rec.Ex.b] = none := by decide

/-- `C49_contract_partial` applies to it. -/
example : tab t2 = osRec Rec.Ex.s2.world.log :=
  C49_contract_partial Platform.fsevents drives2 (Rec.C26_mirror_partial Rec.Ex.hF safe2).2.1 (by
    have hl : Rec.Ex.s2.world.log = [(.recRewatch [Rec.Ex.a, Rec.Ex.b] [Rec.Ex.a] Rec.Ex.CW Rec.Ex.CW, true),
      (.watch [Rec.Ex.a, Rec.Ex.b] Rec.Ex.CW, true)] := by decide
    rw [hl]; simp)

/-- `C50_macos_partial` applies: a modification of `/a/b/f`, reported as flag 12, for channel 1, which watches `/a`
recursively. -/
example : Drives Rec.Ex.s2.world.log t2 ∧ (∀ c, (c, false) ∈ Rec.Ex.s2.world.log → ¬ Relocates c) ∧
    Rec.rregOf Rec.Ex.ops2 1 [Rec.Ex.a] = some (Rec.Ex.W, true) ∧
    [Rec.Ex.a] <+: [Rec.Ex.a, Rec.Ex.b, Rec.Ex.f].dropLast ∧ BitVec.getLsbD (0x11000 : Event) 12 = true ∧
    BitVec.getLsbD Rec.Ex.W 12 = true ∧ (0x11000 : Event) &&& (created ||| removed) = 0 := by
  refine ⟨drives2, ?_, by decide, by decide, by decide, by decide, by decide⟩
  have hl : Rec.Ex.s2.world.log = [(.recRewatch [Rec.Ex.a, Rec.Ex.b] [Rec.Ex.a] Rec.Ex.CW Rec.Ex.CW, true),
    (.watch [Rec.Ex.a, Rec.Ex.b] Rec.Ex.CW, true)] := by decide
  rw [hl]; simp

end Ex

end Fsevents
end Verif
