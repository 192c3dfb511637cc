/-
C65: the recursive tree and the Windows watcher together.
-/
import Verif.PropsReaddcw3
import Verif.PropsFsevents2

namespace Verif
namespace Dcw
open Platform (readdcw)
open Spec NonRec
open Verif.Rec (RStep RSteps)

/-! ### The calls of the tree as calls of the watcher -/

/-- The calls that the tree makes (latest first), each answered as the log says, carried out by the watcher (oldest first), with
what its goroutine and the kernel do in between (`tau`).  watcher_readdcw.go:284-292 `Watch` and `RecursiveWatch`, 456-470
`Rewatch` and `RecursiveRewatch`, 510-518 `Unwatch` and `RecursiveUnwatch`. -/
inductive Drives : Log → List Op → Prop
  | nil : Drives [] []
  | tau {l ops} : Drives l ops → Drives l (ops ++ [.tau])
  | watch {l ops} (p e ok) : Drives l ops → Drives ((.watch p e, ok) :: l) (ops ++ [.watch p e false ok])
  | recWatch {l ops} (p e ok) : Drives l ops → Drives ((.recWatch p e, ok) :: l) (ops ++ [.watch p e true ok])
  | unwatch {l ops} (p ok) : Drives l ops → Drives ((.unwatch p, ok) :: l) (ops ++ [.unwatch p ok])
  | recUnwatch {l ops} (p ok) : Drives l ops → Drives ((.recUnwatch p, ok) :: l) (ops ++ [.unwatch p ok])
  | rewatch {l ops} (p old new ok) : Drives l ops → Drives ((.rewatch p old new, ok) :: l) (ops ++ [.rewatch p old new false ok])
  | recRewatch {l ops} (p old new ok) : Drives l ops →
      Drives ((.recRewatch p p old new, ok) :: l) (ops ++ [.rewatch p old new true ok])
  | move {l ops} (p p' old new n ok) : p ≠ p' → Drives l ops →
      Drives ((.recRewatch p p' old new, ok) :: l) (ops ++ [.unwatch p true] ++ List.replicate n .tau ++ [.watch p' new true ok])
  | stay {l ops} (p p' old new) : p ≠ p' → Drives l ops → Drives ((.recRewatch p p' old new, false) :: l) (ops ++ [.unwatch p false])

theorem asked_taus (ops : List Op) (n : Nat) : asked (ops ++ List.replicate n .tau) = asked ops := by
  induction n generalizing ops with
  | zero => simp
  | succ n ih =>
    rw [List.replicate_succ, List.append_cons, ih, asked_snoc]
    rfl

/-- If no move of a watch failed, the watcher was asked for what the log stands for. -/
theorem Drives.asked {l : Log} {ops : List Op} (h : Drives l ops) (hr : ∀ c, (c, false) ∈ l → ¬ Fsevents.Relocates c) :
    Dcw.asked ops = osRec l := by
  have hn : ∀ {c : Call} {ok : Bool} {l : Log}, (∀ c', (c', false) ∈ (c, ok) :: l → ¬ Fsevents.Relocates c') →
      ∀ c', (c', false) ∈ l → ¬ Fsevents.Relocates c' := fun h c' hc => h c' (by simp [hc])
  induction h with
  | nil => funext q; rfl
  | tau _ ih => rw [asked_snoc, ih hr]; rfl
  | watch p e ok _ ih =>
    rw [asked_snoc, ih (hn hr)]; funext q
    cases ok
    · rw [Fsevents.osRec_failed]; rfl
    · rw [Fsevents.osRec_after]; rfl
  | recWatch p e ok _ ih =>
    rw [asked_snoc, ih (hn hr)]; funext q
    cases ok
    · rw [Fsevents.osRec_failed]; rfl
    · rw [Fsevents.osRec_after]; rfl
  | unwatch p ok _ ih =>
    rw [asked_snoc, ih (hn hr)]; funext q
    cases ok
    · rw [Fsevents.osRec_failed]; rfl
    · rw [Fsevents.osRec_after]; rfl
  | recUnwatch p ok _ ih =>
    rw [asked_snoc, ih (hn hr)]; funext q
    cases ok
    · rw [Fsevents.osRec_failed]; rfl
    · rw [Fsevents.osRec_after]; rfl
  | rewatch p old new ok _ ih =>
    rw [asked_snoc, ih (hn hr)]; funext q
    cases ok
    · rw [Fsevents.osRec_failed]; rfl
    · rw [Fsevents.osRec_after]; rfl
  | recRewatch p old new ok _ ih =>
    rw [asked_snoc, ih (hn hr)]; funext q
    cases ok
    · rw [Fsevents.osRec_failed]; rfl
    · rw [Fsevents.osRec_after]
      simp only [askedStep, Fsevents.after]
      split <;> rfl
  | @move l ops p p' old new n ok hp _ ih =>
    have hok : ok = true := by
      cases ok
      · exact absurd hp (hr (.recRewatch p p' old new) (by simp))
      · rfl
    subst hok
    rw [asked_snoc, asked_taus, asked_snoc, ih (hn hr)]; funext q
    rw [Fsevents.osRec_after]
    rfl
  | @stay l ops p p' old new hp _ ih => exact absurd hp (hr (.recRewatch p p' old new) (by simp))

/-! ### What a handle reports -/

/-- The portable events are not internal and have no raw action. -/
theorem generic_plain (a : Action) : PlainEvent readdcw a.generic ∧ a.generic &&& readdcw.internal = 0 := by
  cases a <;> exact ⟨fun _ => by decide, by decide⟩

/-- A portable event asked for is sent for its action on either handle. -/
theorem send_generic {F e : Event} {a : Action} (i : Bool) (hF : F &^ onlyStates = e) (hg : a.generic ≠ 0) (hge : a.generic ⊑ e)
    (x : Path) : ∃ ei ∈ send (filt i F) a x, ei.event = a.generic ∧ ei.path = x := by
  have hbit : filt i F &&& a.generic ≠ 0 := by
    rw [Event.ne_zero_iff] at hg ⊢
    obtain ⟨j, hj⟩ := hg
    refine ⟨j, ?_⟩
    have h1 := hge j hj
    rw [← hF, Event.bit_andNot] at h1
    have h2 : F.getLsbD j = true := by revert h1; cases F.getLsbD j <;> simp
    have h3 : dirName.getLsbD j = false := by
      have hd : a.generic &&& dirName = 0 := by cases a <;> decide
      have := Event.bext.1 hd j
      rw [BitVec.getLsbD_and, hj] at this
      simpa using this
    rw [BitVec.getLsbD_and, hj]
    cases i
    · simp only [filt, fileFilter, Event.bit_andNot, h2, h3]; rfl
    · simp only [filt, dirFilter, BitVec.getLsbD_or, h2]; rfl
  have hd : (decode (filt i F) a).1 = a.generic := by
    cases a <;> simp only [decode, gensys, Action.generic] at hbit hg ⊢ <;> first | exact absurd rfl hg | exact if_pos hbit
  unfold send
  simp only [hd]
  rw [if_neg (fun h => hg h.1), if_neg hg]
  refine ⟨{ event := a.generic, path := x, ftype := ftype (filt i F) a }, ?_, rfl, rfl⟩
  split <;> simp

/-- When everything is handled, an entry asked for is open. -/
theorem ask_up {ops : List Op} {s : St} (h : CHist ops s) (hq : Quiet s) {p : Path} {e : Event} {r : Bool}
    (ha : asked ops p = some (e, r)) : valid e = true ∧ ∃ w F, s.m.get? p = some w ∧ F &^ onlyStates = e ∧ Up s w F := by
  have hi := h.inv
  obtain ⟨w, hw, hm, hp, hrec, hv, hc⟩ := hi.ask ha
  rcases hc with ⟨hf, h0, F, hF, hh, hu, -⟩ | ⟨-, hpos, hd⟩
  · exact ⟨hv, w, F, hm, hF, hu⟩
  · exfalso
    have hz : sump s w = 0 := by
      unfold sump
      have : (s.wds w).slots.map (pend s) = (s.wds w).slots.map fun _ => 0 := List.map_congr_left fun g hg => by
        rw [quiet_pend hq]
        unfold inUse
        rw [List.countP_eq_zero]
        intro r hr e
        have h1 := (hi.base.rd r hr).1
        have h2 : r.g = g := by simpa using e
        rw [h2, hd g hg] at h1
        cases h1
      rw [this]
      generalize (s.wds w).slots = l
      induction l with
      | nil => rfl
      | cons a l ih => simp only [List.map_cons, List.sum_cons, ih]
    omega

/-- **C65, from the kernel to the channel on Windows.**  After a harmless history (see `Rec.SafeHist`) in which no move of a
watch failed, carried out by the watcher without the races of C60 and with everything reported handled: if channel `c` asked on `q`
for the portable event of an action, then for every kind of change `ch` that this event is about the kernel is registered on a
directory at or above the path (which one depends on the tree; whether also for what is further below is `r.sub`), a record of the
action on that handle makes the watcher send the event, and the tree sends it to `c` as often as the registrations ask for.
Missing: the kinds of change of `C58_refuted`, the races of C60, raw events (`Rec.C03_refuted_windows`), paths further below a
non-recursive watch (`Rec.C45_refuted`). -/
theorem C65_windows_partial {ops : List Rec.ROp} {s : Verif.St} (h : Rec.SafeHist readdcw ops s) {wops : List Op} {ws : St}
    (hd : Drives s.world.log wops) (hw : CHist wops ws) (hquiet : Quiet ws)
    (hrel : ∀ c, (c, false) ∈ s.world.log → ¬ Fsevents.Relocates c) {c : Nat} {q : Path} {E : Event} {f : Bool}
    (hreg : Rec.rregOf ops c q = some (E, f)) {x : Path} (hx0 : [] ∉ x) (hlen : 2 ≤ x.length)
    (hwant : x = q ∨ x.dropLast = q ∨ (f = true ∧ q <+: x.dropLast)) (a : Action) (ha : a.generic ≠ 0) (haE : a.generic ⊑ E)
    (ch : Change) (hch : a.generic ∈ ch.portable) (hch1 : ch ≠ .lastWrite) (hch2 : ch = .dirName → a.generic ≠ readdcw.rename) :
    (∃ tp r, r ∈ ws.reads ∧ (ws.grips r.g).path = tp ∧ tp <+: x ∧ ch.flag ⊑ r.native ∧
      (∀ tp' r', r' ∈ ws.reads → (ws.grips r'.g).path = tp' → asked wops tp' ≠ none → tp' <+: x → tp' = tp) ∧
      ∃ ei ∈ send (ws.grips r.g).filter a x, ei.event = a.generic ∧ ei.path = x) ∧
    ∀ ei : EventInfo, ei.event = a.generic → ei.path = x →
      0 < copies (Rec.rregOf ops) c a.generic x ∧
      (Rec.sends readdcw s.root ei).count (.user c) = copies (Rec.rregOf ops) c a.generic x := by
  have hP := Platform.readdcw_wf.facts
  obtain ⟨hm, hv, _⟩ := Rec.C26_mirror_partial hP h
  have htab := hd.asked hrel
  have hqx : q <+: x := by
    rcases hwant with rfl | rfl | ⟨_, hp⟩
    · exact List.prefix_refl _
    · exact List.dropLast_prefix _
    · exact hp.trans (List.dropLast_prefix _)
  constructor
  · obtain ⟨tp, E', f', h1, h2, h3⟩ := Rec.mirror_covered hm c q E f hreg
    rw [← htab] at h2
    obtain ⟨hval, w, F, hmw, hF, hu⟩ := ask_up hw hquiet h2
    have hask : Asked E' ch := by
      have hwts : Wants E' ch := .inr ⟨_, hch, haE.trans h3⟩
      obtain ⟨n1, n2, n3⟩ := C58_native_partial E' hval
      by_cases hdn : ch = .dirName
      · subst hdn
        refine n2.2 ?_
        have hne := hch2 rfl
        simp only [Change.portable, List.mem_cons, List.not_mem_nil, or_false] at hch
        rcases hch with e | e | e
        · exact .inr (.inl (e ▸ haE.trans h3))
        · exact .inr (.inr (e ▸ haE.trans h3))
        · exact absurd e hne
      · exact (n1 ch hdn hch1).2 hwts
    have hperm := (C60_held_partial hw hquiet tp).1 _ _ h2
    have hmem : ∃ nat, (nat, f') ∈ wanted E' f' ∧ ch.flag ⊑ nat := by
      unfold wanted
      rcases hask with ⟨k1, k2⟩ | ⟨k1, k2⟩
      · exact ⟨_, List.mem_append_left _ (by rw [if_pos k1]; exact List.mem_singleton.2 rfl), k2⟩
      · exact ⟨_, List.mem_append_right _ (by rw [if_pos k1]; exact List.mem_singleton.2 rfl), k2⟩
    obtain ⟨nat, k1, k2⟩ := hmem
    have k3 := hperm.mem_iff.2 k1
    unfold held at k3
    obtain ⟨r, k4, k5⟩ := List.mem_map.1 k3
    obtain ⟨k6, k7⟩ := List.mem_filter.1 k4
    have k7 : (ws.grips r.g).path = tp := of_decide_eq_true k7
    have k8 : r.native = nat := (Prod.mk.inj k5).1
    refine ⟨tp, r, k6, k7, h1.trans hqx, k8 ▸ k2, ?_, ?_⟩
    · intro tp' r' _ _ hn hp'
      have n1 : osRec s.world.log tp ≠ none := by rw [← htab, h2]; simp
      have n2 : osRec s.world.log tp' ≠ none := by rw [← htab]; exact hn
      rcases List.prefix_or_prefix_of_prefix (h1.trans hqx) hp' with hh | hh
      · exact (hm.apart tp tp' n1 n2 hh).symm
      · exact hm.apart tp' tp n2 n1 hh
    · have hslot := (reads_of hw.inv hmw k6).1 k7
      obtain ⟨i, k, -, -, -, hfil, -⟩ := hu.handle hslot
      rw [hfil]
      exact send_generic i hF ha (haE.trans h3) x
  · intro ei he hp
    refine ⟨Fsevents.copies_pos hreg haE (by intro h0; rw [h0] at hlen; simp at hlen) hwant, ?_⟩
    obtain ⟨hpl, hint⟩ := generic_plain a
    have := (Rec.C02_delivery_exact hP h.hist.1 (ei := ei) (by rw [hp]; exact hlen) (by rw [hp]; exact hx0)
      (by rw [he]; exact hint) (by rw [he]; exact hpl)).1 c fun o ho => (h.hist.2 o ho).for c
    rw [this, he, hp]

namespace Ex5
open Verif.Rec (RStep RSteps RHist ROp)

abbrev R : Platform := readdcw
abbrev C : Event := R.create
abbrev W : Event := R.write
abbrev CW : Event := R.create ||| R.write
abbrev a : Comp := ['a']
abbrev b : Comp := ['b']
abbrev f : Comp := ['f']

/-- Channel 2 watches `/a/b` for Create and Write, then channel 1 watches `/a/...` for Write. -/
def s1 : Verif.St := (Rec.watchOp R .ok Rec.init [a, b] false 2 CW).1
def s2 : Verif.St := (Rec.watchOp R .ok s1 [a] true 1 W).1
def ops2 : List ROp := [.watch [a, b] false 2 CW true, .watch [a] true 1 W true]
theorem hist2 : RHist R true ops2 s2 :=
  (RSteps.nil.snoc (RStep.watch (O := .ok) (by simp [GoodPath]) (by unfold UserEvents; decide))).snoc
    (RStep.watch (O := .ok) (by simp [GoodPath]) (by unfold UserEvents; decide))
theorem safe2 : Rec.SafeHist R ops2 s2 :=
  (Rec.watchOnly_safe Platform.readdcw_wf.facts hist2 (by simp [ops2, Rec.ROp.isWatch])).1

/-- The steps of the watcher. -/
def acts : List Act := [.watch [a, b] CW false {} {}, .unwatch [a, b] false, .watch [a] CW true {} {}]

theorem log2 : s2.world.log = [(.recRewatch [a, b] [a] CW CW, true), (.watch [a, b] CW, true)] := by decide

theorem drives2 : Drives s2.world.log (cfinal acts).2 := by
  rw [log2]
  exact .move [a, b] [a] CW CW 0 true (by decide) (.watch [a, b] CW true .nil)

/-- The theorem applies: a file is written below `/a/b`. -/
example : ∃ tp r, r ∈ (cfinal acts).1.reads ∧ ((cfinal acts).1.grips r.g).path = tp ∧ tp <+: [a, b, f] ∧ Change.size.flag ⊑ r.native := by
  obtain ⟨tp, r, h1, h2, h3, h4, -⟩ := (C65_windows_partial safe2 drives2 (cfinal_hist acts) (by decide) (by rw [log2]; simp)
    (c := 1) (q := [a]) (E := W) (f := true) (by decide) (x := [a, b, f]) (by simp) (by simp) (.inr (.inr ⟨rfl, by decide⟩))
    .modified (by decide) (by decide) .size (by decide) (by decide) (by decide)).1
  exact ⟨tp, r, h1, h2, h3, h4⟩

/-- Channel 1 watches `/a` for Create and is stopped; channel 2 watches it for Write. -/
def t3 : Verif.St := (Rec.watchOp R .ok (Rec.stop R .ok (Rec.watchOp R .ok Rec.init [a] false 1 C).1 1) [a] false 2 W).1
def acts3 : List Act := [.watch [a] C false {} {}, .unwatch [a] false, .watch [a] W false {} {}]

end Ex5

/-- **C65 is false of the code** without the conditions, even for calls on one directory, with a kernel that never fails: `Watch` for
Create, `Stop`, `Watch` for Write, and another `Watch` for Rename.  The last one makes the tree call `Rewatch`, which panics.  (The
second `Watch` has found the entry that the goroutine has not removed yet, and has left it as it was.) -/
theorem C65_refuted : ∃ (s : Verif.St) (wops : List Op) (ws : St),
    Rec.RHist readdcw true [.watch [Ex5.a] false 1 Ex5.C true, .stop 1, .watch [Ex5.a] false 2 Ex5.W true] s ∧
    Drives s.world.log wops ∧ LHist wops ws ∧
    (Rec.watchOp readdcw .ok s [Ex5.a] false 3 readdcw.rename).1.world.log =
      (.rewatch [Ex5.a] Ex5.W (Ex5.W ||| readdcw.rename), true) :: s.world.log ∧
    rewatch ws [Ex5.a] Ex5.W (Ex5.W ||| readdcw.rename) false = none ∧
    held ws [Ex5.a] = wanted Ex5.C false := by
  refine ⟨Ex5.t3, _, _, ?_, ?_, final_hist Ex5.acts3, by decide, by rfl, by decide⟩
  · exact ((RSteps.nil.snoc (RStep.watch (O := .ok) (by simp [GoodPath]) (by unfold UserEvents; decide))).snoc
      (RStep.stop (fun _ => rfl))).snoc (RStep.watch (O := .ok) (by simp [GoodPath]) (by unfold UserEvents; decide))
  · have hl : Ex5.t3.world.log = [(.watch [Ex5.a] Ex5.W, true), (.unwatch [Ex5.a], true), (.watch [Ex5.a] Ex5.C, true)] := by decide
    rw [hl]
    exact .watch [Ex5.a] Ex5.W true (.unwatch [Ex5.a] true (.watch [Ex5.a] Ex5.C true .nil))

end Dcw
end Verif
