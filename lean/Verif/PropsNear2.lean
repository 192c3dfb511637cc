/-
The calls to the OS watcher that a Stop makes are for watches that cover a path of its channel (C129).
-/
import Verif.PropsNear
import Verif.PropsStop2
import Verif.PropsLeak

namespace Verif

namespace NonRec
variable {P : Platform}

theorem stopFunc_near (O : Oracle) {c : Nat} {A : Path → Prop} {s : World} {pw w : WP} {n : Path} (hw : NR P w)
    (ha : w.get? (.user c) ≠ none ∨ w.get? .recCh ≠ none → A n) : Only A s.log (stopFunc P O c s pw n w).1.log := by
  unfold stopFunc
  split
  · dsimp only
    split
    · exact Only.refl _ _
    · next hd =>
      have hA : A n := ha (by
        by_contra hno
        simp only [not_or, not_not] at hno
        apply hd
        unfold watchDelMin
        rw [hno.2]
        dsimp only
        rw [del_diffOf P w (by simp), diffOf_none]
        refine (total_congr hw.inv (hw.del_all c).inv fun k hk => ?_).symm
        rw [WP.get?_del_ne_nil P w (by simp) _ hk]
        split
        · next hk => rw [hk, hno.1]; simp [WP.val, hno.1, allEvents]
        · rfl)
      split
      · exact (Only.refl _ _).cons fun q hq => by simp only [Call.paths, List.mem_singleton] at hq; rw [hq]; exact hA
      · exact (Only.refl _ _).cons fun q hq => by simp only [Call.paths, List.mem_singleton] at hq; rw [hq]; exact hA
  · exact Only.refl _ _

mutual
theorem Node.stop_near (O : Oracle) {c : Nat} {A : Path → Prop} {n : Path} : (nd : Node) → (s : World) → (pw : WP) → nd.OK (NR P) noR n →
    (∀ q, (watchAt nd q).get? (.user c) ≠ none ∨ (watchAt nd q).get? .recCh ≠ none → A (n ++ q)) →
    Only A s.log (Node.trav false (stopFunc P O c) s pw nd).1.log
  | .mk n' w ch, s, pw, h, ha => by
    have hn : n' = n := h.name_eq
    subst hn
    simp only [Node.trav]
    refine Only.trans (stopFunc_near O h.watch fun hh => ?_) (Forest.stop_near O ch _ _ h.child fun b x hx q hh => ?_)
    · have := ha [] (by simpa [watchAt] using hh)
      rwa [List.append_nil] at this
    · refine ha (b :: q) ?_
      rw [Rec.watchAt_cons_some (nd := .mk n' w ch) hx]
      exact hh
theorem Forest.stop_near (O : Oracle) {c : Nat} {A : Path → Prop} {n : Path} : (f : Forest) → (s : World) → (pw : WP) → f.OK (NR P) noR n →
    (∀ b x, f.get? b = some x → ∀ q, (watchAt x q).get? (.user c) ≠ none ∨ (watchAt x q).get? .recCh ≠ none → A (n ++ b :: q)) →
    Only A s.log (Forest.trav false (stopFunc P O c) s pw f).1.log
  | .nil, s, _, _, _ => by simp only [Forest.trav]; exact Only.refl _ _
  | .cons b nd rest, s, pw, h, ha => by
    simp only [Forest.OK] at h
    simp only [Forest.trav, Bool.false_and, Bool.false_eq_true, if_false]
    refine Only.trans (Node.stop_near O nd s pw (h.2.2.1 h.2.1) fun q hh => ?_)
      (Forest.stop_near O rest _ _ h.2.2.2 fun b' x hx => ha b' x ?_)
    · have := ha b nd (by simp [Forest.get?]) q hh
      simpa using this
    · have : b ≠ b' := by
        rintro rfl
        rw [(Forest.get?_eq_none rest b).2 h.1] at hx; simp at hx
      simp [Forest.get?, this, hx]
end

/-- **C129, no native recursion (partial).**  After any history, whatever failed in it and whatever the OS answers now: the calls made by
Stop(c) are for paths on which `c` is registered and for paths at or below the path of a recursive Watch.  Missing: that of the latter only
those below a path of `c` are concerned, which is false (`C129_widens_refuted`). -/
theorem C129_stop_partial (hP : P.Facts) {rel : Bool} {ops : List Op} {s : St} (h : Hist P rel ops s) (O : Oracle) (c : Nat) :
    Only (fun q => entry s.root c q ≠ none ∨ ∃ p d e ok, Op.watch p true d e ok ∈ ops ∧ p <+: q) s.world.log
      (stop P O s c).world.log := by
  refine Node.stop_near O s.root s.world [] (Hist.shape hP h).ok fun q hq => ?_
  rw [List.nil_append]
  rcases hq with hq | hq
  · exact .inl hq
  · right
    by_contra hno
    refine hq ((Plain.steps hP (plain_init P q) h fun op hop => ?_).norec q (List.prefix_refl _))
    unfold Op.NotAbove
    split
    · exact fun hp => hno ⟨_, _, _, _, hop, hp⟩
    · trivial

/-- **C129, no native recursion, the OS watches (partial).**  At every moment of Stop(c) the OS watches the same on the paths on which `c` is
not registered and that no recursive Watch reaches. -/
theorem C129_os_partial (hP : P.Facts) {rel : Bool} {ops : List Op} {s : St} (h : Hist P rel ops s) (O : Oracle) (c : Nat) {q : Path}
    (hc : entry s.root c q = none) (hq : ∀ p d e ok, Op.watch p true d e ok ∈ ops → ¬ p <+: q) :
    Still (fun l => osOf l q) s.world.log (stop P O s c).world.log :=
  (C129_stop_partial hP h O c).still fun l x hx => osOf_away l x fun hm => by
    rcases hx q hm with h1 | ⟨p, d, e, ok, h1, h2⟩
    · exact h1 hc
    · exact hq p d e ok h1 h2

/-- **C129 is false of the code** without native recursion, also if every call succeeds: channel 1 watches `/a/b/...`, channel 2 `/a/...`
while `/a` has no entry `b` (the directory was removed); Stop of a channel that was never used asks the OS to watch more events on `/a/b`. -/
theorem C129_widens_refuted : ∃ ops s s' p o n, Hist Ex.I true ops s ∧ (∀ op ∈ ops, ∀ q r c e ok, op = Op.watch q r c e ok → ok = true) ∧
    Step Ex.I true s (.stop 9) s' ∧ (∀ q, entry s.root 9 q = none) ∧ s'.world.log = (.rewatch p o n, true) :: s.world.log ∧ ¬ n ⊑ o := by
  have uR : UserEvents Ex.I Ex.I.remove := ⟨by decide, by decide⟩
  have e1 : Step Ex.I true init (.watch [Ex.a, ['b']] true 1 Ex.W true) (watchOp Ex.I .ok (.dir .nil) init [Ex.a, ['b']] true 1 Ex.W).1 :=
    Step.watch (O := .ok) (dt := .dir .nil) (by simp [GoodPath]) Ex.uW (by simp [DirTree.Named, Entries.Named]) (fun _ _ => rfl)
  have e2 : Step Ex.I true (watchOp Ex.I .ok (.dir .nil) init [Ex.a, ['b']] true 1 Ex.W).1 (.watch [Ex.a] true 2 Ex.I.remove true)
      (watchOp Ex.I .ok (.dir .nil) (watchOp Ex.I .ok (.dir .nil) init [Ex.a, ['b']] true 1 Ex.W).1 [Ex.a] true 2 Ex.I.remove).1 :=
    Step.watch (O := .ok) (dt := .dir .nil) Ex.good_a uR (by simp [DirTree.Named, Entries.Named]) (fun _ _ => rfl)
  have hh := (Steps.nil.snoc e1).snoc e2
  refine ⟨_, _, _, [Ex.a, ['b']], 5242880, 7340032, hh, ?_, Step.stop (O := .ok) (fun _ => rfl), fun q => ?_, by decide, ?_⟩
  · simp
  · have h0 : Shape Ex.I init.root := Hist.shape Ex.hI (rel := true) (ops := []) Steps.nil
    have h1 := Hist.shape Ex.hI (Steps.nil.snoc e1)
    rw [(watchOp_effect Ex.hI .ok h1 Ex.good_a true 2 uR (dt := .dir .nil) (by simp [DirTree.Named, Entries.Named])).2,
      if_neg (by simp), (watchOp_effect Ex.hI .ok h0 (by simp [GoodPath]) true 1 Ex.uW (dt := .dir .nil)
        (by simp [DirTree.Named, Entries.Named])).2, if_neg (by simp)]
    unfold entry watchAt
    cases q with
    | nil => rfl
    | cons b q => rfl
  · decide

/-- **C85, no native recursion (partial).**  If no recursive Watch was made, whatever failed: Stop of a channel that has nothing registered makes
no call.  Missing: recursive Watches, with which it is false (`C129_widens_refuted`). -/
theorem C85_norec_partial (hP : P.Facts) {rel : Bool} {ops : List Op} {s : St} (h : Hist P rel ops s)
    (hops : ∀ p d e ok, Op.watch p true d e ok ∉ ops) (O : Oracle) {c : Nat} (hc : ∀ q, entry s.root c q = none) :
    (stop P O s c).world.log = s.world.log := by
  obtain ⟨d, h1, h2⟩ := C129_stop_partial hP h O c
  cases d with
  | nil => exact h1
  | cons x d =>
    exfalso
    have hp : ∃ q, q ∈ x.1.paths := by obtain ⟨y, -⟩ := x; cases y <;> simp [Call.paths]
    obtain ⟨q, hq⟩ := hp
    rcases h2 x (by simp) q hq with h3 | ⟨p, d, e, ok, h3, -⟩
    · exact h3 (hc q)
    · exact hops p d e ok h3

/-- Non-trivial case: a Stop that makes a call. -/
example : Hist Ex.I true Ex.ops2 Ex.s2 ∧ (stop Ex.I .ok Ex.s2 1).world.log.length > Ex.s2.world.log.length := ⟨Ex.hist2, by decide⟩

/-- Non-trivial case: a Watch that is not recursive, and Stop of another channel. -/
example : ∃ s, Hist Ex.I true [.watch [Ex.a] false 1 Ex.W true] s ∧ (∀ p d e ok, Op.watch p true d e ok ∉ [Op.watch [Ex.a] false 1 Ex.W true]) ∧
    s.world.log.length = 1 ∧ (stop Ex.I .ok s 1).world.log.length = 2 ∧ (stop Ex.I .ok s 9).world.log.length = 1 :=
  ⟨_, Steps.nil.snoc (Step.watch (O := .ok) (dt := .dir .nil) Ex.good_a Ex.uW (by simp [DirTree.Named, Entries.Named]) (fun _ h => by simp at h)),
    by simp, by decide, by decide, by decide⟩

end NonRec

namespace Rec
open GoMap NonRec

variable {P : Platform}

/-- `c` has an entry in one of the two watchpoints of the node at `q`. -/
def Has (nd : Node) (c : Nat) (q : Path) : Prop :=
  (watchAt nd q).get? (.user c) ≠ none ∨ (watchAt nd (q ++ [[]])).get? (.user c) ≠ none

theorem stopCall_paths (nd : Node) (d : Diff) : ∀ q ∈ (stopCall P nd d).paths, q = nd.name := by
  unfold stopCall
  split <;> split <;> simp [Call.paths]

mutual
theorem stopWalk_near (O : Oracle) {c : Nat} {A : Path → Prop} {n : Path} : (nd : Node) → (s : World) → nd.OK (RN P) (inR (RN P)) n →
    (∀ q, [] ∉ q → Has nd c q → A (n ++ q)) → Only A s.log (nd.stopWalk P O c s).1.log
  | .mk n' w ch, s, h, ha => by
    have hn : n' = n := h.name_eq
    subst hn
    have hi := inact_Q h (RN.nil P)
    simp only [Node.stopWalk]
    split
    · refine stopWalkF_near O ch s h.child fun b x hx hb q hq hh => ?_
      refine ha (b :: q) (by simp [Ne.symm hb, hq]) ?_
      unfold Has at hh ⊢
      rw [List.cons_append, watchAt_cons_some (nd := .mk n' w ch) hx, watchAt_cons_some (nd := .mk n' w ch) hx]
      exact hh
    · split
      · exact Only.refl _ _
      · next hd =>
        refine (Only.refl _ _).cons fun q hq => ?_
        rw [stopCall_paths _ _ q hq, watchDel_name]
        have := ha [] (by simp) (by
          by_contra hno
          simp only [Has, not_or, not_not] at hno
          apply hd
          rw [watchDel_diff hi, gone_total h.watch, gone_total hi]
          · simp [lostDiff]
          · rw [inact_eq_watchAt]; exact hno.2
          · simpa [watchAt] using hno.1)
        rw [List.append_nil] at this
        exact this
theorem stopWalkF_near (O : Oracle) {c : Nat} {A : Path → Prop} {n : Path} : (f : Forest) → (s : World) → f.OK (RN P) (inR (RN P)) n →
    (∀ b x, f.get? b = some x → b ≠ [] → ∀ q, [] ∉ q → Has x c q → A (n ++ b :: q)) → Only A s.log (f.stopWalk P O c s).1.log
  | .nil, s, _, _ => Only.refl _ _
  | .cons b nd rest, s, h, ha => by
    simp only [Forest.OK] at h
    simp only [Forest.stopWalk]
    have hr : ∀ b' x, rest.get? b' = some x → (Forest.cons b nd rest).get? b' = some x := by
      intro b' x hx
      have : b ≠ b' := by
        rintro rfl
        rw [(Forest.get?_eq_none rest b).2 h.1] at hx; simp at hx
      simp [Forest.get?, this, hx]
    refine Only.trans ?_ (stopWalkF_near O rest _ h.2.2.2 fun b' x hx hb => ha b' x (hr b' x hx) hb)
    split
    · exact Only.refl _ _
    · next hb =>
      refine stopWalk_near O nd s (h.2.2.1 hb) fun q hq hh => ?_
      have := ha b nd (by simp [Forest.get?]) hb q hq hh
      simpa using this
end

/-- **C129 (partial).**  After any history in which every Watch succeeded and the OS was honest (`Honest`), whatever it answers now: the calls
made by Stop(c) are for paths at or above a path for which `c` is registered.  Missing: histories with a Watch that failed, for which it is
false (`C129_refuted`). -/
theorem C129_stop_partial (hP : P.Facts) {rel : Bool} {ops : List ROp} {s : St} (h : RHist P rel ops s) (hh : Honest s.world.log)
    (hops : ∀ op ∈ ops, op.succeeded) (O : Oracle) (c : Nat) :
    Only (fun q => ∃ x, q <+: x ∧ rregOf ops c x ≠ none) s.world.log (stop P O s c).world.log := by
  have hb := (RSteps.tidy hP h hh hops).book
  have hr := RHist.refines hP h hops
  refine stopWalk_near O s.root s.world hb.ok fun q hq hhas => ?_
  rw [List.nil_append]
  have key : ∀ p, [] ∉ p → (watchAt s.root p).get? (.user c) ≠ none → rregOf ops c p ≠ none := by
    intro p hp h1 h2
    have := hr.ent c p hp
    rw [h2] at this
    exact h1 this
  rcases hhas with h1 | h1
  · exact ⟨q, List.prefix_refl _, key q hq h1⟩
  · obtain ⟨v, hv⟩ := Option.ne_none_iff_exists'.1 h1
    have hrn : RN P (watchAt s.root (q ++ [[]])) := ROK.watchAt hb.ok (RN.nil P) _
    have hne : v ≠ 0 := by
      intro e
      have := (hrn.nr.user c v hv).1
      rw [e] at this
      exact this (by simp)
    obtain ⟨i, hi⟩ := Event.ne_zero_iff.1 hne
    have hb' : BitVec.getLsbD (uset s.root (q ++ [[]]) c) i = true := by
      unfold uset WP.val; rw [hv]; exact hi
    obtain ⟨p, h2, -, hp, h4⟩ := hb.sub q c i hq hb'
    refine ⟨p, h2, key p hp fun h5 => ?_⟩
    unfold uset WP.val at h4
    rw [h5] at h4
    simp at h4

/-- **C129, the OS watches (partial).**  At every moment of Stop(c) the OS watches of paths that are not above a path of `c` are as they were. -/
theorem C129_os_partial (hP : P.Facts) {rel : Bool} {ops : List ROp} {s : St} (h : RHist P rel ops s) (hh : Honest s.world.log)
    (hops : ∀ op ∈ ops, op.succeeded) (O : Oracle) (c : Nat) {q : Path} (hq : ∀ x, q <+: x → rregOf ops c x = none) :
    Still (fun l => osRec l q) s.world.log (stop P O s c).world.log :=
  (C129_stop_partial hP h hh hops O c).still fun l x hx => osRec_away l x fun hc => by
    obtain ⟨y, h1, h2⟩ := hx q hc
    exact h2 (hq y h1)

/-- **C85, systems with native recursion (partial).**  The same histories: Stop of a channel that has nothing registered makes no call. -/
theorem C85_honest_partial (hP : P.Facts) {rel : Bool} {ops : List ROp} {s : St} (h : RHist P rel ops s) (hh : Honest s.world.log)
    (hops : ∀ op ∈ ops, op.succeeded) (O : Oracle) {c : Nat} (hc : ∀ q, rregOf ops c q = none) :
    (stop P O s c).world.log = s.world.log := by
  obtain ⟨d, h1, h2⟩ := C129_stop_partial hP h hh hops O c
  cases d with
  | nil => exact h1
  | cons x d =>
    exfalso
    have hp : ∃ q, q ∈ x.1.paths := by obtain ⟨y, -⟩ := x; cases y <;> simp [Call.paths]
    obtain ⟨q, hq⟩ := hp
    obtain ⟨y, -, hy⟩ := h2 x (by simp) q hq
    exact hy (hc y)

/-- **C129 is false of the code** after a Watch that failed: Stop of a channel that was never used calls `Unwatch`. -/
theorem C129_refuted : ∃ ops s s', RHist Ex.F true ops s ∧ RStep Ex.F true s (.stop 9) s' ∧
    ¬ Only (fun q => ∃ x, q <+: x ∧ rregOf ops 9 x ≠ none) s.world.log s'.world.log := by
  obtain ⟨ops, s, s', p, h1, h2, h3, -, h5⟩ := C85_failed_refuted
  refine ⟨ops, s, s', h1, h3, ?_⟩
  rintro ⟨d, h6, h7⟩
  rw [h5, show (Call.unwatch p, true) :: s.world.log = [(Call.unwatch p, true)] ++ s.world.log from rfl] at h6
  have := List.append_cancel_right h6
  subst this
  obtain ⟨x, -, hx⟩ := h7 _ (List.mem_singleton.2 rfl) p (by simp [Call.paths])
  exact hx (h2 x)

/-- Non-trivial case: channel 1 watches `/a/...`, channel 2 `/a/b`; Stop(2) makes a call, for the watch of `/a`. -/
example : RHist Ex.F true Ex.ops2 Ex.s2 ∧ (∀ op ∈ Ex.ops2, op.succeeded) ∧ Honest Ex.s2.world.log ∧
    (stop Ex.F .ok Ex.s2 2).world.log.head?.map (·.1.paths) = some [[Ex.a]] := by
  refine ⟨Ex.hist2, Ex.ok2, ?_, by decide⟩
  rw [show Ex.s2.world.log = [(.recRewatch [Ex.a, Ex.b] [Ex.a] Ex.CW Ex.CW, true), (.watch [Ex.a, Ex.b] Ex.CW, true)] by decide]
  simp only [Honest, osRec]
  decide

end Rec
end Verif
