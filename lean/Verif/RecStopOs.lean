/-
The OS calls made by Stop on the recursive tree: one at each topmost watched path whose totals change, and
what each of them does to the OS watch.
-/
import Verif.RecSync

namespace Verif
namespace Rec
open GoMap NonRec

variable {P : Platform}

/-- The difference `watchDel` computes from the totals before (`x`, `i`) and after (`x'`, `i'`) of the
active and the inactive watchpoint of a node. -/
def lostDiff (x x' i i' : Event) : Diff :=
  if x = x' then (if i = i' then Diff.none else (i, i'))
  else if x ||| i = x' ||| i' then Diff.none else (x ||| i, x' ||| i')

theorem RN.gone_val {w : WP} (c d : Nat) : (Rec.gone P w c).val (.user d) = if d = c then 0 else w.val (.user d) := by
  unfold WP.val; rw [get_gone]; split <;> rfl

theorem RN.gone_sub {w : WP} (h : RN P w) (c : Nat) : (Rec.gone P w c).total P ⊑ w.total P := by
  intro i hi
  obtain ⟨h1, d, h2⟩ := ((h.gone c).total_bit i).1 hi
  rw [RN.gone_val] at h2
  split at h2
  · simp at h2
  · exact (h.total_bit i).2 ⟨h1, d, h2⟩

theorem watchDel_diff {nd : Node} {c : Nat} (ha : RN P (inact nd)) :
    (watchDel P nd (.user c) allEvents).2 = lostDiff (nd.watch.total P) ((gone P nd.watch c).total P)
      ((inact nd).total P) ((gone P (inact nd) c).total P) := by
  have hsub := ha.gone_sub c
  unfold watchDel
  simp only
  have hg : ∀ w : WP, (w.del P (.user c) allEvents).1 = gone P w c := fun _ => rfl
  split
  · simp only [del_diffOf P _ (k := .user c) nofun, hg]
    generalize WP.total P nd.watch = x
    generalize WP.total P (gone P nd.watch c) = x'
    generalize WP.total P (inact nd) = i at *
    generalize WP.total P (gone P (inact nd) c) = i' at *
    have h1 : i ||| i' = i := Event.sub_iff_or.1 hsub
    have z : ∀ y : Event, (0 : Event) ||| y = y := fun y => BitVec.zero_or
    unfold lostDiff orDiff
    by_cases hx : x = x'
    · by_cases hi : i = i'
      · subst hx; subst hi; simp [diffOf, Diff.none]
      · rw [if_pos hx, if_neg hi]
        subst hx
        simp only [diffOf, if_true, if_neg hi, Diff.none, h1, BitVec.or_self, z, if_neg hi]
    · by_cases hi : i = i'
      · subst hi
        simp only [diffOf, if_true, if_neg hx, Diff.none, z]
      · simp only [diffOf, if_neg hx, if_neg hi, h1, BitVec.or_self]
  · next h0 =>
    have h0 : inact nd = [] := by simpa using h0
    have h1 : gone P [] c = [] := by unfold gone; rw [del_nil]
    rw [del_diffOf P _ (k := .user c) nofun, h0, h1, total_nil, hg]
    unfold lostDiff diffOf
    rw [if_pos (rfl : (0 : Event) = 0)]
    split
    · rfl
    · next hx =>
      have z : ∀ y : Event, y ||| (0 : Event) = y := fun y => BitVec.or_zero
      rw [z, z, if_neg hx]

/-- What `Stop` makes of the OS watch of a path, given the difference. -/
def afterStop (d : Diff) (old : Option Event) : Option Event :=
  if d = Diff.none then old else if d.2 = 0 then none else some d.2

theorem lostDiff_none {x x' i i' : Event} (h : lostDiff x x' i i' = Diff.none) (hi : i' ⊑ i) :
    x ||| i = x' ||| i' := by
  unfold lostDiff at h
  split at h
  · next hx =>
    split at h
    · next h' => rw [hx, h']
    · next h' =>
      exfalso
      simp only [Diff.none, Prod.mk.injEq] at h
      exact h' (h.1.trans h.2.symm)
  · next hx =>
    split at h
    · next h' => exact h'
    · next h' =>
      simp only [Diff.none, Prod.mk.injEq] at h
      rw [h.1, h.2]

theorem stopCall_os (nd : Node) (d : Diff) (l : Log) (x : Path) :
    (osRec ((stopCall P nd d, true) :: l) x).map Prod.fst =
      if x = nd.name then (if d.2 = 0 then none else some d.2) else (osRec l x).map Prod.fst := by
  unfold stopCall
  by_cases h1 : d.2 = 0
  · rw [if_pos h1, if_pos h1]
    by_cases h2 : watchIsRecursive P nd = true <;> by_cases h3 : x = nd.name <;> simp [h2, h3, osRec]
  · rw [if_neg h1, if_neg h1]
    by_cases h2 : watchIsRecursive P nd = true <;> by_cases h3 : x = nd.name <;> simp [h2, h3, osRec]

theorem top_nil (nd : Node) : Top P nd [] ↔ tot P nd [] ≠ 0 := by
  constructor
  · exact fun h => h.2.1
  · exact fun h => ⟨by simp, h, fun t h1 h2 => absurd (List.prefix_nil.1 h1) h2⟩

theorem top_cons {nd : Node} {b : Comp} {r : Path} :
    Top P nd (b :: r) ↔ tot P nd [] = 0 ∧ b ≠ [] ∧ ∃ x, nd.child.get? b = some x ∧ Top P x r := by
  constructor
  · rintro ⟨h1, h2, h3⟩
    refine ⟨h3 [] (by simp) (by simp), fun hb => h1 (by simp [hb]), ?_⟩
    cases h : nd.child.get? b with
    | none => exact absurd (tot_cons_none h r) h2
    | some x =>
      refine ⟨x, rfl, fun hc => h1 (by simp [hc]), ?_, fun t h4 h5 => ?_⟩
      · rwa [tot_cons_some h] at h2
      · have := h3 (b :: t) (by simpa using h4) (by simpa using h5)
        rwa [tot_cons_some h] at this
  · rintro ⟨h0, hb, x, hx, h1, h2, h3⟩
    refine ⟨by simp [Ne.symm hb, h1], by rwa [tot_cons_some hx], ?_⟩
    intro t h4 h5
    cases t with
    | nil => exact h0
    | cons b' t =>
      obtain ⟨rfl, h6⟩ := List.cons_prefix_cons.1 h4
      rw [tot_cons_some hx]
      exact h3 t h6 (by simpa using h5)

/-- The difference Stop computes for the path `r`. -/
def stopDiff (P : Platform) (root : Node) (c : Nat) (r : Path) : Diff :=
  lostDiff ((watchAt root r).total P) ((gone P (watchAt root r) c).total P)
    ((watchAt root (r ++ [[]])).total P) ((gone P (watchAt root (r ++ [[]])) c).total P)

/-- The call Stop makes for that path meets its contract. -/
def StopFine (P : Platform) (root : Node) (c : Nat) (r : Path) : Prop :=
  (gone P (watchAt root r) c).total P = (watchAt root r).total P →
    (gone P (watchAt root (r ++ [[]])) c).total P ≠ (watchAt root (r ++ [[]])).total P →
      (watchAt root r).total P ⊑ (gone P (watchAt root (r ++ [[]])) c).total P

theorem inact_eq_watchAt (nd : Node) : inact nd = watchAt nd [[]] := by
  have := inact_nodeAt nd []
  have h2 : nodeAt nd [] = nd := by simp [nodeAt]
  rw [h2] at this
  simpa using this

theorem watch_eq_watchAt (nd : Node) : nd.watch = watchAt nd [] := by simp [watchAt]

theorem stopDiff_cons {nd x : Node} {b : Comp} (h : nd.child.get? b = some x) (c : Nat) (r : Path) :
    stopDiff P nd c (b :: r) = stopDiff P x c r := by
  unfold stopDiff; rw [watchAt_cons_some h, List.cons_append, watchAt_cons_some h]

theorem stopFine_cons {nd x : Node} {b : Comp} (h : nd.child.get? b = some x) (c : Nat) (r : Path) :
    StopFine P nd c (b :: r) ↔ StopFine P x c r := by
  unfold StopFine; rw [watchAt_cons_some h, List.cons_append, watchAt_cons_some h]

/-- What the walk of Stop does to the log, seen from the paths below `n`. -/
structure Walked (P : Platform) (c : Nat) (n : Path) (tops : Path → Prop) (diff : Path → Diff)
    (old : Path → Event) (fine : Path → Prop) (s s' : World) : Prop where
  frame : ∀ x, (¬ ∃ r, x = n ++ r ∧ tops r) → osRec s'.log x = osRec s.log x
  at_top : ∀ r, tops r → (osRec s'.log (n ++ r)).map Prod.fst = afterStop (diff r) ((osRec s.log (n ++ r)).map Prod.fst)
  valid : (∀ r, tops r → (∃ f, osRec s.log (n ++ r) = some (old r, f)) ∧ fine r) → ValidLogRec P s.log →
    ValidLogRec P s'.log
  same : s'.panicked = s.panicked

theorem watchDel_name (nd : Node) (k : Key) (e : Event) : (watchDel P nd k e).1.name = nd.name := by
  obtain ⟨n, w, ch⟩ := nd
  unfold watchDel
  simp only
  split <;> rfl

theorem watchTotal_del {n : Path} {nd : Node} (h : nd.OK (RN P) (inR (RN P)) n) (c : Nat) :
    watchTotal P (watchDel P nd (.user c) allEvents).1 =
      (gone P (watchAt nd []) c).total P ||| (gone P (watchAt nd [[]]) c).total P := by
  obtain ⟨n', w, ch⟩ := nd
  rw [watchTotal_eq, watch_eq_watchAt, inact_eq_watchAt]
  rw [watchDel_read c (ch := ch) rfl (flat_of_OK h), watchDel_read c (ch := ch) rfl (flat_of_OK h)]
  rw [if_pos rfl, if_neg (by simp), if_pos rfl, ← watch_eq_watchAt]
  rfl

theorem stop_visits {n : Path} {nd : Node} (h : nd.OK (RN P) (inR (RN P)) n) (c : Nat) :
    ((watchDel P nd (.user c) allEvents).2 = Diff.none ∧ watchTotal P (watchDel P nd (.user c) allEvents).1 = 0) ↔
      tot P nd [] = 0 := by
  have ha := inact_Q h (RN.nil P)
  have hw : RN P (watchAt nd []) := ROK.watchAt h (RN.nil P) _
  rw [watchTotal_del h, watchDel_diff ha]
  rw [inact_eq_watchAt] at ha ⊢
  rw [watch_eq_watchAt]
  have s1 := ha.gone_sub c
  have s2 := hw.gone_sub c
  unfold tot
  rw [List.nil_append]
  generalize WP.total P (gone P (watchAt nd []) c) = x' at *
  generalize WP.total P (gone P (watchAt nd [[]]) c) = i' at *
  generalize WP.total P (watchAt nd []) = x at *
  generalize WP.total P (watchAt nd [[]]) = i at *
  constructor
  · rintro ⟨h1, h2⟩
    rw [lostDiff_none h1 s1]; exact h2
  · intro h0
    have hx : x = 0 := by clear s1 s2 hw ha h; ebits
    have hi : i = 0 := by clear s1 s2 hw ha h; ebits
    subst hx; subst hi
    have hx' := Event.sub_zero s2
    have hi' := Event.sub_zero s1
    subst hx'; subst hi'
    simp [lostDiff]

mutual
theorem stopWalk_walked (hP : P.Facts) {c : Nat} {n : Path} : (nd : Node) → (s : World) → nd.OK (RN P) (inR (RN P)) n →
    Walked P c n (Top P nd) (stopDiff P nd c) (tot P nd) (StopFine P nd c) s (nd.stopWalk P .ok c s).1
  | .mk n' w ch, s, h => by
    have hn : n' = n := h.name_eq
    subst hn
    have hv := stop_visits h c
    simp only [Node.stopWalk]
    split
    · next h0 =>
      rw [hv] at h0
      have ih := stopWalkF_walked hP ch s h.child (c := c)
      have htop : ∀ b r, Top P (.mk n' w ch) (b :: r) ↔ b ≠ [] ∧ ∃ x, ch.get? b = some x ∧ Top P x r := by
        intro b r; rw [top_cons]; simp [h0, Node.child]
      have hnil : ¬ Top P (.mk n' w ch) [] := by rw [top_nil]; exact fun h => h h0
      refine ⟨fun x hx => ih.1 x ?_, ?_, fun hp hl => ih.2.2.1 ?_ hl, ih.2.2.2⟩
      · rintro ⟨b, y, r, h1, h2, h3, h4⟩
        exact hx ⟨b :: r, h3, (htop b r).2 ⟨h2, y, h1, h4⟩⟩
      · intro r hr
        cases r with
        | nil => exact absurd hr hnil
        | cons b r =>
          obtain ⟨hb, x, hx, hT⟩ := (htop b r).1 hr
          rw [stopDiff_cons (nd := .mk n' w ch) hx]
          exact ih.2.1 b x r hx hb hT
      · intro b x r hx hb hT
        have := hp (b :: r) ((htop b r).2 ⟨hb, x, hx, hT⟩)
        rwa [tot_cons_some (nd := .mk n' w ch) hx, stopFine_cons (nd := .mk n' w ch) hx] at this
    · next h0 =>
      rw [hv] at h0
      have ha := inact_Q h (RN.nil P)
      have hd := watchDel_diff (c := c) ha
      rw [inact_eq_watchAt, watch_eq_watchAt] at hd
      have hd' : (watchDel P (Node.mk n' w ch) (.user c) allEvents).2 = stopDiff P (.mk n' w ch) c [] := hd
      have htop : ∀ r, Top P (.mk n' w ch) r ↔ r = [] := by
        intro r
        cases r with
        | nil => rw [top_nil]; exact ⟨fun _ => rfl, fun _ => h0⟩
        | cons b r => rw [top_cons]; exact ⟨fun hc => absurd hc.1 h0, fun hc => by simp at hc⟩
      have hname := watchDel_name (P := P) (.mk n' w ch) (.user c) allEvents
      generalize hres : watchDel P (Node.mk n' w ch) (.user c) allEvents = res at *
      simp only
      split
      · next hnone =>
        refine ⟨fun _ _ => rfl, ?_, fun _ hl => hl, rfl⟩
        intro r hr
        rw [(htop r).1 hr, ← hd', hnone]; rfl
      · next hnone =>
        simp only [World.exec, Oracle.ok]
        have hos := stopCall_os (P := P) res.1 res.2 s.log
        have hname' : res.1.name = n' := hname
        rw [hname'] at hos
        refine ⟨?_, ?_, ?_, rfl⟩
        · intro x hx
          have hne : x ≠ n' := by
            rintro rfl
            exact hx ⟨[], by simp, (htop []).2 rfl⟩
          unfold stopCall
          rw [hname]
          simp only [Node.name]
          by_cases h1 : res.2.2 = 0
          · rw [if_pos h1]
            by_cases h2 : watchIsRecursive P res.1 = true <;> simp [h2, osRec, hne]
          · rw [if_neg h1]
            by_cases h2 : watchIsRecursive P res.1 = true <;> simp [h2, osRec, hne]
        · intro r hr
          rw [(htop r).1 hr, List.append_nil, hos, if_pos rfl, ← hd']
          unfold afterStop
          rw [if_neg hnone]
        · intro hp hl
          refine ⟨?_, hl⟩
          obtain ⟨⟨f, hf⟩, hfine⟩ := hp [] ((htop []).2 rfl)
          rw [List.append_nil] at hf
          have hw : RN P (watchAt (.mk n' w ch) []) := ROK.watchAt h (RN.nil P) _
          rw [inact_eq_watchAt] at ha
          have s1 := ha.gone_sub c
          have s2 := hw.gone_sub c
          unfold StopFine at hfine
          rw [List.nil_append] at hfine
          rw [hd] at hnone
          have key : res.2.1 = tot P (.mk n' w ch) [] := by
            rw [hd]
            rw [← hd] at hnone
            unfold tot
            rw [List.nil_append]
            rw [hd] at hnone
            generalize WP.total P (gone P (watchAt (.mk n' w ch) []) c) = x' at *
            generalize WP.total P (gone P (watchAt (.mk n' w ch) [[]]) c) = i' at *
            generalize WP.total P (watchAt (.mk n' w ch) []) = x at *
            generalize WP.total P (watchAt (.mk n' w ch) [[]]) = i at *
            unfold lostDiff at hnone ⊢
            by_cases hx : x = x'
            · rw [if_pos hx] at hnone ⊢
              by_cases hi : i = i'
              · rw [if_pos hi] at hnone; exact absurd rfl hnone
              · rw [if_neg hi]
                have := (hfine hx.symm (Ne.symm hi)).trans s1
                rw [BitVec.or_comm]
                exact (Event.sub_iff_or.1 this).symm
            · rw [if_neg hx] at hnone ⊢
              split
              · next h3 => rw [if_pos h3] at hnone; exact absurd rfl hnone
              · rfl
          have hint : res.2.2 &&& P.internal = 0 := by
            rw [hd]
            have t1 := total_internal P (gone P (watchAt (.mk n' w ch) []) c)
            have t2 := total_internal P (gone P (watchAt (.mk n' w ch) [[]]) c)
            generalize WP.total P (gone P (watchAt (.mk n' w ch) []) c) = x' at *
            generalize WP.total P (gone P (watchAt (.mk n' w ch) [[]]) c) = i' at *
            unfold lostDiff
            split
            · split
              · simp [Diff.none]
              · exact t2
            · split
              · simp [Diff.none]
              · simp only
                clear hd hd' hfine s1 s2 hnone
                ebits
          unfold stopCall
          rw [hname, key]
          simp only [Node.name]
          by_cases h1 : res.2.2 = 0 <;> by_cases h2 : watchIsRecursive P res.1 = true <;>
            simp only [h1, h2, if_true, if_false, Bool.false_eq_true]
          · exact fun hc => by rw [hf] at hc; simp at hc
          · exact fun hc => by rw [hf] at hc; simp at hc
          · exact ⟨⟨f, hf⟩, .inl rfl, h1, hint⟩
          · exact ⟨⟨f, hf⟩, h1, hint⟩
theorem stopWalkF_walked (hP : P.Facts) {c : Nat} {n : Path} : (f : Forest) → (s : World) → f.OK (RN P) (inR (RN P)) n →
    (∀ x, (¬ ∃ b y r, f.get? b = some y ∧ b ≠ [] ∧ x = n ++ b :: r ∧ Top P y r) →
      osRec (f.stopWalk P .ok c s).1.log x = osRec s.log x) ∧
    (∀ b y r, f.get? b = some y → b ≠ [] → Top P y r →
      (osRec (f.stopWalk P .ok c s).1.log (n ++ b :: r)).map Prod.fst =
        afterStop (stopDiff P y c r) ((osRec s.log (n ++ b :: r)).map Prod.fst)) ∧
    ((∀ b y r, f.get? b = some y → b ≠ [] → Top P y r →
      (∃ g, osRec s.log (n ++ b :: r) = some (tot P y r, g)) ∧ StopFine P y c r) → ValidLogRec P s.log →
      ValidLogRec P (f.stopWalk P .ok c s).1.log) ∧
    (f.stopWalk P .ok c s).1.panicked = s.panicked
  | .nil, s, _ => by simp [Forest.stopWalk, Forest.get?]
  | .cons b nd rest, s, h => by
    simp only [Forest.OK] at h
    obtain ⟨hkey, h1, h2, h3⟩ := h
    have hrest : rest.get? b = none := (Forest.get?_eq_none rest b).2 hkey
    simp only [Forest.stopWalk]
    by_cases hb : b = []
    · simp only [if_pos hb]
      have ih := stopWalkF_walked hP rest s h3 (c := c)
      have hget : ∀ b' y, b' ≠ [] → ((Forest.cons b nd rest).get? b' = some y ↔ rest.get? b' = some y) := by
        intro b' y hb'
        have : b ≠ b' := fun hc => hb' (hc.symm.trans hb)
        simp [Forest.get?, this]
      refine ⟨fun x hx => ih.1 x ?_, fun b' y r hy hb' hT => ?_, fun hp hl => ih.2.2.1 ?_ hl, ih.2.2.2⟩
      · rintro ⟨b', y, r, e1, e2, e3⟩
        exact hx ⟨b', y, r, (hget b' y e2).2 e1, e2, e3⟩
      · exact ih.2.1 b' y r ((hget b' y hb').1 hy) hb' hT
      · intro b' y r hy hb' hT
        exact hp b' y r ((hget b' y hb').2 hy) hb' hT
    · simp only [if_neg hb]
      have ih1 := stopWalk_walked hP nd s (h2 hb) (c := c)
      generalize (nd.stopWalk P .ok c s).1 = s1 at *
      have ih := stopWalkF_walked hP rest s1 h3 (c := c)
      have hself : (Forest.cons b nd rest).get? b = some nd := by simp [Forest.get?]
      have hget : ∀ b' y, b' ≠ b → ((Forest.cons b nd rest).get? b' = some y ↔ rest.get? b' = some y) := by
        intro b' y hb'
        simp [Forest.get?, Ne.symm hb']
      -- paths of the first child and of the others differ
      have hsep1 : ∀ b' r, b' ≠ b → osRec s1.log (n ++ b' :: r) = osRec s.log (n ++ b' :: r) := by
        intro b' r hne
        apply ih1.frame
        rintro ⟨r', hc, _⟩
        rw [List.append_assoc] at hc
        have := List.append_cancel_left hc
        simp at this
        exact hne this.1
      have hsep2 : ∀ r, osRec (rest.stopWalk P .ok c s1).1.log (n ++ b :: r) = osRec s1.log (n ++ b :: r) := by
        intro r
        apply ih.1
        rintro ⟨b', y, r', e1, e2, e3, _⟩
        have := List.append_cancel_left e3
        simp at this
        rw [← this.1, hrest] at e1
        simp at e1
      have hab : ∀ r, n ++ [b] ++ r = n ++ b :: r := fun r => by simp
      refine ⟨?_, ?_, ?_, ih.2.2.2.trans ih1.same⟩
      · intro x hx
        rw [ih.1 x, ih1.frame x]
        · rintro ⟨r, e1, e2⟩
          exact hx ⟨b, nd, r, hself, hb, by rw [e1, hab], e2⟩
        · rintro ⟨b', y, r, e1, e2, e3⟩
          refine hx ⟨b', y, r, (hget b' y ?_).2 e1, e2, e3⟩
          rintro rfl; rw [hrest] at e1; simp at e1
      · intro b' y r hy hb' hT
        by_cases hbb : b' = b
        · subst hbb
          rw [hself] at hy
          simp only [Option.some.injEq] at hy
          subst hy
          have := ih1.at_top r hT
          rw [hab] at this
          rw [hsep2, this]
        · rw [ih.2.1 b' y r ((hget b' y hbb).1 hy) hb' hT, hsep1 b' r hbb]
      · intro hp hl
        refine ih.2.2.1 ?_ (ih1.valid ?_ hl)
        · intro b' y r hy hb' hT
          have hbb : b' ≠ b := by rintro rfl; rw [hrest] at hy; simp at hy
          rw [hsep1 b' r hbb]
          exact hp b' y r ((hget b' y hbb).2 hy) hb' hT
        · intro r hT
          rw [hab]
          exact hp b nd r hself hb hT
end

theorem stop_uset (O : Oracle) {s : St} (h : ROK (RN P) s.root) (c : Nat) :
    ROK (RN P) (stop P O s c).root ∧
    (∀ r, (watchAt (stop P O s c).root r).total P = (gone P (watchAt s.root r) c).total P) ∧
    ∀ r d, uset (stop P O s c).root r d = if d = c then 0 else uset s.root r d := by
  have hok : ROK (RN P) (stop P O s c).root :=
    stopWalk_OK O (RN.nil P) (fun _ hw => hw.gone c) s.root s.world h
  have hg : ∀ r k, (watchAt (stop P O s c).root r).get? k = (gone P (watchAt s.root r) c).get? k :=
    fun r k => stopWalk_read O c (RN.nil P) (fun _ hw => hw.nr.inv.nodup) (fun _ hw => hw.gone c) r s.world h k
  refine ⟨hok, fun r => ?_, fun r d => ?_⟩
  · unfold WP.total WP.val; rw [hg r .nil]
  · unfold uset
    rw [← RN.gone_val (P := P), WP.val, hg r (.user d), WP.val]

/-- Stop keeps the mirror if none of the calls it makes is a mistaken one. -/
theorem Sync.stop (hP : P.Facts) {s : St} (h : Sync P s) (c : Nat) (hfine : ∀ q, Top P s.root q → StopFine P s.root c q) :
    Sync P (stop P .ok s c) := by
  obtain ⟨hok, htot, hu⟩ := stop_uset .ok h.book.ok c
  obtain ⟨hb, hT⟩ := h.book.stop hok hu
  have hw := stopWalk_walked hP (c := c) s.root s.world h.book.ok
  have hnew : ∀ q, Top P s.root q → (osRec (Rec.stop P .ok s c).world.log q).map Prod.fst =
      if tot P (Rec.stop P .ok s c).root q = 0 then none else some (tot P (Rec.stop P .ok s c).root q) := by
    intro q hq
    have h1 := hw.at_top q hq
    rw [List.nil_append] at h1
    refine h1.trans ?_
    obtain ⟨f, hf⟩ := h.osTop q hq
    rw [hf]
    have hx : RN P (watchAt s.root q) := ROK.watchAt h.book.ok (RN.nil P) _
    have hi : RN P (watchAt s.root (q ++ [[]])) := ROK.watchAt h.book.ok (RN.nil P) _
    have sx := hx.gone_sub c
    have si := hi.gone_sub c
    have hfq := hfine q hq
    have htq := hq.2.1
    unfold StopFine at hfq
    unfold stopDiff
    unfold tot at htq ⊢
    rw [htot, htot]
    generalize WP.total P (gone P (watchAt s.root q) c) = x' at *
    generalize WP.total P (gone P (watchAt s.root (q ++ [[]])) c) = i' at *
    generalize WP.total P (watchAt s.root q) = x at *
    generalize WP.total P (watchAt s.root (q ++ [[]])) = i at *
    unfold afterStop
    split
    · next hd =>
      have := lostDiff_none hd si
      rw [← this, if_neg htq]; rfl
    · next hd =>
      have e2 : (lostDiff x x' i i').2 = x' ||| i' := by
        unfold lostDiff at hd ⊢
        by_cases hxx : x = x'
        · rw [if_pos hxx] at hd ⊢
          by_cases hii : i = i'
          · rw [if_pos hii] at hd; exact absurd rfl hd
          · rw [if_neg hii]
            have := hfq hxx.symm (Ne.symm hii)
            rw [hxx] at this
            rw [BitVec.or_comm]; exact (Event.sub_iff_or.1 this).symm
        · rw [if_neg hxx] at hd ⊢
          split
          · next h3 => rw [if_pos h3] at hd; exact absurd rfl hd
          · rfl
      rw [e2]
  refine ⟨hb, ?_, ?_, ?_, ?_⟩
  · intro q hq
    obtain ⟨h1, h2⟩ := (hT q).1 hq
    have := hnew q h1
    rw [if_neg h2] at this
    cases hc : osRec (Rec.stop P .ok s c).world.log q with
    | none => rw [hc] at this; simp at this
    | some v =>
      obtain ⟨v, f⟩ := v
      rw [hc] at this
      simp only [Option.map_some, Option.some.injEq] at this
      exact ⟨f, by rw [this]⟩
  · intro q hq
    by_cases h1 : Top P s.root q
    · have h2 : tot P (Rec.stop P .ok s c).root q = 0 := by
        by_contra h2
        exact hq ((hT q).2 ⟨h1, h2⟩)
      have := hnew q h1
      rw [if_pos h2] at this
      simpa using this
    · have := hw.frame q (by rintro ⟨r, h2, h3⟩; rw [List.nil_append] at h2; subst h2; exact h1 h3)
      exact this.trans (h.osNone q h1)
  · refine hw.valid ?_ h.valid
    intro r hr
    rw [List.nil_append]
    exact ⟨h.osTop r hr, hfine r hr⟩
  · exact hw.same.trans h.fine

/-- The condition is exact: where it fails, the OS watch left behind lacks events that are still registered
for the path itself. -/
theorem stop_breaks (hP : P.Facts) {s : St} (h : Sync P s) (c : Nat) {q : Path} (hq : Top P s.root q)
    (hbad : ¬ StopFine P s.root c q) :
    ∃ d i, d ≠ c ∧ BitVec.getLsbD (uset (stop P .ok s c).root q d) i = true ∧ BitVec.getLsbD P.internal i = false ∧
      ∀ E f, osRec (stop P .ok s c).world.log q = some (E, f) → BitVec.getLsbD E i = false := by
  obtain ⟨hok, htot, hu⟩ := stop_uset .ok h.book.ok c
  have hw := stopWalk_walked hP (c := c) s.root s.world h.book.ok
  have hx : RN P (watchAt s.root q) := ROK.watchAt h.book.ok (RN.nil P) _
  unfold StopFine at hbad
  simp only [Classical.not_imp] at hbad
  obtain ⟨e1, e2, e3⟩ := hbad
  obtain ⟨i, hi1, hi2⟩ : ∃ i, BitVec.getLsbD ((watchAt s.root q).total P) i = true ∧
      BitVec.getLsbD ((gone P (watchAt s.root (q ++ [[]])) c).total P) i = false := by
    by_contra hc
    refine e3 fun i hi => ?_
    by_contra h4
    exact hc ⟨i, hi, by simpa using h4⟩
  rw [← e1] at hi1
  obtain ⟨h5, d, h6⟩ := ((hx.gone c).total_bit i).1 hi1
  rw [RN.gone_val] at h6
  have hd : d ≠ c := by rintro rfl; simp at h6
  rw [if_neg hd] at h6
  refine ⟨d, i, hd, by rw [hu, if_neg hd]; exact h6, h5, fun E f hE => ?_⟩
  have h1 := hw.at_top q hq
  rw [List.nil_append] at h1
  have h1 : (osRec (Rec.stop P .ok s c).world.log q).map Prod.fst = _ := h1
  rw [hE] at h1
  have h7 : stopDiff P s.root c q = ((watchAt s.root (q ++ [[]])).total P, (gone P (watchAt s.root (q ++ [[]])) c).total P) := by
    unfold stopDiff lostDiff
    rw [if_pos e1.symm, if_neg (Ne.symm e2)]
  rw [h7] at h1
  unfold afterStop at h1
  split at h1
  · next h8 =>
    simp only [Diff.none, Prod.mk.injEq] at h8
    exact absurd (h8.2.trans h8.1.symm) e2
  · split at h1
    · simp at h1
    · simp only [Option.map_some, Option.some.injEq] at h1
      rw [h1]; exact hi2

theorem Sync.shuffle {s : St} (h : Sync P s) {root' : Node} (hs : RShuffle s.root root') :
    Sync P { s with root := root' } := by
  have hok : ROK (RN P) root' := hs.ok h.book.ok (fun _ _ => RN.congr)
  have hu : ∀ r d, uset root' r d = uset s.root r d := fun r d => by
    unfold uset WP.val; rw [hs.get r]
  obtain ⟨hb, ht, hT⟩ := h.book.congr hok hu
  refine ⟨hb, fun q hq => ?_, fun q hq => h.osNone q (fun hc => hq ((hT q).2 hc)), h.valid, h.fine⟩
  obtain ⟨f, hf⟩ := h.osTop q ((hT q).1 hq)
  exact ⟨f, by simp only; rw [ht]; exact hf⟩

theorem Sync.init (P : Platform) : Sync P init := by
  have hw : ∀ q, watchAt Rec.init.root q = [] := by
    intro q
    cases q with
    | nil => rfl
    | cons b r => exact watchAt_cons_none rfl r
  have hu : ∀ q d, uset Rec.init.root q d = 0 := fun q d => by simp [uset, hw]
  have ht : ∀ q, ¬ Top P Rec.init.root q := fun q hq => hq.2.1 (by simp [tot, hw, total_nil])
  refine ⟨⟨rok_init _ (RN.nil P), ?_, fun q d i hq => absurd hq (ht q)⟩, fun q hq => absurd hq (ht q), fun q _ => rfl, trivial, rfl⟩
  intro q d i hq hb
  rw [hu] at hb; simp at hb

end Rec
end Verif
