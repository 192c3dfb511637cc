/-
What Stop of the recursive tree does to every watchpoint, whatever the OS calls return.
-/
import Verif.RecOp

namespace Verif
namespace Rec
open GoMap NonRec

variable {P : Platform} {Q : WP → Prop}

/-! ### Removing a channel from a watchpoint -/

theorem orAll_congr {w w' : WP} (hn : w.Nodup) (hn' : w'.Nodup) (h : ∀ k, w.get? k = w'.get? k) :
    WP.orAll w = WP.orAll w' := by
  rw [Event.bext]
  intro i
  rw [Bool.eq_iff_iff]
  have h1 := WP.bit_orAll w i
  have h2 := WP.bit_orAll w' i
  simp only [WP.bit] at h1 h2
  rw [h1, h2]
  constructor
  · rintro ⟨k, v, hm, hb⟩
    exact ⟨k, v, GoMap.mem_of_get? (by rw [← h]; exact GoMap.get?_of_mem hn hm), hb⟩
  · rintro ⟨k, v, hm, hb⟩
    exact ⟨k, v, GoMap.mem_of_get? (by rw [h]; exact GoMap.get?_of_mem hn' hm), hb⟩

theorem nil_congr {w w' : WP} (h : ∀ k, w.get? k = w'.get? k) : w = [] ↔ w' = [] := by
  rw [GoMap.eq_nil_iff_get?, GoMap.eq_nil_iff_get?]
  simp only [h]

/-- `del` depends only on the channels' entries. -/
theorem del_congr {w w' : WP} (hn : w.Nodup) (hn' : w'.Nodup) (c : Nat) (e : Event)
    (h : ∀ k, k ≠ .nil → (WP.del0 w (.user c) e).get? k = (WP.del0 w' (.user c) e).get? k) (k : Key) :
    (w.del P (.user c) e).1.get? k = (w'.del P (.user c) e).1.get? k := by
  have h0 : ∀ k, (WP.del0 w (.user c) e).get? k = (WP.del0 w' (.user c) e).get? k := by
    intro k
    by_cases hk : k = .nil
    · subst hk
      rw [WP.get?_del0 w (by simp), WP.get?_del0 w' (by simp)]; simp
    · exact h k hk
  by_cases hk : k = .nil
  · subst hk
    rw [WP.get?_del_nil P w (by simp), WP.get?_del_nil P w' (by simp)]
    rw [orAll_congr (WP.nodup_del0 hn _ _) (WP.nodup_del0 hn' _ _) h0]
    simp only [nil_congr h0]
  · have h1 := h k hk
    rw [WP.get?_del0 w (by simp), WP.get?_del0 w' (by simp), if_neg hk, if_neg hk] at h1
    rw [WP.get?_del_ne_nil P w (by simp) e hk, WP.get?_del_ne_nil P w' (by simp) e hk, h1]

/-- The watchpoint with channel `c` removed. -/
abbrev gone (P : Platform) (w : WP) (c : Nat) : WP := (w.del P (.user c) allEvents).1

theorem andNot_all (x : Event) : x &^ allEvents = 0 := by
  simp only [allEvents]
  show x &&& ~~~(~~~0#32) = 0#32
  simp

theorem get_gone (P : Platform) (w : WP) (c d : Nat) :
    (gone P w c).get? (.user d) = if d = c then none else w.get? (.user d) := by
  rw [get_del_user, andNot_all]; simp

/-- Removing twice is removing once. -/
theorem gone_gone {w w' : WP} (hn : w.Nodup) (hn' : w'.Nodup) (c : Nat) (h : ∀ k, w'.get? k = (gone P w c).get? k)
    (k : Key) : (gone P w' c).get? k = (gone P w c).get? k := by
  refine del_congr hn' hn c _ ?_ k
  intro k hk
  rw [WP.get?_del0 w' (by simp), WP.get?_del0 w (by simp), if_neg hk, if_neg hk, andNot_all, andNot_all, h k]
  split
  · rfl
  · next hkc => rw [WP.get?_del_ne_nil P w (by simp) _ hk, if_neg hkc]

/-! ### The walks of Stop -/

theorem _root_.Verif.Forest.get?_delAll (P : Platform) (c : Nat) (f : Forest) (b : Comp) :
    (f.delAll P c).get? b = (f.get? b).map fun nd => if b = [] then nd else nd.delAll P c := by
  match f with
  | .nil => simp [Forest.delAll, Forest.get?]
  | .cons b' nd rest =>
    simp only [Forest.delAll, Forest.get?]
    split
    · next h => subst h; simp
    · exact Forest.get?_delAll P c rest b

theorem _root_.Verif.Forest.get?_stopWalk (P : Platform) (O : Oracle) (c : Nat) (f : Forest) (s : World) (b : Comp) :
    ∃ s', (f.stopWalk P O c s).2.get? b =
      (f.get? b).map fun nd => if b = [] then nd else (nd.stopWalk P O c s').2 := by
  match f with
  | .nil => exact ⟨s, by simp [Forest.stopWalk, Forest.get?]⟩
  | .cons b' nd rest =>
    simp only [Forest.stopWalk, Forest.get?]
    by_cases h : b' = b
    · subst h
      refine ⟨s, ?_⟩
      by_cases hb : b' = [] <;> simp [hb]
    · simp only [h, if_false]
      exact Forest.get?_stopWalk P O c rest _ b

/-- Reading the tree after `watchDel` at its root node, when the children were changed before. -/
theorem watchDel_read {n : Path} {w : WP} {ch ch' : Forest} (c : Nat)
    (hin : ch'.get? [] = ch.get? []) (hflat : ∀ b t, (Node.mk n w ch).find ([] :: b :: t) = none) (r : Path) :
    watchAt (watchDel P (.mk n w ch') (.user c) allEvents).1 r =
      if r = [] then gone P w c else if r = [[]] then gone P (watchAt (.mk n w ch) [[]]) c
      else if [[]] <+: r then [] else watchAt (.mk n w ch') r := by
  have hf' : ∀ b t, (Node.mk n w ch').find ([] :: b :: t) = none := by
    intro b t
    have := hflat b t
    rw [Node.find_cons] at this ⊢
    simp only [Node.child] at this ⊢
    rw [hin]; exact this
  have hi : inact (.mk n w ch') = watchAt (.mk n w ch) [[]] := by
    have h1 : inact (.mk n w ch') = inact (.mk n w ch) := by simp [inact, inact?, Node.child, hin]
    rw [h1]
    have := inact_nodeAt (.mk n w ch) []
    simpa [nodeAt] using this
  have := find_watchDel P (.mk n w ch') c allEvents (r := r) hf'
  unfold watchAt at hi ⊢
  rw [this, hi]
  split
  · rfl
  · split
    · rfl
    · next h1 h2 =>
      split
      · next h3 =>
        obtain ⟨t, rfl⟩ := h3
        cases t with
        | nil => exact absurd rfl h2
        | cons b t =>
          have := hf' b t
          rw [List.singleton_append, this]; rfl
      · rfl

theorem inact_Q {n : Path} {nd : Node} (h : nd.OK Q (inR Q) n) (h0 : Q []) : Q (inact nd) := by
  have h1 := inact_nodeAt nd []
  have h2 : nodeAt nd [] = nd := by simp [nodeAt]
  rw [h2] at h1
  rw [h1]
  exact ROK.watchAt h h0 _

theorem flat_of_OK {n : Path} {nd : Node} (h : nd.OK Q (inR Q) n) (b : Comp) (t : Path) :
    nd.find ([] :: b :: t) = none := by
  have := OK.flat h (q := []) (r := b :: t) (by simp) (by simp)
  simpa using this

/-- Every watchpoint after the inner walk. -/
theorem delAll_read (c : Nat) : ∀ (r : Path) {n : Path} {nd : Node}, nd.OK Q (inR Q) n →
    watchAt (nd.delAll P c) r = gone P (watchAt nd r) c := by
  intro r
  induction r with
  | nil =>
    intro n nd h
    obtain ⟨n', w, ch⟩ := nd
    simp only [Node.delAll]
    rw [watchDel_read c (ch := ch) (by rw [Forest.get?_delAll]; cases ch.get? [] <;> simp) (flat_of_OK h)]
    simp [watchAt, Node.watch]
  | cons b r ih =>
    intro n nd h
    obtain ⟨n', w, ch⟩ := nd
    simp only [Node.delAll]
    rw [watchDel_read c (ch := ch) (by rw [Forest.get?_delAll]; cases ch.get? [] <;> simp) (flat_of_OK h),
      if_neg (by simp)]
    split
    · next h1 => rw [h1]
    · next h1 =>
      split
      · next h2 =>
        obtain ⟨t, ht⟩ := h2
        cases t with
        | nil => exact absurd ht.symm h1
        | cons x t =>
          rw [← ht, List.singleton_append]
          have : watchAt (Node.mk n' w ch) ([] :: x :: t) = [] := by
            unfold watchAt; rw [flat_of_OK h]; rfl
          rw [this]; exact (del_nil P c allEvents).symm
      · next h2 =>
        have hb : b ≠ [] := by rintro rfl; simp at h2
        have hg := Forest.get?_delAll P c ch b
        cases hx : ch.get? b with
        | none =>
          rw [hx] at hg
          rw [watchAt_cons_none (nd := .mk n' w (ch.delAll P c)) hg, watchAt_cons_none (nd := .mk n' w ch) hx]
          exact (del_nil P c allEvents).symm
        | some x =>
          rw [hx] at hg
          simp only [Option.map_some, if_neg hb] at hg
          rw [watchAt_cons_some (nd := .mk n' w (ch.delAll P c)) hg, watchAt_cons_some (nd := .mk n' w ch) hx]
          exact ih ((Forest.OK.get h.child hx).2 hb)

mutual
theorem delAll_OK {c : Nat} (h0 : Q []) (hQ : ∀ w, Q w → Q (gone P w c)) {n : Path} : (nd : Node) → nd.OK Q (inR Q) n →
    (nd.delAll P c).OK Q (inR Q) n
  | .mk n' w ch, h => by
    have hn : n' = n := h.name_eq
    subst hn
    simp only [Node.delAll]
    have hin : inact (.mk n' w (ch.delAll P c)) = inact (.mk n' w ch) := by
      simp only [inact, inact?, Node.child, Forest.get?_delAll]; cases ch.get? [] <;> simp
    refine watchDel_OK (Node.OK.mk h.watch (delAllF_OK h0 hQ ch h.child)) c _ (hQ _ h.watch) ?_
    show Q (gone P (inact (.mk n' w (ch.delAll P c))) c)
    rw [hin]
    simp only [inact, inact?, Node.child]
    cases hx : ch.get? [] with
    | none => exact hQ _ h0
    | some x => exact hQ _ ((Forest.OK.get h.child hx).1 rfl).2
theorem delAllF_OK {c : Nat} (h0 : Q []) (hQ : ∀ w, Q w → Q (gone P w c)) {n : Path} : (f : Forest) → f.OK Q (inR Q) n →
    (f.delAll P c).OK Q (inR Q) n
  | .nil, _ => by simp [Forest.delAll, Forest.OK]
  | .cons b nd rest, h => by
    simp only [Forest.OK] at h
    simp only [Forest.delAll, Forest.OK]
    refine ⟨?_, fun hb => ?_, fun hb => ?_, delAllF_OK h0 hQ rest h.2.2.2⟩
    · have : (rest.delAll P c).get? b = none := by
        rw [Forest.get?_delAll, (Forest.get?_eq_none rest b).2 h.1]; rfl
      exact (Forest.get?_eq_none _ _).1 this
    · rw [if_pos hb]; exact h.2.1 hb
    · rw [if_neg hb]; exact delAll_OK h0 hQ nd (h.2.2.1 hb)
end

/-- Every watchpoint after the walk of Stop. -/
theorem stopWalk_read (O : Oracle) (c : Nat) (h0 : Q []) (hnd : ∀ w, Q w → w.Nodup) (hQ : ∀ w, Q w → Q (gone P w c)) :
    ∀ (r : Path) {n : Path} {nd : Node} (s : World), nd.OK Q (inR Q) n → ∀ k,
      (watchAt (nd.stopWalk P O c s).2 r).get? k = (gone P (watchAt nd r) c).get? k := by
  intro r
  induction r with
  | nil =>
    intro n nd s h k
    obtain ⟨n', w, ch⟩ := nd
    have e0 : watchAt (.mk n' w ch) [] = w := by simp [watchAt, Node.watch]
    have hok := watchDel_OK (P := P) h c allEvents (hQ _ h.watch)
      (hQ _ (inact_Q h h0))
    simp only [Node.stopWalk]
    split
    · obtain ⟨s', hs'⟩ := Forest.get?_stopWalk P O c ch s []
      simp only
      rw [watchDel_read c (ch := ch) (by rw [hs']; cases ch.get? [] <;> simp) (flat_of_OK h), if_pos rfl, e0]
    · simp only
      rw [delAll_read c [] hok]
      refine gone_gone (ROK.watchAt h h0 [] |> hnd _) (ROK.watchAt hok h0 [] |> hnd _) c ?_ k
      intro k
      rw [watchDel_read c (ch := ch) rfl (flat_of_OK h), if_pos rfl, e0]
  | cons b r ih =>
    intro n nd s h k
    obtain ⟨n', w, ch⟩ := nd
    have hok := watchDel_OK (P := P) h c allEvents (hQ _ h.watch)
      (hQ _ (inact_Q h h0))
    have hempty : ∀ {x : Comp} {t : Path}, watchAt (Node.mk n' w ch) ([] :: x :: t) = [] := by
      intro x t; unfold watchAt; rw [flat_of_OK h]; rfl
    simp only [Node.stopWalk]
    split
    · obtain ⟨s', hs'⟩ := Forest.get?_stopWalk P O c ch s []
      obtain ⟨s'', hs''⟩ := Forest.get?_stopWalk P O c ch s b
      simp only
      rw [watchDel_read c (ch := ch) (by rw [hs']; cases ch.get? [] <;> simp) (flat_of_OK h), if_neg (by simp)]
      split
      · next h1 => rw [h1]
      · next h1 =>
        split
        · next h2 =>
          obtain ⟨t, ht⟩ := h2
          cases t with
          | nil => exact absurd ht.symm h1
          | cons x t =>
            rw [← ht, List.singleton_append, hempty]
            show _ = GoMap.get? (WP.del P [] (.user c) allEvents).1 k
            rw [del_nil]
        · next h2 =>
          have hb : b ≠ [] := by rintro rfl; simp at h2
          cases hx : ch.get? b with
          | none =>
            rw [hx] at hs''
            rw [watchAt_cons_none (nd := .mk n' w (ch.stopWalk P O c s).2) hs'', watchAt_cons_none (nd := .mk n' w ch) hx]
            show _ = GoMap.get? (WP.del P [] (.user c) allEvents).1 k
            rw [del_nil]
          | some x =>
            rw [hx] at hs''
            simp only [Option.map_some, if_neg hb] at hs''
            rw [watchAt_cons_some (nd := .mk n' w (ch.stopWalk P O c s).2) hs'', watchAt_cons_some (nd := .mk n' w ch) hx]
            exact ih s'' ((Forest.OK.get h.child hx).2 hb) k
    · simp only
      rw [delAll_read c (b :: r) hok]
      have hrd := watchDel_read (P := P) (ch := ch) c rfl (flat_of_OK h) (b :: r)
      rw [if_neg (by simp)] at hrd
      split at hrd
      · next h1 =>
        refine gone_gone (ROK.watchAt h h0 (b :: r) |> hnd _) (ROK.watchAt hok h0 (b :: r) |> hnd _) c ?_ k
        intro k
        rw [hrd, h1]
      · next h1 =>
        split at hrd
        · next h2 =>
          obtain ⟨t, ht⟩ := h2
          cases t with
          | nil => exact absurd ht.symm h1
          | cons x t =>
            rw [← ht, List.singleton_append] at hrd ⊢
            rw [hrd, hempty]
        · rw [hrd]

theorem keys_stopWalkF (O : Oracle) (c : Nat) (f : Forest) (s : World) {b : Comp} (h : b ∉ f.keys) :
    b ∉ (f.stopWalk P O c s).2.keys := by
  obtain ⟨s', hs'⟩ := Forest.get?_stopWalk P O c f s b
  rw [← Forest.get?_eq_none] at h ⊢
  rw [hs', h]; rfl

mutual
theorem stopWalk_OK {c : Nat} (O : Oracle) (h0 : Q []) (hQ : ∀ w, Q w → Q (gone P w c)) {n : Path} :
    (nd : Node) → (s : World) → nd.OK Q (inR Q) n → (nd.stopWalk P O c s).2.OK Q (inR Q) n
  | .mk n' w ch, s, h => by
    have hn : n' = n := h.name_eq
    subst hn
    have hi : Q (gone P (inact (.mk n' w ch)) c) := hQ _ (inact_Q h h0)
    simp only [Node.stopWalk]
    split
    · simp only
      have hin : inact (.mk n' w (ch.stopWalk P O c s).2) = inact (.mk n' w ch) := by
        obtain ⟨s', hs'⟩ := Forest.get?_stopWalk P O c ch s []
        simp only [inact, inact?, Node.child, hs']; cases ch.get? [] <;> simp
      refine watchDel_OK (Node.OK.mk h.watch (stopWalkF_OK O h0 hQ ch s h.child)) c _ (hQ _ h.watch) ?_
      show Q (gone P (inact (.mk n' w (ch.stopWalk P O c s).2)) c)
      rw [hin]
      exact hi
    · exact delAll_OK h0 hQ _ (watchDel_OK h c _ (hQ _ h.watch) hi)
theorem stopWalkF_OK {c : Nat} (O : Oracle) (h0 : Q []) (hQ : ∀ w, Q w → Q (gone P w c)) {n : Path} :
    (f : Forest) → (s : World) → f.OK Q (inR Q) n → (f.stopWalk P O c s).2.OK Q (inR Q) n
  | .nil, s, _ => by simp [Forest.stopWalk, Forest.OK]
  | .cons b nd rest, s, h => by
    simp only [Forest.OK] at h
    simp only [Forest.stopWalk, Forest.OK]
    refine ⟨keys_stopWalkF O c rest _ h.1, fun hb => ?_, fun hb => ?_, stopWalkF_OK O h0 hQ rest _ h.2.2.2⟩
    · rw [if_pos hb]; exact h.2.1 hb
    · rw [if_neg hb]; exact stopWalk_OK O h0 hQ nd s (h.2.2.1 hb)
end

theorem RW.gone {w : WP} (h : RW P w) (c : Nat) : RW P (gone P w c) := h.del c _

/-- Stop removes the channel from every watchpoint and touches nothing else. -/
theorem stop_eff (O : Oracle) {s : St} (h : ROK (RW P) s.root) (c : Nat) :
    ROK (RW P) (stop P O s c).root ∧
    ∀ r k, (watchAt (stop P O s c).root r).get? k = (Rec.gone P (watchAt s.root r) c).get? k :=
  ⟨stopWalk_OK O (RW.nil P) (fun _ hw => hw.gone c) s.root s.world h,
   fun r k => stopWalk_read O c (RW.nil P) (fun _ hw => hw.nodup) (fun _ hw => hw.gone c) r s.world h k⟩

theorem stop_entry (O : Oracle) {s : St} (h : ROK (RW P) s.root) (c d : Nat) (r : Path) :
    entry (stop P O s c).root d r = if d = c then none else entry s.root d r := by
  unfold entry
  rw [(stop_eff O h c).2, get_gone]

end Rec
end Verif
