/-
kqueue and FEN: notifications and the bookkeeping (C66), end to end (C67).
-/
import Verif.TrgBook
import Verif.PropsNonRec

namespace Verif
namespace Trg
open Spec.Trg Event WP

/-! ### Notifications leave the bookkeeping as it is -/

theorem Book.renew {N : Native} {E : Env} (hE : Steady E) {req : Path → Event} {s : St} (h : Book N E req s) {p : Path} {w : W}
    (hw : s.lkp.get? p = some w) {ge : Event} (hge : ge &&& (N.nRemove ||| N.nRename) = 0) :
    Book N E req (renew N E (retrieved N s p) p w ge) := by
  intro q
  rw [← h q]
  have hp := h p
  unfold Trg.renew
  rw [if_pos hge]
  · cases hs : E.stat p with
    | none =>
      unfold at_ look goal want at hp
      rw [hs, hw] at hp
      cases (Prod.mk.inj hp).1
    | some d =>
      simp only [hE.reg, if_true, retrieved]
      unfold at_ look
      simp only [GoMap.get?_set]
      by_cases hq : p = q
      · subst hq
        simp only [if_true]
        unfold at_ look goal want at hp
        rw [hs, hw] at hp
        simp only [Option.map_some] at hp
        obtain ⟨h1, h2⟩ := Prod.mk.inj hp
        split at h1
        · cases h1
        · rename_i hc
          rw [if_neg hc] at h2
          simp only [Option.map_some] at h2
          rw [h2]
          obtain ⟨h3, h4⟩ := Prod.mk.inj (Option.some.inj h1)
          obtain ⟨h4, h5⟩ := Prod.mk.inj h4
          unfold W.all
          rw [h4, h5]
      · simp only [hq, if_false]
        split
        · rw [GoMap.get?_del, if_neg hq]
        · rfl

theorem Book.scanKid {N : Native} {E : Env} (hE : Steady E) {req : Path → Event} {s : St} (h : Book N E req s) {p : Path}
    (hp : p ≠ []) (w : W) (hr : w.eDir = req p) (h0 : req p ≠ 0) (evs : List Ev) (x : Comp × Bool) (hc : x.1 ≠ [])
    (hx : E.stat (join p x.1) = some x.2) :
    Book N E req (Trg.scanKid N E p w (s, evs) x).1.1 ∧ (Trg.scanKid N E p w (s, evs) x).2 = .ok := by
  have key : Book N E req (singlewatch N E s (join p x.1) w.eDir .ndir x.2).1 := by
    intro q
    by_cases hq : join p x.1 = q
    · subst hq
      rw [← h]
      have hk := h (join p x.1)
      have hi : indirect req (join p x.1) = req p := by unfold indirect; rw [parent_join hp hc]
      have hne : req (join p x.1) ||| indirect req (join p x.1) ≠ 0 := by
        rw [hi]
        rw [ne_zero_iff] at h0 ⊢
        obtain ⟨i, hi⟩ := h0
        exact ⟨i, by rw [BitVec.getLsbD_or, hi, Bool.or_true]⟩
      by_cases hsk : skips E (join p x.1) = true
      · have : E.opn (join p x.1) = .skip := of_decide_eq_true hsk
        have hl : look s (join p x.1) = none := by
          have := (Prod.mk.inj hk).1
          rw [this]
          unfold want
          rw [hx]
          simp only [hsk, true_or, if_true]
        unfold singlewatch
        rw [look_none hl, this]
      · have hl : want E.stat (skips E) req (join p x.1) = some (x.2, req (join p x.1), req p) := by
          unfold want
          rw [hx]
          simp only
          rw [if_neg (not_or.2 ⟨hsk, hne⟩), hi]
        have hl' : look s (join p x.1) = some (x.2, req (join p x.1), req p) := by rw [(Prod.mk.inj hk).1, hl]
        rw [(sw_old N w.eDir .ndir x.2 (hE.reg _) hl').2]
        rw [hk]
        unfold goal
        rw [hl]
        simp only [addE, hr, BitVec.or_self, Option.map_some]
    · rw [at_singlewatch_other N E s _ _ _ _ hq]
      exact h q
  unfold Trg.scanKid
  simp only
  generalize hg : singlewatch N E s (join p x.1) w.eDir .ndir x.2 = r at *
  obtain ⟨s', r⟩ := r
  simp only at key
  rcases r with _ | _ | _ | x
  · exact ⟨key, rfl⟩
  · exact ⟨key, rfl⟩
  · exact ⟨key, rfl⟩
  · cases x <;> exact ⟨key, rfl⟩

theorem Book.scan {N : Native} {E : Env} (hE : Steady E) {req : Path → Event} {p : Path} (hp : p ≠ []) (w : W)
    (hr : w.eDir = req p) (h0 : req p ≠ 0) : ∀ (l : List (Comp × Bool)) (s : St) (evs : List Ev), Book N E req s →
    (∀ x ∈ l, x.1 ≠ [] ∧ E.stat (join p x.1) = some x.2) →
    Book N E req (walkLoop (Trg.scanKid N E p w) (s, evs) l).1.1
  | [], s, evs, h, _ => h
  | x :: l, s, evs, h, hl => by
    obtain ⟨h1, h2⟩ := hl x List.mem_cons_self
    obtain ⟨k1, k2⟩ := Book.scanKid hE h hp w hr h0 evs x h1 h2
    unfold walkLoop
    generalize Trg.scanKid N E p w (s, evs) x = r at *
    obtain ⟨⟨s', evs'⟩, r⟩ := r
    simp only at k1 k2
    subst k2
    exact Book.scan hE hp w hr h0 l s' evs' k1 (fun y hy => hl y (List.mem_cons_of_mem _ hy))

/-- In an unchanging set of files a notification that is not about a removal leaves the bookkeeping as it is, unless it is one of a
directory that is only watched because of its own directory. -/
theorem Book.note {N : Native} {E : Env} (hE : Steady E) {req : Path → Event} {s : St} (h : Book N E req s) {p : Path}
    {ge : Event} (hge : ge &&& (N.nRemove ||| N.nRename) = 0) (hd : E.stat p = some true → req p ≠ 0) :
    Book N E req (process N E (retrieved N s p) p ge).1 := by
  unfold process
  have hlk0 : (retrieved N s p).lkp = s.lkp := rfl
  rw [hlk0]
  cases hw : s.lkp.get? p with
  | none =>
    have hp := h p
    intro q
    rw [← h q]
    by_cases hq : p = q
    · subst hq
      rw [hp]
      unfold at_ look at hp ⊢
      rw [hlk0, hw]
      unfold goal at hp ⊢
      rw [hw] at hp
      rw [← hp]
      simp only [retrieved]
      split
      · rw [GoMap.get?_del, if_pos rfl]
        obtain ⟨h1, h2⟩ := Prod.mk.inj hp
        rw [← h1] at h2
        rw [h2]
        rfl
      · rfl
    · unfold at_ look retrieved
      simp only
      split
      · rw [GoMap.get?_del, if_neg hq]
      · rfl
  | some w =>
    have hb := h.renew hE hw hge
    have hlk := (Prod.mk.inj (h p)).1
    unfold look want at hlk
    rw [hw] at hlk
    cases hs : E.stat p with
    | none => rw [hs] at hlk; cases hlk
    | some d =>
      rw [hs] at hlk
      simp only [Option.map_some] at hlk
      split at hlk
      · cases hlk
      · obtain ⟨h3, h4⟩ := Prod.mk.inj (Option.some.inj hlk)
        obtain ⟨h4, h5⟩ := Prod.mk.inj h4
        simp only
        split
        · exact hb
        · rw [if_neg (by simp [hge])]
          split
          · rename_i hdir
            rw [h3] at hdir
            subst hdir
            unfold dir
            have hge' : ge &&& (N.nRename ||| N.nRemove) = 0 := by rw [BitVec.or_comm]; exact hge
            rw [if_neg (by simp [hge'])]
            split
            · obtain ⟨l, hl, -, hm⟩ := hE.list p hs
              unfold walk
              rw [hl]
              have hpne : p ≠ [] := by
                rcases hE.form p (by rw [hs]; simp) with rfl | hp
                · simp
                · exact hp.1
              exact Book.scan hE hpne w h4 (hd hs) l _ _ hb (fun x hx => (hm x.1 x.2).1 hx)
            · exact hb
          · exact hb

/-! ### Any notification -/

theorem Loose.entry {N : Native} {E : Env} {req : Path → Event} {s : St} {p : Path} (h : Loose N E req p (at_ s p)) {w : W}
    (hw : s.lkp.get? p = some w) : E.stat p = some w.isDir ∧ w.eDir = req p ∧ s.nat.get? p = some (N.encode w.all w.isDir) := by
  have hat : at_ s p = (some (w.isDir, w.eDir, w.eNonDir), s.nat.get? p) := by
    unfold at_ look
    rw [hw]
    rfl
  rw [hat] at h
  rcases h with h | ⟨hn, d, h1, h2, h⟩
  · unfold goal at h
    obtain ⟨h1, h2⟩ := Prod.mk.inj h
    rw [← h1] at h2
    unfold want at h1
    cases hs : E.stat p with
    | none => rw [hs] at h1; cases h1
    | some d =>
      rw [hs] at h1
      simp only at h1
      split at h1
      · cases h1
      · obtain ⟨h3, h4⟩ := Prod.mk.inj (Option.some.inj h1)
        obtain ⟨h4, h5⟩ := Prod.mk.inj h4
        exact ⟨by rw [h3], h4, h2⟩
  · obtain ⟨h3, h4⟩ := Prod.mk.inj h
    obtain ⟨h5, h6⟩ := Prod.mk.inj (Option.some.inj h3)
    obtain ⟨h6, h7⟩ := Prod.mk.inj h6
    refine ⟨by rw [h1, h5], ?_, ?_⟩
    · unfold want at hn
      rw [h1] at hn
      simp only at hn
      split at hn
      · rename_i hc
        rcases hc with hc | hc
        · have := of_decide_eq_true hc
          rw [h2] at this
          cases this
        · rw [h6, (BitVec.or_eq_zero_iff.1 hc).1]; rfl
      · cases hn
    · rw [h4, ← h5]
      unfold W.all
      rw [h6, h7]
      rfl

theorem LBook.renew {N : Native} {E : Env} (hE : Steady E) {req : Path → Event} {s : St} (h : LBook N E req s) {p : Path} {w : W}
    (hw : s.lkp.get? p = some w) {ge : Event} (hge : ge &&& (N.nRemove ||| N.nRename) = 0) (q : Path) :
    at_ (Trg.renew N E (retrieved N s p) p w ge) q = at_ s q := by
  obtain ⟨h1, h2, h3⟩ := (h p).entry hw
  unfold Trg.renew
  rw [if_pos hge, h1]
  simp only [hE.reg, if_true, retrieved]
  unfold at_ look
  simp only [GoMap.get?_set]
  by_cases hq : p = q
  · subst hq
    simp only [if_true]
    rw [h3]
  · simp only [hq, if_false]
    split
    · rw [GoMap.get?_del, if_neg hq]
    · rfl

theorem LBook.scanKid {N : Native} {E : Env} (hE : Steady E) {req : Path → Event} {s : St} (h : LBook N E req s) {p : Path}
    (hp : p ≠ []) (w : W) (hr : w.eDir = req p) (evs : List Ev) (x : Comp × Bool) (hc : x.1 ≠ []) (hx : E.stat (join p x.1) = some x.2) :
    LBook N E req (Trg.scanKid N E p w (s, evs) x).1.1 ∧ (Trg.scanKid N E p w (s, evs) x).2 = .ok := by
  have key : LBook N E req (singlewatch N E s (join p x.1) w.eDir .ndir x.2).1 := by
    intro q
    by_cases hq : join p x.1 = q
    · subst hq
      have hk := h (join p x.1)
      have hi : indirect req (join p x.1) = req p := by unfold indirect; rw [parent_join hp hc]
      cases hl : look s (join p x.1) with
      | none =>
        rcases hE.opn (join p x.1) (by rw [hx]; simp) with ho | ho
        · obtain ⟨-, h2⟩ := sw_new N w.eDir .ndir x.2 (hE.reg _) ho hl
          have hg : at_ s (join p x.1) = goal N E req (join p x.1) := by
            rcases hk with hk | ⟨-, d, -, -, hk⟩
            · exact hk
            · have := (Prod.mk.inj hk).1
              rw [hl] at this
              cases this
          have hw : want E.stat (skips E) req (join p x.1) = none := by
            rw [← (Prod.mk.inj hg).1, hl]
          have hz : req (join p x.1) ||| req p = 0 := by
            unfold want at hw
            rw [hx, hi] at hw
            simp only at hw
            split at hw
            · rename_i hh
              rcases hh with hh | hh
              · have := of_decide_eq_true hh
                rw [ho] at this
                cases this
              · exact hh
            · cases hw
          have hz := (BitVec.or_eq_zero_iff.1 hz).2
          refine .inr ⟨hw, x.2, hx, ho, ?_⟩
          rw [h2, hr, hz]
          simp only [addE, BitVec.or_zero, BitVec.ofNat_eq_ofNat]
        · unfold singlewatch
          rw [look_none hl, ho]
          exact hk
      | some y =>
        have hle : w.eDir ||| y.2.2 = y.2.2 := by
          rcases hk with hk | ⟨hn, d, h1, h2, hk⟩
          · have h1 := (Prod.mk.inj hk).1
            rw [hl] at h1
            unfold want at h1
            rw [hx, hi] at h1
            simp only at h1
            split at h1
            · cases h1
            · rw [Option.some.inj h1, hr]
              simp
          · have hz : req p = 0 := by
              unfold want at hn
              rw [hx, hi] at hn
              simp only at hn
              split at hn
              · rename_i hh
                rcases hh with hh | hh
                · have := of_decide_eq_true hh
                  rw [h2] at this
                  cases this
                · exact (BitVec.or_eq_zero_iff.1 hh).2
              · cases hn
            rw [hr, hz]
            simp
        obtain ⟨w', k1, k2, k3, k4⟩ := look_some hl
        obtain ⟨m1, -, m3⟩ := hk.entry k1
        have hd : y.1 = x.2 := by
          rw [hx, k2] at m1
          exact (Option.some.inj m1).symm
        have hy : addE .ndir w.eDir y = y := by
          obtain ⟨a, b, c⟩ := y
          simp only [addE, BitVec.or_comm c] at hle ⊢
          rw [hle]
        rw [(sw_old N w.eDir .ndir x.2 (hE.reg _) hl).2, hy]
        have : at_ s (join p x.1) = (some y, some (N.encode (y.2.1 ||| y.2.2) x.2)) := by
          unfold at_
          rw [hl, m3]
          unfold W.all
          rw [k2, k3, k4, hd]
        rw [← this]
        exact hk
    · rw [at_singlewatch_other N E s _ _ _ _ hq]
      exact h q
  unfold Trg.scanKid
  simp only
  generalize hg : singlewatch N E s (join p x.1) w.eDir .ndir x.2 = r at *
  obtain ⟨s', r⟩ := r
  simp only at key
  rcases r with _ | _ | _ | x
  · exact ⟨key, rfl⟩
  · exact ⟨key, rfl⟩
  · exact ⟨key, rfl⟩
  · cases x <;> exact ⟨key, rfl⟩

theorem LBook.scan {N : Native} {E : Env} (hE : Steady E) {req : Path → Event} {p : Path} (hp : p ≠ []) (w : W)
    (hr : w.eDir = req p) : ∀ (l : List (Comp × Bool)) (s : St) (evs : List Ev), LBook N E req s →
    (∀ x ∈ l, x.1 ≠ [] ∧ E.stat (join p x.1) = some x.2) →
    LBook N E req (walkLoop (Trg.scanKid N E p w) (s, evs) l).1.1
  | [], s, evs, h, _ => h
  | x :: l, s, evs, h, hl => by
    obtain ⟨h1, h2⟩ := hl x List.mem_cons_self
    obtain ⟨k1, k2⟩ := LBook.scanKid hE h hp w hr evs x h1 h2
    unfold walkLoop
    generalize Trg.scanKid N E p w (s, evs) x = r at *
    obtain ⟨⟨s', evs'⟩, r⟩ := r
    simp only at k1 k2
    subst k2
    exact LBook.scan hE hp w hr l s' evs' k1 (fun y hy => hl y (List.mem_cons_of_mem _ hy))

/-- In an unchanging set of files a notification that is not about a removal leaves the bookkeeping as it is, up to entries with empty sets. -/
theorem LBook.note {N : Native} {E : Env} (hE : Steady E) {req : Path → Event} {s : St} (h : LBook N E req s) {p : Path}
    {ge : Event} (hge : ge &&& (N.nRemove ||| N.nRename) = 0) : LBook N E req (process N E (retrieved N s p) p ge).1 := by
  unfold process
  have hlk0 : (retrieved N s p).lkp = s.lkp := rfl
  rw [hlk0]
  cases hw : s.lkp.get? p with
  | none =>
    have hp := h p
    intro q
    by_cases hq : p = q
    · subst hq
      have hg : at_ s p = goal N E req p := by
        rcases hp with hp | ⟨-, d, -, -, hp⟩
        · exact hp
        · have := (Prod.mk.inj hp).1
          unfold look at this
          rw [hw] at this
          cases this
      left
      rw [← hg]
      unfold at_ look
      rw [hlk0, hw]
      have h1 := Prod.mk.inj hg
      simp only [retrieved]
      split
      · rw [GoMap.get?_del, if_pos rfl]
        have h2 : want E.stat (skips E) req p = none := by
          rw [← h1.1]; unfold look; rw [hw]; rfl
        rw [h2] at h1
        rw [h1.2]
        rfl
      · rfl
    · have : at_ (retrieved N s p) q = at_ s q := by
        unfold at_ look retrieved
        simp only
        split
        · rw [GoMap.get?_del, if_neg hq]
        · rfl
      show Loose N E req q (at_ (retrieved N s p) q)
      rw [this]
      exact h q
  | some w =>
    have hb : LBook N E req (Trg.renew N E (retrieved N s p) p w ge) := fun q => by
      rw [h.renew hE hw hge q]; exact h q
    obtain ⟨m1, m2, -⟩ := (h p).entry hw
    simp only
    split
    · exact hb
    · rw [if_neg (by simp [hge])]
      split
      · rename_i hdir
        rw [hdir] at m1
        unfold dir
        have hge' : ge &&& (N.nRename ||| N.nRemove) = 0 := by rw [BitVec.or_comm]; exact hge
        rw [if_neg (by simp [hge'])]
        split
        · obtain ⟨l, hl, -, hm⟩ := hE.list p m1
          unfold walk
          rw [hl]
          have hpne : p ≠ [] := by
            rcases hE.form p (by rw [m1]; simp) with rfl | hp
            · simp
            · exact hp.1
          exact LBook.scan hE hpne w m2 l _ _ hb (fun x hx => (hm x.1 x.2).1 hx)
        · exact hb
      · exact hb

theorem Book.loose {N : Native} {E : Env} {req : Path → Event} {s : St} (h : Book N E req s) : LBook N E req s := fun q => .inl (h q)

/-- Histories with any notifications that are not about a removal: state and requests. -/
inductive ARuns (N : Native) (E : Env) : St → (Path → Event) → Prop
  | init : ARuns N E {} (fun _ => 0)
  | step {s : St} {req : Path → Event} (r : Req) : ARuns N E s req → r.Fits E req → ARuns N E (r.call N E s).1 (r.eff req)
  | note {s : St} {req : Path → Event} (p : Path) (ge : Event) : ARuns N E s req → ge &&& (N.nRemove ||| N.nRename) = 0 →
      ARuns N E (process N E (retrieved N s p) p ge).1 req

theorem ARuns.book {N : Native} {E : Env} (hE : Steady E) {s : St} {req : Path → Event} (h : ARuns N E s req) : LBook N E req s := by
  induction h with
  | init => exact (Runs.book hE .init).loose
  | step r _ hf ih => exact (ih.call hE hf).2
  | note p ge _ hge ih => exact ih.note hE hge

/-- **C66 (partial), any notification.**  In an unchanging set of files, without errors, after any history of calls and of notifications that are
not about a removal: a path for which something is requested, itself or through its directory, is in the table and natively watched with the sets
requested; any other path is not, or it exists and is open with empty sets (`C66_refuted`), in which case the kernel was asked to report nothing about it. -/
theorem C66_any_partial {N : Native} {E : Env} (hE : Steady E) {s : St} {req : Path → Event} (h : ARuns N E s req) (q : Path) :
    (look s q = want E.stat (skips E) req q ∧
      s.nat.get? q = (want E.stat (skips E) req q).map fun x => N.encode (x.2.1 ||| x.2.2) x.1) ∨
    (want E.stat (skips E) req q = none ∧ ∃ d, E.stat q = some d ∧ look s q = some (d, 0, 0) ∧ s.nat.get? q = some (N.encode 0 d)) := by
  rcases h.book hE q with h1 | ⟨h1, d, h2, -, h3⟩
  · exact .inl (Prod.mk.inj h1)
  · exact .inr ⟨h1, d, h2, Prod.mk.inj h3⟩

/-! ### Histories with notifications -/

/-- Histories: state and requests. -/
inductive NRuns (N : Native) (E : Env) : St → (Path → Event) → Prop
  | init : NRuns N E {} (fun _ => 0)
  | step {s : St} {req : Path → Event} (r : Req) : NRuns N E s req → r.Fits E req → NRuns N E (r.call N E s).1 (r.eff req)
  | note {s : St} {req : Path → Event} (p : Path) (ge : Event) : NRuns N E s req → ge &&& (N.nRemove ||| N.nRename) = 0 →
      (E.stat p = some true → req p ≠ 0) → NRuns N E (process N E (retrieved N s p) p ge).1 req

theorem NRuns.book {N : Native} {E : Env} (hE : Steady E) {s : St} {req : Path → Event} (h : NRuns N E s req) :
    Book N E req s := by
  induction h with
  | init => exact Runs.book hE .init
  | step r _ hf ih => exact (ih.call hE hf).2
  | note p ge _ hge hd ih => exact ih.note hE hge hd

/-- **C66 (partial).**  `C41_book_partial` with notifications: in an unchanging set of files, without errors, after any history of
calls and of notifications that are not about a removal, a path that exists (and is not one of those the watcher skips) is in the
table, and natively watched, exactly if it or its directory is requested, with the sets requested.  The full claim has no
restriction on notifications of directories; see `C66_refuted`. -/
theorem C66_notes_partial {N : Native} {E : Env} (hE : Steady E) {s : St} {req : Path → Event} (h : NRuns N E s req) (q : Path) :
    look s q = want E.stat (skips E) req q ∧
    s.nat.get? q = (want E.stat (skips E) req q).map fun x => N.encode (x.2.1 ||| x.2.2) x.1 :=
  Prod.mk.inj (h.book hE q)

namespace Ex

/-- The history of C41 and a notification of the directory and one of the file. -/
def s6 (N : Native) : St :=
  let s := ((Req.watch [['d']] 0x200).call N E5 ((Req.watch [['d'], ['f']] 0x400).call N E5 {}).1).1
  let s := (process N E5 (retrieved N s [['d']]) [['d']] 0x2).1
  (process N E5 (retrieved N s [['d'], ['f']]) [['d'], ['f']] 0x2).1

example : look (s6 kqueue) [['d'], ['f']] = some (false, 0x400, 0x200) := by
  have h1 : NRuns kqueue E5 _ _ := .step (.watch [['d'], ['f']] 0x400) .init ⟨by decide, by decide, by decide, by decide⟩
  have h2 : NRuns kqueue E5 _ _ := .step (.watch [['d']] 0x200) h1 ⟨by decide, by decide, by decide, by decide⟩
  have h3 : NRuns kqueue E5 _ _ := .note [['d']] 0x2 h2 (by decide) (fun _ => by decide)
  have h4 : NRuns kqueue E5 (s6 kqueue) _ := .note [['d'], ['f']] 0x2 h3 (by decide) (fun h => by revert h; decide)
  rw [(C66_notes_partial steady5 h4 _).1]
  decide

/-- On FEN each notification ends an association, and handling it makes a new one. -/
example : (retrieved fen (s6 fen) [['d'], ['f']]).nat.get? [['d'], ['f']] = none ∧ (s6 fen).nat.get? [['d'], ['f']] = some 0x2 := by
  have h1 : NRuns fen E5 _ _ := .step (.watch [['d'], ['f']] 0x400) .init ⟨by decide, by decide, by decide, by decide⟩
  have h2 : NRuns fen E5 _ _ := .step (.watch [['d']] 0x200) h1 ⟨by decide, by decide, by decide, by decide⟩
  have h3 : NRuns fen E5 _ _ := .note [['d']] 0x2 h2 (by decide) (fun _ => by decide)
  have h4 : NRuns fen E5 (s6 fen) _ := .note [['d'], ['f']] 0x2 h3 (by decide) (fun h => by revert h; decide)
  refine ⟨by simp [retrieved, fen, GoMap.get?_del], ?_⟩
  rw [(C66_notes_partial steady5 h4 _).2]
  decide

/-- `/d`, `/d/e` and the file `/d/e/f`. -/
def E7 : Env where
  stat := fun p => if p = [[]] ∨ p = [['d']] ∨ p = [['d'], ['e']] then some true else if p = [['d'], ['e'], ['f']] then some false else none
  opn := fun _ => .ok
  reg := fun _ => true
  unreg := fun _ => true
  list := fun p => if p = [[]] then .ok [(['d'], true)] else if p = [['d']] then .ok [(['e'], true)]
    else if p = [['d'], ['e']] then .ok [(['f'], false)] else .error false

def s7 : St := (Unwatch kqueue E7 (process kqueue E7 (Watch kqueue E7 {} [['d']] 0x400).1 [['d'], ['e']] 0x2).1 [['d']]).1

/-- Any notification: after the notification of `/d/e` in `C66_refuted` the directory is as it was, the file in it is open with empty sets. -/
example : ∃ req, ARuns kqueue E7 (process kqueue E7 (retrieved kqueue (Watch kqueue E7 {} [['d']] 0x400).1 [['d'], ['e']]) [['d'], ['e']] 0x2).1 req ∧
    look (process kqueue E7 (retrieved kqueue (Watch kqueue E7 {} [['d']] 0x400).1 [['d'], ['e']]) [['d'], ['e']] 0x2).1 [['d'], ['e'], ['f']] =
      some (false, 0, 0) := by
  have h1 : ARuns kqueue E7 _ _ := .step (.watch [['d']] 0x400) .init ⟨by decide, by decide, by decide, by decide⟩
  exact ⟨_, .note [['d'], ['e']] 0x2 h1 (by decide), by decide⟩

end Ex

/-- **C66 is false of the code for directories in a watched directory**: `/d` is watched for Write, something changes in `/d/e`,
and `/d` is unwatched.  Nothing is requested any more, but the watcher has opened `/d/e/f` when the directory `/d/e` changed, and keeps
it open and registered. -/
theorem C66_refuted : look Ex.s7 [['d'], ['e'], ['f']] = some (false, 0, 0) ∧ Ex.s7.nat.get? [['d'], ['e'], ['f']] = some 0 ∧
    look Ex.s7 [['d']] = none ∧ look Ex.s7 [['d'], ['e']] = none ∧
    (Ex.s7.lkp.get? [['d'], ['e'], ['f']]).map (·.fd) = some 2 ∧ FdEv.opened 2 ∈ Ex.s7.log ∧ FdEv.closed 2 ∉ Ex.s7.log := by
  decide

end Trg
end Verif
