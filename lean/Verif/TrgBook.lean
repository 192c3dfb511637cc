/-
kqueue and FEN: the bookkeeping when any notification may arrive (C66, C67).

A notification of a directory that is only watched because of its own directory makes the watcher open the entries of that directory with empty
sets (watcher_trigger.go:331-353 with `w.eDir` = 0).  `Loose` allows such entries.
-/
import Verif.PropsTrigger5

namespace Verif
namespace Trg
open Spec.Trg Event WP

/-- The entry and the native watch of `q` are what they should be, or `q` exists, nothing is requested for it, and it is open with empty sets. -/
def Loose (N : Native) (E : Env) (req : Path → Event) (q : Path) (a : Option (Bool × Event × Event) × Option Event) : Prop :=
  a = goal N E req q ∨ (want E.stat (skips E) req q = none ∧ ∃ d, E.stat q = some d ∧ E.opn q = .ok ∧ a = (some (d, 0, 0), some (N.encode 0 d)))

/-- The bookkeeping is right everywhere, up to entries with empty sets. -/
def LBook (N : Native) (E : Env) (req : Path → Event) (s : St) : Prop := ∀ q, Loose N E req q (at_ s q)

theorem Loose.exact_of {N : Native} {E : Env} {req : Path → Event} {q : Path} {a : Option (Bool × Event × Event) × Option Event}
    (h : Loose N E req q a) {x : Bool × Event × Event} (hx : want E.stat (skips E) req q = some x) : a = goal N E req q := by
  rcases h with h | ⟨h, _⟩
  · exact h
  · rw [hx] at h; cases h

theorem Loose.cases_of {N : Native} {E : Env} {req : Path → Event} {q : Path} {a : Option (Bool × Event × Event) × Option Event}
    (h : Loose N E req q a) {d : Bool} (hd : E.stat q = some d) (hx : want E.stat (skips E) req q = none) :
    a = (none, none) ∨ a = (some (d, 0, 0), some (N.encode 0 d)) := by
  rcases h with h | ⟨_, d', h1, _, h2⟩
  · left
    rw [h]
    unfold goal
    rw [hx]
    rfl
  · right
    rw [hd] at h1
    cases h1
    exact h2

theorem Loose.upd {N : Native} {E : Env} (hE : Steady E) {req : Path → Event} {p q : Path} {e : Event}
    {a : Option (Bool × Event × Event) × Option Event} (h : Loose N E req q a) (h1 : q ≠ p)
    (h2 : ∀ c d, c ≠ [] → E.stat (join p c) = some d → join p c ≠ q) : Loose N E (upd req p e) q a := by
  have hg := goal_upd N E hE req p e q h1 h2
  have hw : want E.stat (skips E) (Trg.upd req p e) q = want E.stat (skips E) req q := congrArg Prod.fst hg
  unfold Loose
  rw [hg, hw]
  exact h

theorem LBook.watch {N : Native} {E : Env} (hE : Steady E) {req : Path → Event} {s : St} (h : LBook N E req s) {p : Path} {d : Bool}
    {e : Event} (hp : E.stat p = some d) (ho : E.opn p = .ok) (hreq : req p = 0) (he : e ≠ 0) :
    (watch N E s p e d).2 = .ok ∧ LBook N E (upd req p e) (watch N E s p e d).1 := by
  have hpne : p ≠ [] := by
    rcases hE.form p (by rw [hp]; simp) with rfl | h
    · simp
    · exact h.1
  have hsk : skips E p = false := by simp [skips, ho]
  have hself : indirect (upd req p e) p = indirect req p := by
    unfold indirect
    cases hpp : parent p with
    | none => rfl
    | some p' =>
      simp only
      rcases hE.form p (by rw [hp]; simp) with rfl | hf
      · simp [parent] at hpp
      · obtain ⟨_, c, hc, hj⟩ := parent_inv hf hpp
        apply upd_other
        intro hpp
        subst hpp
        exact join_ne hc hj.symm
  -- the path itself
  have hgoal : goal N E (upd req p e) p = (some (d, e, indirect req p), some (N.encode (e ||| indirect req p) d)) := by
    have : want E.stat (skips E) (upd req p e) p = some (d, e, indirect req p) := by
      unfold want
      rw [hp]
      simp only [hself, upd_self]
      rw [if_neg]
      rintro (h1 | h1)
      · rw [hsk] at h1; cases h1
      · exact he (BitVec.or_eq_zero_iff.1 h1).1
    unfold goal
    rw [this]
    rfl
  have hsw : ((singlewatch N E s p e .dir d).2 = .ok ∨ (singlewatch N E s p e .dir d).2 = .already) ∧
      at_ (singlewatch N E s p e .dir d).1 p = goal N E (upd req p e) p := by
    have h0 := h p
    have hw : want E.stat (skips E) req p = if indirect req p = 0 then none else some (d, 0, indirect req p) := by
      unfold want
      rw [hp]
      simp [hsk, hreq]
    rw [hgoal]
    by_cases hi : indirect req p = 0
    · rw [if_pos hi] at hw
      rcases h0.cases_of hp hw with h0 | h0
      · obtain ⟨h1, h2⟩ := sw_new N e .dir d (hE.reg p) ho (Prod.mk.inj h0).1
        exact ⟨.inl h1, by rw [h2]; simp [addE, hi]⟩
      · obtain ⟨h1, h2⟩ := sw_old N e .dir d (hE.reg p) (Prod.mk.inj h0).1
        exact ⟨.inr h1, by rw [h2]; simp [addE, hi]⟩
    · rw [if_neg hi] at hw
      have h0 := h0.exact_of hw
      unfold goal at h0
      rw [hw] at h0
      obtain ⟨h1, h2⟩ := sw_old N e .dir d (hE.reg p) (Prod.mk.inj h0).1
      exact ⟨.inr h1, by rw [h2]; simp [addE]⟩
  have hoth : ∀ q, p ≠ q → Loose N E req q (at_ (singlewatch N E s p e .dir d).1 q) := fun q hq => by
    rw [at_singlewatch_other N E s p e .dir d hq]; exact h q
  unfold Trg.watch
  obtain ⟨s1, r, hsr⟩ : ∃ s1 r, singlewatch N E s p e .dir d = (s1, r) := ⟨_, _, rfl⟩
  rw [hsr] at hsw hoth ⊢
  simp only at hsw hoth
  have hmain : (if d = true then walk E p (watchKid N E p e) s1 else (s1, Res.ok)).2 = .ok ∧
      LBook N E (upd req p e) (if d = true then walk E p (watchKid N E p e) s1 else (s1, Res.ok)).1 := by
    cases d with
    | false =>
      refine ⟨rfl, fun q => ?_⟩
      simp only [Bool.false_eq_true, if_false]
      by_cases hq : p = q
      · subst hq; exact .inl hsw.2
      · refine (hoth q hq).upd hE (fun h => hq h.symm) ?_
        intro c d hc hs hj
        have := hE.isdir p c hpne hc (by rw [hs]; simp)
        rw [hp] at this
        cases this
    | true =>
      simp only [if_true]
      obtain ⟨l, hl, hn, hm⟩ := hE.list p hp
      unfold walk
      rw [hl]
      have hloop := loop_local (f := watchKid N E p e) (p := p) (by
        intro s x q hq
        unfold watchKid
        have := at_singlewatch_other N E s (join p x.1) e .ndir x.2 hq
        split
        · rename_i heq; rw [heq] at this; exact this
        · exact this) (goal N E (upd req p e)) l s1 hn (by
        intro x hx s' hs'
        obtain ⟨hc, hst⟩ := (hm x.1 x.2).1 hx
        have hs' : Loose N E req (join p x.1) (at_ s' (join p x.1)) := by
          rw [hs']; exact hoth _ (fun h => join_ne hc h.symm)
        have hiq : indirect req (join p x.1) = 0 := by
          unfold indirect
          rw [parent_join hpne hc]
          exact hreq
        have hiq' : indirect (upd req p e) (join p x.1) = e := by
          unfold indirect
          rw [parent_join hpne hc]
          exact upd_self _ _ _
        have hu := upd_other req e (join_ne (p := p) hc)
        unfold watchKid
        rcases hE.opn (join p x.1) (by rw [hst]; simp) with hok | hskip
        · have hsk : skips E (join p x.1) = false := by simp [skips, hok]
          have hg : goal N E (upd req p e) (join p x.1) = (some (x.2, req (join p x.1), e),
              some (N.encode (req (join p x.1) ||| e) x.2)) := by
            have : want E.stat (skips E) (upd req p e) (join p x.1) = some (x.2, req (join p x.1), e) := by
              unfold want
              rw [hst]
              simp only [hiq', hu]
              rw [if_neg]
              rintro (h1 | h1)
              · rw [hsk] at h1; cases h1
              · exact he (BitVec.or_eq_zero_iff.1 h1).2
            unfold goal
            rw [this]
            rfl
          rw [hg]
          have hw : want E.stat (skips E) req (join p x.1) =
              if req (join p x.1) = 0 then none else some (x.2, req (join p x.1), 0) := by
            unfold want
            rw [hst]
            simp [hsk, hiq]
          by_cases hr : req (join p x.1) = 0
          · rw [if_pos hr] at hw
            rcases hs'.cases_of hst hw with hs' | hs'
            · obtain ⟨h1, h2⟩ := sw_new N e .ndir x.2 (hE.reg _) hok (Prod.mk.inj hs').1
              split
              · rename_i heq; rw [heq] at h1; cases h1
              · exact ⟨h1, by rw [h2, hr]; simp [addE]⟩
            · obtain ⟨h1, h2⟩ := sw_old N e .ndir x.2 (hE.reg _) (Prod.mk.inj hs').1
              split
              · rename_i heq
                rw [heq] at h2
                exact ⟨rfl, by rw [h2, hr]; simp [addE]⟩
              · rename_i hne
                exact (hne (singlewatch N E s' (join p x.1) e .ndir x.2).1 (by rw [← h1])).elim
          · rw [if_neg hr] at hw
            have hs' := hs'.exact_of hw
            unfold goal at hs'
            rw [hw] at hs'
            obtain ⟨h1, h2⟩ := sw_old N e .ndir x.2 (hE.reg _) (Prod.mk.inj hs').1
            split
            · rename_i heq
              rw [heq] at h2
              exact ⟨rfl, by rw [h2]; simp [addE]⟩
            · rename_i hne
              exact (hne (singlewatch N E s' (join p x.1) e .ndir x.2).1 (by rw [← h1])).elim
        · have hsk : skips E (join p x.1) = true := by simp [skips, hskip]
          have hg : ∀ r, goal N E r (join p x.1) = (none, none) := by
            intro r
            have : want E.stat (skips E) r (join p x.1) = none := by
              unfold want
              rw [hst]
              simp [hsk]
            unfold goal
            rw [this]
            rfl
          have hs' : at_ s' (join p x.1) = (none, none) := by
            rcases hs' with h1 | ⟨_, _, _, h1, _⟩
            · rw [h1, hg]
            · rw [hskip] at h1; cases h1
          rw [hg]
          have hnone := look_none (Prod.mk.inj hs').1
          have : singlewatch N E s' (join p x.1) e .ndir x.2 = (s', .ok) := by
            unfold singlewatch
            rw [hnone, hskip]
          rw [this]
          exact ⟨rfl, hs'⟩)
      obtain ⟨k1, k2, k3⟩ := hloop
      refine ⟨k1, fun q => ?_⟩
      by_cases hk : ∃ x ∈ l, join p x.1 = q
      · obtain ⟨x, hx, rfl⟩ := hk
        exact .inl (k2 x hx)
      · have hk' : ∀ x ∈ l, join p x.1 ≠ q := fun x hx h => hk ⟨x, hx, h⟩
        rw [k3 q hk']
        by_cases hq : p = q
        · subst hq; exact .inl hsw.2
        · refine (hoth q hq).upd hE (fun h => hq h.symm) ?_
          intro c d hc hs hj
          exact hk' (c, d) ((hm c d).2 ⟨hc, hs⟩) hj
  rcases hsw.1 with rfl | rfl
  · exact hmain
  · exact hmain

theorem LBook.unwatch {N : Native} {E : Env} (hE : Steady E) {req : Path → Event} {s : St} (h : LBook N E req s) {p : Path} {d : Bool}
    (hp : E.stat p = some d) (ho : E.opn p = .ok) (hreq : req p ≠ 0) :
    (unwatch N E s p d).2 = .ok ∧ LBook N E (upd req p 0) (unwatch N E s p d).1 := by
  have hpne : p ≠ [] := by
    rcases hE.form p (by rw [hp]; simp) with rfl | h
    · simp
    · exact h.1
  have hsk : skips E p = false := by simp [skips, ho]
  have hself : indirect (upd req p 0) p = indirect req p := by
    unfold indirect
    cases hpp : parent p with
    | none => rfl
    | some p' =>
      simp only
      rcases hE.form p (by rw [hp]; simp) with rfl | hf
      · simp [parent] at hpp
      · obtain ⟨_, c, hc, hj⟩ := parent_inv hf hpp
        apply upd_other
        intro hpp
        subst hpp
        exact join_ne hc hj.symm
  have hgoal : goal N E (upd req p 0) p = if indirect req p = 0 then (none, none) else
      (some (d, 0, indirect req p), some (N.encode (indirect req p) d)) := by
    have : want E.stat (skips E) (upd req p 0) p = if indirect req p = 0 then none else some (d, 0, indirect req p) := by
      unfold want
      rw [hp]
      simp only [hself, upd_self, hsk]
      simp
    unfold goal
    rw [this]
    split <;> simp
  have hwp : want E.stat (skips E) req p = some (d, req p, indirect req p) := by
    unfold want
    rw [hp]
    simp only
    rw [if_neg]
    rintro (h1 | h1)
    · rw [hsk] at h1; cases h1
    · exact hreq (BitVec.or_eq_zero_iff.1 h1).1
  have hold : goal N E req p = (some (d, req p, indirect req p), some (N.encode (req p ||| indirect req p) d)) := by
    unfold goal
    rw [hwp]
    rfl
  -- the last step
  have hlast : ∀ s', at_ s' p = goal N E req p → (∀ q, p ≠ q → Loose N E (upd req p 0) q (at_ s' q)) →
      (singleunwatch N E s' p .dir).2 = .ok ∧ LBook N E (upd req p 0) (singleunwatch N E s' p .dir).1 := by
    intro s' h1 h2
    rw [hold] at h1
    obtain ⟨h3, h4⟩ := su_some N .dir (hE.reg p) (hE.unreg p) (Prod.mk.inj h1).1
    refine ⟨h3, fun q => ?_⟩
    by_cases hq : p = q
    · subst hq
      left
      rw [h4, hgoal]
      simp [subE]
    · rw [at_singleunwatch_other N E s' p .dir hq]
      exact h2 q hq
  unfold Trg.unwatch
  cases d with
  | false =>
    simp only [Bool.false_eq_true, if_false]
    refine hlast s ((h p).exact_of hwp) (fun q hq => ?_)
    refine (h q).upd hE (fun h => hq h.symm) ?_
    intro c d hc hs hj
    have := hE.isdir p c hpne hc (by rw [hs]; simp)
    rw [hp] at this
    cases this
  | true =>
    simp only [if_true]
    obtain ⟨l, hl, hn, hm⟩ := hE.list p hp
    unfold walk
    rw [hl]
    have hloop := loop_local (f := unwatchKid N E p) (p := p) (by
      intro s x q hq
      unfold unwatchKid
      have := at_singleunwatch_other N E s (join p x.1) .ndir hq
      split
      · rename_i heq; rw [heq] at this; exact this
      · exact this) (goal N E (upd req p 0)) l s hn (by
      intro x hx s' hs'
      obtain ⟨hc, hst⟩ := (hm x.1 x.2).1 hx
      have hs' : Loose N E req (join p x.1) (at_ s' (join p x.1)) := by rw [hs']; exact h _
      have hiq : indirect req (join p x.1) = req p := by
        unfold indirect
        rw [parent_join hpne hc]
      have hiq' : indirect (upd req p 0) (join p x.1) = 0 := by
        unfold indirect
        rw [parent_join hpne hc]
        exact upd_self _ _ _
      have hu := upd_other req 0 (join_ne (p := p) hc)
      unfold unwatchKid
      rcases hE.opn (join p x.1) (by rw [hst]; simp) with hok | hskip
      · have hsk : skips E (join p x.1) = false := by simp [skips, hok]
        have hw : want E.stat (skips E) req (join p x.1) = some (x.2, req (join p x.1), req p) := by
          unfold want
          rw [hst]
          simp only [hiq]
          rw [if_neg]
          rintro (h1 | h1)
          · rw [hsk] at h1; cases h1
          · exact hreq (BitVec.or_eq_zero_iff.1 h1).2
        have hg : goal N E (upd req p 0) (join p x.1) = if req (join p x.1) = 0 then (none, none) else
            (some (x.2, req (join p x.1), 0), some (N.encode (req (join p x.1)) x.2)) := by
          have : want E.stat (skips E) (upd req p 0) (join p x.1) =
              if req (join p x.1) = 0 then none else some (x.2, req (join p x.1), 0) := by
            unfold want
            rw [hst]
            simp only [hsk, hiq', hu]
            simp
          unfold goal
          rw [this]
          split <;> simp
        have hs' := hs'.exact_of hw
        unfold goal at hs'
        rw [hw] at hs'
        obtain ⟨h3, h4⟩ := su_some N .ndir (hE.reg _) (hE.unreg _) (Prod.mk.inj hs').1
        split
        · rename_i heq; rw [heq] at h3; cases h3
        · refine ⟨h3, ?_⟩
          rw [h4, hg]
          simp [subE]
      · have hsk : skips E (join p x.1) = true := by simp [skips, hskip]
        have hg : ∀ r, goal N E r (join p x.1) = (none, none) := by
          intro r
          have : want E.stat (skips E) r (join p x.1) = none := by
            unfold want
            rw [hst]
            simp [hsk]
          unfold goal
          rw [this]
          rfl
        have hs' : at_ s' (join p x.1) = (none, none) := by
          rcases hs' with h1 | ⟨_, _, _, h1, _⟩
          · rw [h1, hg]
          · rw [hskip] at h1; cases h1
        rw [hg]
        have hnone := look_none (Prod.mk.inj hs').1
        have : singleunwatch N E s' (join p x.1) .ndir = (s', .notWatched) := by
          unfold singleunwatch
          rw [hnone]
        rw [this]
        exact ⟨rfl, hs'⟩)
    obtain ⟨k1, k2, k3⟩ := hloop
    obtain ⟨s1, r, hsr⟩ : ∃ s1 r, walkLoop (unwatchKid N E p) s l = (s1, r) := ⟨_, _, rfl⟩
    simp only [hsr] at k1 k2 k3 ⊢
    subst k1
    simp only
    refine hlast s1 ?_ ?_
    · rw [k3 p (fun x hx => join_ne ((hm x.1 x.2).1 hx).1)]
      exact (h p).exact_of hwp
    · intro q hq
      by_cases hk : ∃ x ∈ l, join p x.1 = q
      · obtain ⟨x, hx, rfl⟩ := hk
        exact .inl (k2 x hx)
      · have hk' : ∀ x ∈ l, join p x.1 ≠ q := fun x hx h => hk ⟨x, hx, h⟩
        rw [k3 q hk']
        refine (h q).upd hE (fun h => hq h.symm) ?_
        intro c d hc hs hj
        exact hk' (c, d) ((hm c d).2 ⟨hc, hs⟩) hj

theorem LBook.call {N : Native} {E : Env} (hE : Steady E) {req : Path → Event} {s : St} (h : LBook N E req s) {r : Req}
    (hf : r.Fits E req) : (r.call N E s).2 = .ok ∧ LBook N E (r.eff req) (r.call N E s).1 := by
  cases r with
  | watch p e =>
    obtain ⟨h1, h2, h3, h4⟩ := hf
    obtain ⟨d, hd⟩ := Option.ne_none_iff_exists'.1 h1
    simp only [Req.call, Watch, hd]
    exact h.watch hE hd h2 h3 h4
  | unwatch p =>
    obtain ⟨h1, h2, h3⟩ := hf
    obtain ⟨d, hd⟩ := Option.ne_none_iff_exists'.1 h1
    simp only [Req.call, Unwatch, hd]
    exact h.unwatch hE hd h2 h3
  | rewatch p e =>
    obtain ⟨h1, h2, h3, h4⟩ := hf
    obtain ⟨d, hd⟩ := Option.ne_none_iff_exists'.1 h1
    simp only [Req.call, Rewatch, hd]
    obtain ⟨k1, k2⟩ := h.unwatch hE hd h2 h3
    obtain ⟨s1, r, hsr⟩ : ∃ s1 r, Trg.unwatch N E s p d = (s1, r) := ⟨_, _, rfl⟩
    rw [hsr] at k1 k2 ⊢
    simp only at k1 k2
    subst k1
    have := (k2.watch hE hd h2 (upd_self _ _ _) h4).2
    rw [upd_upd] at this
    exact ⟨rfl, this⟩

end Trg
end Verif
