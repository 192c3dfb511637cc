/-
kqueue and FEN: direct and indirect registrations (C41).
-/
import Verif.PropsTrigger4

namespace Verif

namespace Spec.Trg

/-- The directory of a path; `/` is `[""]` and has none. -/
def parent (q : Path) : Option Path :=
  if q = [[]] then none else if q.dropLast = [] then some [[]] else some q.dropLast

/-- What is requested for a path through its directory. -/
def indirect (req : Path → Event) (q : Path) : Event :=
  match parent q with
  | none => 0
  | some p => req p

/-- The entry a path should have: none if it does not exist, cannot be watched, or nothing is requested for it or its
directory; otherwise whether it is a directory, what is requested for it and what is requested for its directory. -/
def want (kind : Path → Option Bool) (skip : Path → Bool) (req : Path → Event) (q : Path) : Option (Bool × Event × Event) :=
  match kind q with
  | none => none
  | some d => if skip q = true ∨ req q ||| indirect req q = 0 then none else some (d, req q, indirect req q)

end Spec.Trg

namespace Trg
open Spec.Trg Event WP

/-- A filesystem without errors that stays the same: directories list exactly the paths that exist in them, everything that
exists can be opened, or is one of those the watcher skips (sockets, dangling links). -/
structure Steady (E : Env) : Prop where
  form : ∀ p, E.stat p ≠ none → p = [[]] ∨ (p ≠ [] ∧ [] ∉ p)
  list : ∀ p, E.stat p = some true → ∃ l, E.list p = .ok l ∧ (l.map (·.1)).Nodup ∧
    ∀ c d, (c, d) ∈ l ↔ c ≠ [] ∧ E.stat (join p c) = some d
  isdir : ∀ p c, p ≠ [] → c ≠ [] → E.stat (join p c) ≠ none → E.stat p = some true
  opn : ∀ p, E.stat p ≠ none → E.opn p = .ok ∨ E.opn p = .skip
  reg : ∀ p, E.reg p = true
  unreg : ∀ p, E.unreg p = true

/-- The entries that are skipped. -/
def skips (E : Env) (q : Path) : Bool := decide (E.opn q = .skip)

/-- The table without descriptors. -/
def look (s : St) (q : Path) : Option (Bool × Event × Event) := (s.lkp.get? q).map fun w => (w.isDir, w.eDir, w.eNonDir)

/-- The table and the native watches at a path. -/
def at_ (s : St) (q : Path) : Option (Bool × Event × Event) × Option Event := (look s q, s.nat.get? q)

/-- What they should be. -/
def goal (N : Native) (E : Env) (req : Path → Event) (q : Path) : Option (Bool × Event × Event) × Option Event :=
  (want E.stat (skips E) req q, (want E.stat (skips E) req q).map fun x => N.encode (x.2.1 ||| x.2.2) x.1)

/-- The bookkeeping is right everywhere. -/
def Book (N : Native) (E : Env) (req : Path → Event) (s : St) : Prop := ∀ q, at_ s q = goal N E req q

theorem parent_join {p : Path} {c : Comp} (hp : p ≠ []) (hc : c ≠ []) : parent (join p c) = some p := by
  unfold join
  split
  · rename_i h
    subst h
    unfold parent
    rw [if_neg (by simpa using hc)]
    rfl
  · rename_i h
    unfold parent
    rw [if_neg, List.dropLast_concat, if_neg hp]
    intro h'
    have := congrArg List.length h'
    simp at this
    exact hp this

theorem parent_inv {q p : Path} (hq : q ≠ [] ∧ [] ∉ q) (h : parent q = some p) : p ≠ [] ∧ ∃ c, c ≠ [] ∧ q = join p c := by
  rcases List.eq_nil_or_concat q with rfl | ⟨l, c, rfl⟩
  · exact absurd rfl hq.1
  · rw [List.concat_eq_append] at h hq ⊢
    have hc : c ≠ [] := by
      intro hc; subst hc; exact hq.2 (by simp)
    unfold parent at h
    split at h
    · cases h
    · rw [List.dropLast_concat] at h
      split at h
      · rename_i h2
        cases h
        subst h2
        exact ⟨by simp, c, hc, by simp [join]⟩
      · rename_i h2
        cases h
        refine ⟨h2, c, hc, ?_⟩
        unfold join
        rw [if_neg]
        intro h3
        subst h3
        exact hq.2 (by simp)

theorem singlewatch_nat (N : Native) (E : Env) (s : St) (p : Path) (e : Event) (m : Mode) (d : Bool) {q : Path} (hq : p ≠ q) :
    (singlewatch N E s p e m d).1.nat.get? q = s.nat.get? q := by
  unfold singlewatch
  split
  · split
    · rfl
    · rfl
    · simp only
      split
      · simp [GoMap.get?_set, hq]
      · rfl
  · simp only
    split <;> simp [GoMap.get?_set, hq]

theorem singleunwatch_other (N : Native) (E : Env) (s : St) (p : Path) (m : Mode) {q : Path} (hq : p ≠ q) :
    (singleunwatch N E s p m).1.lkp.get? q = s.lkp.get? q ∧ (singleunwatch N E s p m).1.nat.get? q = s.nat.get? q := by
  unfold singleunwatch
  split
  · exact ⟨rfl, rfl⟩
  · rename_i w hw
    simp only
    split
    · split
      · have h1 := singlewatch_other N E { s with lkp := s.lkp.set p (w.sub m), nat := s.nat.del p } p
          ((w.sub m).eNonDir ||| (w.sub m).eDir) (if (w.sub m).eNonDir ≠ 0 then Mode.ndir else Mode.dir) (w.sub m).isDir hq
        have h2 := singlewatch_nat N E { s with lkp := s.lkp.set p (w.sub m), nat := s.nat.del p } p
          ((w.sub m).eNonDir ||| (w.sub m).eDir) (if (w.sub m).eNonDir ≠ 0 then Mode.ndir else Mode.dir) (w.sub m).isDir hq
        simp only [GoMap.get?_set, GoMap.get?_del, hq, if_false] at h1 h2
        split <;> (rename_i heq; rw [heq] at h1 h2; exact ⟨h1, h2⟩)
      · simp only [del]
        constructor
        · simp [GoMap.get?_set, GoMap.get?_del, hq]
        · split <;> simp [GoMap.get?_del, hq]
    · simp [GoMap.get?_set, hq]

theorem at_singlewatch_other (N : Native) (E : Env) (s : St) (p : Path) (e : Event) (m : Mode) (d : Bool) {q : Path} (hq : p ≠ q) :
    at_ (singlewatch N E s p e m d).1 q = at_ s q := by
  unfold at_ look
  rw [singlewatch_other N E s p e m d hq, singlewatch_nat N E s p e m d hq]

theorem at_singleunwatch_other (N : Native) (E : Env) (s : St) (p : Path) (m : Mode) {q : Path} (hq : p ≠ q) :
    at_ (singleunwatch N E s p m).1 q = at_ s q := by
  unfold at_ look
  rw [(singleunwatch_other N E s p m hq).1, (singleunwatch_other N E s p m hq).2]

theorem look_none {s : St} {q : Path} (h : look s q = none) : s.lkp.get? q = none := by
  unfold look at h
  simpa using h

theorem look_some {s : St} {q : Path} {x : Bool × Event × Event} (h : look s q = some x) :
    ∃ w, s.lkp.get? q = some w ∧ w.isDir = x.1 ∧ w.eDir = x.2.1 ∧ w.eNonDir = x.2.2 := by
  unfold look at h
  rw [Option.map_eq_some_iff] at h
  obtain ⟨w, h1, rfl⟩ := h
  exact ⟨w, h1, rfl, rfl, rfl⟩

/-- `W.add` and `W.sub` on the sets. -/
def addE (m : Mode) (e : Event) (x : Bool × Event × Event) : Bool × Event × Event :=
  match m with
  | .dir => (x.1, x.2.1 ||| e, x.2.2)
  | .ndir => (x.1, x.2.1, x.2.2 ||| e)
  | .both => (x.1, x.2.1 ||| e, x.2.2 ||| e)

def subE (m : Mode) (x : Bool × Event × Event) : Bool × Event × Event :=
  match m with
  | .dir => (x.1, 0, x.2.2)
  | .ndir => (x.1, x.2.1, 0)
  | .both => (x.1, 0, 0)

theorem sw_new (N : Native) {E : Env} {s : St} {p : Path} (e : Event) (m : Mode) (d : Bool) (hr : E.reg p = true)
    (ho : E.opn p = .ok) (h : look s p = none) :
    (singlewatch N E s p e m d).2 = .ok ∧ at_ (singlewatch N E s p e m d).1 p =
      (some (addE m e (d, 0, 0)), some (N.encode ((addE m e (d, 0, 0)).2.1 ||| (addE m e (d, 0, 0)).2.2) d)) := by
  unfold singlewatch
  rw [look_none h, ho]
  simp only [hr, if_true, true_and]
  unfold at_ look
  simp only [GoMap.get?_set, if_true, Option.map_some]
  cases m <;> rfl

theorem sw_old (N : Native) {E : Env} {s : St} {p : Path} (e : Event) (m : Mode) (d : Bool) (hr : E.reg p = true)
    {x : Bool × Event × Event} (h : look s p = some x) :
    (singlewatch N E s p e m d).2 = .already ∧ at_ (singlewatch N E s p e m d).1 p =
      (some (addE m e x), some (N.encode ((addE m e x).2.1 ||| (addE m e x).2.2) d)) := by
  obtain ⟨w, h1, h2, h3, h4⟩ := look_some h
  obtain ⟨x1, x2, x3⟩ := x
  simp only at h2 h3 h4
  subst h2 h3 h4
  unfold singlewatch
  rw [h1]
  simp only [hr, if_true, true_and]
  unfold at_ look
  simp only [GoMap.get?_set, if_true, Option.map_some]
  cases m <;> rfl

theorem su_some (N : Native) {E : Env} {s : St} {p : Path} (m : Mode) (hr : E.reg p = true) (hu : E.unreg p = true)
    {x : Bool × Event × Event} (h : look s p = some x) :
    (singleunwatch N E s p m).2 = .ok ∧ at_ (singleunwatch N E s p m).1 p =
      if (subE m x).2.1 ||| (subE m x).2.2 = 0 then (none, none)
      else (some (subE m x), some (N.encode ((subE m x).2.1 ||| (subE m x).2.2) x.1)) := by
  obtain ⟨w, h1, h2, h3, h4⟩ := look_some h
  obtain ⟨x1, x2, x3⟩ := x
  simp only at h2 h3 h4
  subst h2 h3 h4
  have hsub : ((w.sub m).eNonDir ||| (w.sub m).eDir) = ((subE m (w.isDir, w.eDir, w.eNonDir)).2.1 |||
      (subE m (w.isDir, w.eDir, w.eNonDir)).2.2) := by
    rw [BitVec.or_comm]; cases m <;> rfl
  unfold singleunwatch
  rw [h1]
  simp only [hu, if_true]
  by_cases hz : (subE m (w.isDir, w.eDir, w.eNonDir)).2.1 ||| (subE m (w.isDir, w.eDir, w.eNonDir)).2.2 = 0
  · rw [if_pos hz, hsub, if_neg (by simp [hz])]
    refine ⟨rfl, ?_⟩
    unfold at_ look del
    simp only [GoMap.get?_del, if_true]
    split <;> simp [GoMap.get?_del]
  · rw [if_neg hz, hsub, if_pos hz]
    have hl : look { s with lkp := s.lkp.set p (w.sub m), nat := s.nat.del p } p =
        some (subE m (w.isDir, w.eDir, w.eNonDir)) := by
      unfold look
      simp only [GoMap.get?_set, if_true, Option.map_some]
      cases m <;> rfl
    have h5 := sw_old N ((subE m (w.isDir, w.eDir, w.eNonDir)).2.1 ||| (subE m (w.isDir, w.eDir, w.eNonDir)).2.2)
      (if (w.sub m).eNonDir ≠ 0 then Mode.ndir else Mode.dir) (w.sub m).isDir hr hl
    have h6 : addE (if (w.sub m).eNonDir ≠ 0 then Mode.ndir else Mode.dir)
        ((subE m (w.isDir, w.eDir, w.eNonDir)).2.1 ||| (subE m (w.isDir, w.eDir, w.eNonDir)).2.2)
        (subE m (w.isDir, w.eDir, w.eNonDir)) = subE m (w.isDir, w.eDir, w.eNonDir) := by
      cases m with
      | dir =>
        have : (w.sub .dir).eNonDir ≠ 0 := by
          intro h; apply hz
          simp only [W.sub] at h
          simp [subE, h]
        rw [if_pos this]
        simp [addE, subE]
      | ndir =>
        rw [if_neg (by simp [W.sub])]
        simp [addE, subE]
      | both => simp [subE] at hz
    have h7 : (w.sub m).isDir = w.isDir := by cases m <;> rfl
    rw [h6, h7] at h5
    rw [h7]
    split
    · rename_i heq; rw [heq] at h5; exact ⟨rfl, h5.2⟩
    · rename_i heq; rw [heq] at h5; exact ⟨rfl, h5.2⟩
    · rename_i h8 heq; rw [heq] at h5; exact absurd h5.1 h8

/-- A loop over a directory whose callback only touches the entry at hand. -/
theorem loop_local {f : St → Comp × Bool → St × Res} {p : Path} (hother : ∀ s x q, join p x.1 ≠ q → at_ (f s x).1 q = at_ s q)
    (T : Path → Option (Bool × Event × Event) × Option Event) : ∀ (l : List (Comp × Bool)) (s : St), (l.map (·.1)).Nodup →
    (∀ x ∈ l, ∀ s', at_ s' (join p x.1) = at_ s (join p x.1) → (f s' x).2 = .ok ∧ at_ (f s' x).1 (join p x.1) = T (join p x.1)) →
    (walkLoop f s l).2 = .ok ∧ (∀ x ∈ l, at_ (walkLoop f s l).1 (join p x.1) = T (join p x.1)) ∧
      ∀ q, (∀ x ∈ l, join p x.1 ≠ q) → at_ (walkLoop f s l).1 q = at_ s q
  | [], s, _, _ => ⟨rfl, by simp, fun _ _ => rfl⟩
  | x :: l, s, hn, h => by
    simp only [List.map_cons, List.nodup_cons] at hn
    have hdiff : ∀ y ∈ l, join p x.1 ≠ join p y.1 := by
      intro y hy h
      exact hn.1 (List.mem_map.2 ⟨y, hy, (join_inj h).symm⟩)
    obtain ⟨h1, h2⟩ := h x List.mem_cons_self s rfl
    obtain ⟨k1, k2, k3⟩ := loop_local hother T l (f s x).1 hn.2 (by
      intro y hy s' hs'
      apply h y (List.mem_cons_of_mem _ hy) s'
      rw [hs', hother _ _ _ (hdiff y hy)])
    rw [walkLoop]
    split
    · rename_i s'' heq
      rw [heq] at h2 k1 k2 k3
      refine ⟨k1, ?_, ?_⟩
      · intro y hy
        rcases List.mem_cons.1 hy with rfl | hy
        · rw [k3 _ (fun z hz h => hdiff z hz h.symm)]
          exact h2
        · exact k2 y hy
      · intro q hq
        rw [k3 q (fun y hy => hq y (List.mem_cons_of_mem _ hy))]
        have := hother s x q (hq x List.mem_cons_self)
        rw [heq] at this
        exact this
    · rename_i hne heq
      rw [heq] at h1
      exact absurd h1 hne

/-- The requests after one more. -/
def upd (req : Path → Event) (p : Path) (e : Event) : Path → Event := fun q => if q = p then e else req q

theorem upd_self (req : Path → Event) (p : Path) (e : Event) : upd req p e p = e := if_pos rfl
theorem upd_other (req : Path → Event) {p q : Path} (e : Event) (h : q ≠ p) : upd req p e q = req q := if_neg h

/-- Nothing changes for a path that is neither `p` nor in `p`. -/
theorem goal_upd (N : Native) (E : Env) (hE : Steady E) (req : Path → Event) (p : Path) (e : Event) (q : Path) (h1 : q ≠ p)
    (h2 : ∀ c d, c ≠ [] → E.stat (join p c) = some d → join p c ≠ q) : goal N E (upd req p e) q = goal N E req q := by
  have hw : want E.stat (skips E) (upd req p e) q = want E.stat (skips E) req q := by
    unfold want
    cases hs : E.stat q with
    | none => rfl
    | some d =>
      have hi : indirect (upd req p e) q = indirect req q := by
        unfold indirect
        cases hp : parent q with
        | none => rfl
        | some p' =>
          simp only
          rcases hE.form q (by rw [hs]; simp) with rfl | hf
          · simp [parent] at hp
          · obtain ⟨_, c, hc, rfl⟩ := parent_inv hf hp
            apply upd_other
            intro hpp
            subst hpp
            exact h2 c d hc hs rfl
      simp only [upd_other req e h1, hi]
  unfold goal
  rw [hw]

theorem Book.watch {N : Native} {E : Env} (hE : Steady E) {req : Path → Event} {s : St} (h : Book N E req s) {p : Path} {d : Bool}
    {e : Event} (hp : E.stat p = some d) (ho : E.opn p = .ok) (hreq : req p = 0) (he : e ≠ 0) :
    (watch N E s p e d).2 = .ok ∧ Book N E (upd req p e) (watch N E s p e d).1 := by
  have hpne : p ≠ [] := by
    rcases hE.form p (by rw [hp]; simp) with rfl | h
    · simp
    · exact h.1
  have hsk : skips E p = false := by simp [skips, ho]
  have hself : indirect (upd req p e) p = indirect req p := by
    unfold indirect
    cases hpp : parent p with
    | none => rfl
    | some p' =>
      simp only
      rcases hE.form p (by rw [hp]; simp) with rfl | hf
      · simp [parent] at hpp
      · obtain ⟨_, c, hc, hj⟩ := parent_inv hf hpp
        apply upd_other
        intro hpp
        subst hpp
        exact join_ne hc hj.symm
  -- the path itself
  have hgoal : goal N E (upd req p e) p = (some (d, e, indirect req p), some (N.encode (e ||| indirect req p) d)) := by
    have : want E.stat (skips E) (upd req p e) p = some (d, e, indirect req p) := by
      unfold want
      rw [hp]
      simp only [hself, upd_self]
      rw [if_neg]
      rintro (h1 | h1)
      · rw [hsk] at h1; cases h1
      · exact he (BitVec.or_eq_zero_iff.1 h1).1
    unfold goal
    rw [this]
    rfl
  have hsw : ((singlewatch N E s p e .dir d).2 = .ok ∨ (singlewatch N E s p e .dir d).2 = .already) ∧
      at_ (singlewatch N E s p e .dir d).1 p = goal N E (upd req p e) p := by
    have h0 := h p
    unfold goal at h0
    have hw : want E.stat (skips E) req p = if indirect req p = 0 then none else some (d, 0, indirect req p) := by
      unfold want
      rw [hp]
      simp [hsk, hreq]
    rw [hw] at h0
    rw [hgoal]
    by_cases hi : indirect req p = 0
    · rw [if_pos hi] at h0
      obtain ⟨h1, h2⟩ := sw_new N e .dir d (hE.reg p) ho (Prod.mk.inj h0).1
      exact ⟨.inl h1, by rw [h2]; simp [addE, hi]⟩
    · rw [if_neg hi] at h0
      obtain ⟨h1, h2⟩ := sw_old N e .dir d (hE.reg p) (Prod.mk.inj h0).1
      exact ⟨.inr h1, by rw [h2]; simp [addE]⟩
  have hoth : ∀ q, p ≠ q → at_ (singlewatch N E s p e .dir d).1 q = goal N E req q := fun q hq => by
    rw [at_singlewatch_other N E s p e .dir d hq, h q]
  unfold Trg.watch
  obtain ⟨s1, r, hsr⟩ : ∃ s1 r, singlewatch N E s p e .dir d = (s1, r) := ⟨_, _, rfl⟩
  rw [hsr] at hsw hoth ⊢
  simp only at hsw hoth
  have hmain : (if d = true then walk E p (watchKid N E p e) s1 else (s1, Res.ok)).2 = .ok ∧
      Book N E (upd req p e) (if d = true then walk E p (watchKid N E p e) s1 else (s1, Res.ok)).1 := by
    cases d with
    | false =>
      refine ⟨rfl, fun q => ?_⟩
      simp only [Bool.false_eq_true, if_false]
      by_cases hq : p = q
      · subst hq; exact hsw.2
      · rw [hoth q hq, goal_upd N E hE req p e q (fun h => hq h.symm)]
        intro c d hc hs hj
        have := hE.isdir p c hpne hc (by rw [hs]; simp)
        rw [hp] at this
        cases this
    | true =>
      simp only [if_true]
      obtain ⟨l, hl, hn, hm⟩ := hE.list p hp
      unfold walk
      rw [hl]
      have hloop := loop_local (f := watchKid N E p e) (p := p) (by
        intro s x q hq
        unfold watchKid
        have := at_singlewatch_other N E s (join p x.1) e .ndir x.2 hq
        split
        · rename_i heq; rw [heq] at this; exact this
        · exact this) (goal N E (upd req p e)) l s1 hn (by
        intro x hx s' hs'
        obtain ⟨hc, hst⟩ := (hm x.1 x.2).1 hx
        rw [hoth _ (fun h => join_ne hc h.symm)] at hs'
        have hiq : indirect req (join p x.1) = 0 := by
          unfold indirect
          rw [parent_join hpne hc]
          exact hreq
        have hiq' : indirect (upd req p e) (join p x.1) = e := by
          unfold indirect
          rw [parent_join hpne hc]
          exact upd_self _ _ _
        have hu := upd_other req e (join_ne (p := p) hc)
        unfold watchKid
        rcases hE.opn (join p x.1) (by rw [hst]; simp) with hok | hskip
        · have hsk : skips E (join p x.1) = false := by simp [skips, hok]
          have hg : goal N E (upd req p e) (join p x.1) = (some (x.2, req (join p x.1), e),
              some (N.encode (req (join p x.1) ||| e) x.2)) := by
            have : want E.stat (skips E) (upd req p e) (join p x.1) = some (x.2, req (join p x.1), e) := by
              unfold want
              rw [hst]
              simp only [hiq', hu]
              rw [if_neg]
              rintro (h1 | h1)
              · rw [hsk] at h1; cases h1
              · exact he (BitVec.or_eq_zero_iff.1 h1).2
            unfold goal
            rw [this]
            rfl
          rw [hg]
          have hw : want E.stat (skips E) req (join p x.1) =
              if req (join p x.1) = 0 then none else some (x.2, req (join p x.1), 0) := by
            unfold want
            rw [hst]
            simp [hsk, hiq]
          unfold goal at hs'
          rw [hw] at hs'
          by_cases hr : req (join p x.1) = 0
          · rw [if_pos hr] at hs'
            obtain ⟨h1, h2⟩ := sw_new N e .ndir x.2 (hE.reg _) hok (Prod.mk.inj hs').1
            split
            · rename_i heq; rw [heq] at h1; cases h1
            · exact ⟨h1, by rw [h2, hr]; simp [addE]⟩
          · rw [if_neg hr] at hs'
            obtain ⟨h1, h2⟩ := sw_old N e .ndir x.2 (hE.reg _) (Prod.mk.inj hs').1
            split
            · rename_i heq
              rw [heq] at h2
              exact ⟨rfl, by rw [h2]; simp [addE]⟩
            · rename_i hne
              exact (hne (singlewatch N E s' (join p x.1) e .ndir x.2).1 (by rw [← h1])).elim
        · have hsk : skips E (join p x.1) = true := by simp [skips, hskip]
          have hg : ∀ r, goal N E r (join p x.1) = (none, none) := by
            intro r
            have : want E.stat (skips E) r (join p x.1) = none := by
              unfold want
              rw [hst]
              simp [hsk]
            unfold goal
            rw [this]
            rfl
          rw [hg] at hs' ⊢
          have hnone := look_none (Prod.mk.inj hs').1
          have : singlewatch N E s' (join p x.1) e .ndir x.2 = (s', .ok) := by
            unfold singlewatch
            rw [hnone, hskip]
          rw [this]
          exact ⟨rfl, hs'⟩)
      obtain ⟨k1, k2, k3⟩ := hloop
      refine ⟨k1, fun q => ?_⟩
      by_cases hk : ∃ x ∈ l, join p x.1 = q
      · obtain ⟨x, hx, rfl⟩ := hk
        exact k2 x hx
      · have hk' : ∀ x ∈ l, join p x.1 ≠ q := fun x hx h => hk ⟨x, hx, h⟩
        rw [k3 q hk']
        by_cases hq : p = q
        · subst hq; exact hsw.2
        · rw [hoth q hq, goal_upd N E hE req p e q (fun h => hq h.symm)]
          intro c d hc hs hj
          exact hk' (c, d) ((hm c d).2 ⟨hc, hs⟩) hj
  rcases hsw.1 with rfl | rfl
  · exact hmain
  · exact hmain

theorem Book.unwatch {N : Native} {E : Env} (hE : Steady E) {req : Path → Event} {s : St} (h : Book N E req s) {p : Path} {d : Bool}
    (hp : E.stat p = some d) (ho : E.opn p = .ok) (hreq : req p ≠ 0) :
    (unwatch N E s p d).2 = .ok ∧ Book N E (upd req p 0) (unwatch N E s p d).1 := by
  have hpne : p ≠ [] := by
    rcases hE.form p (by rw [hp]; simp) with rfl | h
    · simp
    · exact h.1
  have hsk : skips E p = false := by simp [skips, ho]
  have hself : indirect (upd req p 0) p = indirect req p := by
    unfold indirect
    cases hpp : parent p with
    | none => rfl
    | some p' =>
      simp only
      rcases hE.form p (by rw [hp]; simp) with rfl | hf
      · simp [parent] at hpp
      · obtain ⟨_, c, hc, hj⟩ := parent_inv hf hpp
        apply upd_other
        intro hpp
        subst hpp
        exact join_ne hc hj.symm
  have hgoal : goal N E (upd req p 0) p = if indirect req p = 0 then (none, none) else
      (some (d, 0, indirect req p), some (N.encode (indirect req p) d)) := by
    have : want E.stat (skips E) (upd req p 0) p = if indirect req p = 0 then none else some (d, 0, indirect req p) := by
      unfold want
      rw [hp]
      simp only [hself, upd_self, hsk]
      simp
    unfold goal
    rw [this]
    split <;> simp
  have hold : goal N E req p = (some (d, req p, indirect req p), some (N.encode (req p ||| indirect req p) d)) := by
    have : want E.stat (skips E) req p = some (d, req p, indirect req p) := by
      unfold want
      rw [hp]
      simp only
      rw [if_neg]
      rintro (h1 | h1)
      · rw [hsk] at h1; cases h1
      · exact hreq (BitVec.or_eq_zero_iff.1 h1).1
    unfold goal
    rw [this]
    rfl
  -- the last step
  have hlast : ∀ s', at_ s' p = goal N E req p → (∀ q, p ≠ q → at_ s' q = goal N E (upd req p 0) q) →
      (singleunwatch N E s' p .dir).2 = .ok ∧ Book N E (upd req p 0) (singleunwatch N E s' p .dir).1 := by
    intro s' h1 h2
    rw [hold] at h1
    obtain ⟨h3, h4⟩ := su_some N .dir (hE.reg p) (hE.unreg p) (Prod.mk.inj h1).1
    refine ⟨h3, fun q => ?_⟩
    by_cases hq : p = q
    · subst hq
      rw [h4, hgoal]
      simp [subE]
    · rw [at_singleunwatch_other N E s' p .dir hq]
      exact h2 q hq
  unfold Trg.unwatch
  cases d with
  | false =>
    simp only [Bool.false_eq_true, if_false]
    refine hlast s (h p) (fun q hq => ?_)
    rw [h q, goal_upd N E hE req p 0 q (fun h => hq h.symm)]
    intro c d hc hs hj
    have := hE.isdir p c hpne hc (by rw [hs]; simp)
    rw [hp] at this
    cases this
  | true =>
    simp only [if_true]
    obtain ⟨l, hl, hn, hm⟩ := hE.list p hp
    unfold walk
    rw [hl]
    have hloop := loop_local (f := unwatchKid N E p) (p := p) (by
      intro s x q hq
      unfold unwatchKid
      have := at_singleunwatch_other N E s (join p x.1) .ndir hq
      split
      · rename_i heq; rw [heq] at this; exact this
      · exact this) (goal N E (upd req p 0)) l s hn (by
      intro x hx s' hs'
      obtain ⟨hc, hst⟩ := (hm x.1 x.2).1 hx
      rw [h] at hs'
      have hiq : indirect req (join p x.1) = req p := by
        unfold indirect
        rw [parent_join hpne hc]
      have hiq' : indirect (upd req p 0) (join p x.1) = 0 := by
        unfold indirect
        rw [parent_join hpne hc]
        exact upd_self _ _ _
      have hu := upd_other req 0 (join_ne (p := p) hc)
      unfold unwatchKid
      rcases hE.opn (join p x.1) (by rw [hst]; simp) with hok | hskip
      · have hsk : skips E (join p x.1) = false := by simp [skips, hok]
        have hw : want E.stat (skips E) req (join p x.1) = some (x.2, req (join p x.1), req p) := by
          unfold want
          rw [hst]
          simp only [hiq]
          rw [if_neg]
          rintro (h1 | h1)
          · rw [hsk] at h1; cases h1
          · exact hreq (BitVec.or_eq_zero_iff.1 h1).2
        have hg : goal N E (upd req p 0) (join p x.1) = if req (join p x.1) = 0 then (none, none) else
            (some (x.2, req (join p x.1), 0), some (N.encode (req (join p x.1)) x.2)) := by
          have : want E.stat (skips E) (upd req p 0) (join p x.1) =
              if req (join p x.1) = 0 then none else some (x.2, req (join p x.1), 0) := by
            unfold want
            rw [hst]
            simp only [hsk, hiq', hu]
            simp
          unfold goal
          rw [this]
          split <;> simp
        unfold goal at hs'
        rw [hw] at hs'
        obtain ⟨h3, h4⟩ := su_some N .ndir (hE.reg _) (hE.unreg _) (Prod.mk.inj hs').1
        split
        · rename_i heq; rw [heq] at h3; cases h3
        · refine ⟨h3, ?_⟩
          rw [h4, hg]
          simp [subE]
      · have hsk : skips E (join p x.1) = true := by simp [skips, hskip]
        have hg : ∀ r, goal N E r (join p x.1) = (none, none) := by
          intro r
          have : want E.stat (skips E) r (join p x.1) = none := by
            unfold want
            rw [hst]
            simp [hsk]
          unfold goal
          rw [this]
          rfl
        rw [hg] at hs' ⊢
        have hnone := look_none (Prod.mk.inj hs').1
        have : singleunwatch N E s' (join p x.1) .ndir = (s', .notWatched) := by
          unfold singleunwatch
          rw [hnone]
        rw [this]
        exact ⟨rfl, hs'⟩)
    obtain ⟨k1, k2, k3⟩ := hloop
    obtain ⟨s1, r, hsr⟩ : ∃ s1 r, walkLoop (unwatchKid N E p) s l = (s1, r) := ⟨_, _, rfl⟩
    simp only [hsr] at k1 k2 k3 ⊢
    subst k1
    simp only
    refine hlast s1 ?_ ?_
    · rw [k3 p (fun x hx => join_ne ((hm x.1 x.2).1 hx).1)]
      exact h p
    · intro q hq
      by_cases hk : ∃ x ∈ l, join p x.1 = q
      · obtain ⟨x, hx, rfl⟩ := hk
        exact k2 x hx
      · have hk' : ∀ x ∈ l, join p x.1 ≠ q := fun x hx h => hk ⟨x, hx, h⟩
        rw [k3 q hk', h q, goal_upd N E hE req p 0 q (fun h => hq h.symm)]
        intro c d hc hs hj
        exact hk' (c, d) ((hm c d).2 ⟨hc, hs⟩) hj

/-! ### Histories -/

/-- Calls of the tree. -/
inductive Req
  | watch (p : Path) (e : Event)
  | rewatch (p : Path) (e : Event)
  | unwatch (p : Path)

/-- What is requested after a call. -/
def Req.eff (req : Path → Event) : Req → Path → Event
  | .watch p e => upd req p e
  | .rewatch p e => upd req p e
  | .unwatch p => upd req p 0

/-- The calls the tree makes (contract of `watcher`, watcher.go:22-52): a path that exists and can be watched is watched if it
is not, and rewatched or unwatched if it is. -/
def Req.Fits (E : Env) (req : Path → Event) : Req → Prop
  | .watch p e => E.stat p ≠ none ∧ E.opn p = .ok ∧ req p = 0 ∧ e ≠ 0
  | .rewatch p e => E.stat p ≠ none ∧ E.opn p = .ok ∧ req p ≠ 0 ∧ e ≠ 0
  | .unwatch p => E.stat p ≠ none ∧ E.opn p = .ok ∧ req p ≠ 0

def Req.call (N : Native) (E : Env) (s : St) : Req → St × Res
  | .watch p e => Watch N E s p e
  | .rewatch p e => Rewatch N E s p e
  | .unwatch p => Unwatch N E s p

/-- Histories: state and requests. -/
inductive Runs (N : Native) (E : Env) : St → (Path → Event) → Prop
  | init : Runs N E {} (fun _ => 0)
  | step {s : St} {req : Path → Event} (r : Req) : Runs N E s req → r.Fits E req → Runs N E (r.call N E s).1 (r.eff req)

theorem upd_upd (req : Path → Event) (p : Path) (a b : Event) : upd (upd req p a) p b = upd req p b := by
  funext q
  unfold upd
  split <;> rfl

theorem Book.call {N : Native} {E : Env} (hE : Steady E) {req : Path → Event} {s : St} (h : Book N E req s) {r : Req}
    (hf : r.Fits E req) : (r.call N E s).2 = .ok ∧ Book N E (r.eff req) (r.call N E s).1 := by
  cases r with
  | watch p e =>
    obtain ⟨h1, h2, h3, h4⟩ := hf
    obtain ⟨d, hd⟩ := Option.ne_none_iff_exists'.1 h1
    simp only [Req.call, Watch, hd]
    exact h.watch hE hd h2 h3 h4
  | unwatch p =>
    obtain ⟨h1, h2, h3⟩ := hf
    obtain ⟨d, hd⟩ := Option.ne_none_iff_exists'.1 h1
    simp only [Req.call, Unwatch, hd]
    exact h.unwatch hE hd h2 h3
  | rewatch p e =>
    obtain ⟨h1, h2, h3, h4⟩ := hf
    obtain ⟨d, hd⟩ := Option.ne_none_iff_exists'.1 h1
    simp only [Req.call, Rewatch, hd]
    obtain ⟨k1, k2⟩ := h.unwatch hE hd h2 h3
    obtain ⟨s1, r, hsr⟩ : ∃ s1 r, Trg.unwatch N E s p d = (s1, r) := ⟨_, _, rfl⟩
    rw [hsr] at k1 k2 ⊢
    simp only at k1 k2
    subst k1
    have := (k2.watch hE hd h2 (upd_self _ _ _) h4).2
    rw [upd_upd] at this
    exact ⟨rfl, this⟩

theorem Runs.book {N : Native} {E : Env} (hE : Steady E) {s : St} {req : Path → Event} (h : Runs N E s req) : Book N E req s := by
  induction h with
  | init =>
    intro q
    have hi : indirect (fun _ => (0 : Event)) q = 0 := by
      unfold indirect
      split <;> rfl
    have : want E.stat (skips E) (fun _ => 0) q = none := by
      unfold want
      rw [hi]
      split
      · rfl
      · simp
    unfold goal
    rw [this]
    rfl
  | step r _ hf ih => exact (ih.call hE hf).2

/-- **C41 (partial).**  In an unchanging filesystem without errors, after any history of calls: a path that exists (and is
not one of those the watcher skips) is in the table, and natively watched, exactly if it or its directory is requested; its
direct set is what is requested for it, its indirect set what is requested for its directory, and the native mask is that of
both.  The full claim has no assumption about errors; see `C41_refuted` and `C41_rewatch_refuted`. -/
theorem C41_book_partial {N : Native} {E : Env} (hE : Steady E) {s : St} {req : Path → Event} (h : Runs N E s req) (q : Path) :
    look s q = want E.stat (skips E) req q ∧
    s.nat.get? q = (want E.stat (skips E) req q).map fun x => N.encode (x.2.1 ||| x.2.2) x.1 :=
  Prod.mk.inj (h.book hE q)

/-- No call of such a history fails. -/
theorem C41_ok_partial {N : Native} {E : Env} (hE : Steady E) {s : St} {req : Path → Event} (h : Runs N E s req) {r : Req}
    (hf : r.Fits E req) : (r.call N E s).2 = .ok := ((h.book hE).call hE hf).1

namespace Ex

/-- `/` with `/d` with `/d/f` and a socket `/d/k`. -/
def E5 : Env where
  stat := fun p => if p = [[]] ∨ p = [['d']] then some true else if p = [['d'], ['f']] ∨ p = [['d'], ['k']] then some false else none
  opn := fun p => if p = [['d'], ['k']] then .skip else .ok
  reg := fun _ => true
  unreg := fun _ => true
  list := fun p => if p = [[]] then .ok [(['d'], true)] else if p = [['d']] then .ok [(['f'], false), (['k'], false)] else .error false

theorem steady5 : Steady E5 := by
  have hst : ∀ p d, E5.stat p = some d → (p = [[]] ∧ d = true) ∨ (p = [['d']] ∧ d = true) ∨ (p = [['d'], ['f']] ∧ d = false) ∨
      (p = [['d'], ['k']] ∧ d = false) := by
    intro p d h
    simp only [E5] at h
    split at h
    · rename_i hp
      cases h
      rcases hp with hp | hp
      · exact .inl ⟨hp, rfl⟩
      · exact .inr (.inl ⟨hp, rfl⟩)
    · split at h
      · rename_i hp
        cases h
        rcases hp with hp | hp
        · exact .inr (.inr (.inl ⟨hp, rfl⟩))
        · exact .inr (.inr (.inr ⟨hp, rfl⟩))
      · cases h
  constructor
  · intro p hp
    obtain ⟨d, hd⟩ := Option.ne_none_iff_exists'.1 hp
    rcases hst p d hd with ⟨rfl, _⟩ | ⟨rfl, _⟩ | ⟨rfl, _⟩ | ⟨rfl, _⟩
    · exact .inl rfl
    · exact .inr (by decide)
    · exact .inr (by decide)
    · exact .inr (by decide)
  · intro p hp
    rcases hst p true hp with ⟨rfl, _⟩ | ⟨rfl, _⟩ | ⟨_, h⟩ | ⟨_, h⟩
    · refine ⟨[(['d'], true)], rfl, by decide, fun c d => ⟨?_, ?_⟩⟩
      · intro h
        cases List.mem_singleton.1 h
        exact ⟨by decide, rfl⟩
      · rintro ⟨hc, hx⟩
        rcases hst _ d hx with ⟨h, rfl⟩ | ⟨h, rfl⟩ | ⟨h, rfl⟩ | ⟨h, rfl⟩ <;> simp [join] at h
        · exact absurd h hc
        · subst h; simp
    · refine ⟨[(['f'], false), (['k'], false)], rfl, by decide, fun c d => ⟨?_, ?_⟩⟩
      · intro h
        simp only [List.mem_cons, List.not_mem_nil, or_false] at h
        rcases h with h | h <;> (cases h; exact ⟨by decide, rfl⟩)
      · rintro ⟨hc, hx⟩
        rcases hst _ d hx with ⟨h, rfl⟩ | ⟨h, rfl⟩ | ⟨h, rfl⟩ | ⟨h, rfl⟩ <;> simp [join] at h
        · subst h; simp
        · subst h; simp
    · cases h
    · cases h
  · intro p c hp hc h
    obtain ⟨d, hd⟩ := Option.ne_none_iff_exists'.1 h
    rcases hst _ d hd with ⟨h, rfl⟩ | ⟨h, rfl⟩ | ⟨h, rfl⟩ | ⟨h, rfl⟩
    · unfold join at h
      split at h
      · simp at h; exact absurd h hc
      · rcases p with _ | ⟨a, _ | ⟨b, t⟩⟩ <;> simp at h hp
    · unfold join at h
      split at h
      · rename_i hp; subst hp; rfl
      · rcases p with _ | ⟨a, _ | ⟨b, t⟩⟩ <;> simp at h hp
    · unfold join at h
      split at h
      · simp at h
      · rcases p with _ | ⟨a, _ | ⟨b, t⟩⟩ <;> simp at h hp
        obtain ⟨rfl, _⟩ := h; rfl
    · unfold join at h
      split at h
      · simp at h
      · rcases p with _ | ⟨a, _ | ⟨b, t⟩⟩ <;> simp at h hp
        obtain ⟨rfl, _⟩ := h; rfl
  · intro p _
    simp only [E5]
    split
    · exact .inr rfl
    · exact .inl rfl
  · intro p; rfl
  · intro p; rfl

/-- `/d/f` watched for Write, then `/d` for Remove, then `/d` for Rename instead. -/
theorem runs5 : Runs kqueue E5
    ((Req.rewatch [['d']] 0x800).call kqueue E5 ((Req.watch [['d']] 0x200).call kqueue E5
      ((Req.watch [['d'], ['f']] 0x400).call kqueue E5 {}).1).1).1
    (upd (upd (upd (fun _ => 0) [['d'], ['f']] 0x400) [['d']] 0x200) [['d']] 0x800) :=
  .step (.rewatch [['d']] 0x800) (.step (.watch [['d']] 0x200) (.step (.watch [['d'], ['f']] 0x400) .init
    ⟨by decide, rfl, rfl, by decide⟩) ⟨by decide, rfl, by decide, by decide⟩) ⟨by decide, rfl, by decide, by decide⟩

/-- The file has both sets. -/
example : look ((Req.rewatch [['d']] 0x800).call kqueue E5 ((Req.watch [['d']] 0x200).call kqueue E5
      ((Req.watch [['d'], ['f']] 0x400).call kqueue E5 {}).1).1).1 [['d'], ['f']] = some (false, 0x400, 0x800) := by
  rw [(C41_book_partial steady5 runs5 _).1]
  decide

/-- The same with a file that cannot be opened. -/
def E6 : Env := { E5 with opn := fun p => if p = [['d'], ['f']] then .err false else .ok }

end Ex

/-- **C41 is false of the code if an entry of the directory cannot be opened**: Watch of the directory fails, and nothing is
requested, but the directory stays in the table and natively watched. -/
theorem C41_refuted : (Watch kqueue Ex.E6 {} [['d']] 0x400).2 = .err false ∧
    look (Watch kqueue Ex.E6 {} [['d']] 0x400).1 [['d']] = some (true, 0x400, 0) ∧
    (Watch kqueue Ex.E6 {} [['d']] 0x400).1.nat.get? [['d']] = some 0x2 := by decide

/-- **Rewatch hides errors**: `/d` is watched, its entry then cannot be removed from the kernel, and Rewatch reports success
although nothing was changed to the new set. -/
theorem C41_rewatch_refuted :
    (Rewatch kqueue { Ex.E5 with unreg := fun _ => false } (Watch kqueue Ex.E5 {} [['d']] 0x400).1 [['d']] 0x800).2 = .ok ∧
    look (Rewatch kqueue { Ex.E5 with unreg := fun _ => false } (Watch kqueue Ex.E5 {} [['d']] 0x400).1 [['d']] 0x800).1
      [['d']] = some (true, 0x400, 0) := by decide

end Trg
end Verif
