/-
The OS watch that replaces those below it has their events (C131).
-/
import Verif.PropsOnce
import Verif.PropsGap

namespace Verif
namespace Rec
open GoMap NonRec Spec

variable {P : Platform}

/-- **C131, native recursion, what is replaced (partial).**  After a harmless history, take a harmless Watch of `p` that succeeds, and an OS watch at
`x` with the events `T` before it.  If `x` is not at or below `p`, or the OS has a watch at or above `p`, then there is still an OS watch at `x`, with
all events of `T`.  Otherwise there is one at `p`, with all events of `T` and those of the Watch, and none at `x`.  Missing:
histories that are not harmless, and Watches that fail. -/
theorem C131_replace_partial (hP : P.Facts) {ops : List ROp} {s s' : St} (h : SafeHist P ops s) {p : Path} {isrec : Bool} {c : Nat} {e : Event}
    (hs : RStep P true s (.watch p isrec c e true) s') (hsafe : SafeWatch (rregOf ops) s.world.log p) {x : Path} {T : Event} {f : Bool}
    (hx : osRec s.world.log x = some (T, f)) :
    ((¬ p <+: x ∨ ∃ t, t <+: p ∧ osRec s.world.log t ≠ none) → ∃ T' f', osRec s'.world.log x = some (T', f') ∧ T ⊑ T') ∧
    (p <+: x → (∀ t, t <+: p → osRec s.world.log t = none) →
      (∃ T' f', osRec s'.world.log p = some (T', f') ∧ T ||| e ⊑ T') ∧ osRec s'.world.log x = none) := by
  have hs0 := h.sync hP
  have hr := RHist.refines hP h.hist.1 h.hist.2
  have hm := (C26_mirror_partial hP h).1
  have hh := h.snoc hs (⟨rfl, hsafe⟩ : Safe (rregOf ops) s.world.log (.watch p isrec c e true))
  have hs1 := hh.sync hP
  have hm1 := (C26_mirror_partial hP hh).1
  obtain ⟨O, hgp, h1, hres, h2⟩ := hs.watch_inv
  have hmono : ∀ y i, asks (rregOf ops) y i → asks (rregOf (ops ++ [.watch p isrec c e true])) y i := by
    rintro y i ⟨d, E, g, h1, h2⟩
    obtain ⟨E', g', h3, h4⟩ := rregOf_keep (op := .watch p isrec c e true) (c := d) (by simp) h1
    exact ⟨d, E', g', h3, h4 i h2⟩
  have htopx := (hs0.top_iff x).1 (by rw [hx]; simp)
  have hTop : ∀ r, Top P s'.root r ↔ (r = p ∧ ∀ t, t <+: p → tot P s.root t = 0) ∨
      (Top P s.root r ∧ ((∃ t, t <+: p ∧ tot P s.root t ≠ 0) ∨ ¬ p <+: r)) := by
    rw [h2]
    exact (hs0.watch hP O hgp.2 isrec c h1 (safeWatch_solid hs0 hr hgp.2 hsafe) hres.symm).2.2.1
  have habove : (∃ t, t <+: p ∧ tot P s.root t ≠ 0) ↔ ∃ t, t <+: p ∧ osRec s.world.log t ≠ none := by
    rw [top_above hgp.2]
    constructor
    · rintro ⟨t, h1, h2⟩; exact ⟨t, h1, (hs0.top_iff t).2 h2⟩
    · rintro ⟨t, h1, h2⟩; exact ⟨t, h1, (hs0.top_iff t).1 h2⟩
  have hcarry : ∀ t T' f', t <+: x → osRec s'.world.log t = some (T', f') → T ⊑ T' := by
    intro t T' f' h1 h2 i hi
    rw [(hm1.exact _ _ _ h2).2 i]
    rcases ((hm.exact _ _ _ hx).2 i).1 hi with h3 | ⟨y, h3, h4, h5⟩
    · by_cases htx : x = t
      · exact .inl (htx ▸ hmono _ _ h3)
      · exact .inr ⟨x, h1, htx, hmono _ _ h3⟩
    · refine .inr ⟨y, h1.trans h3, ?_, hmono _ _ h5⟩
      rintro rfl
      exact h4 (h1.eq_of_length (Nat.le_antisymm h1.length_le h3.length_le))
  constructor
  · intro h1
    have h2 : Top P s'.root x := (hTop x).2 (.inr ⟨htopx, by rcases h1 with h1 | h1; exacts [.inr h1, .inl (habove.2 h1)]⟩)
    obtain ⟨f', h3⟩ := hs1.osTop x h2
    exact ⟨_, f', h3, hcarry x _ f' (List.prefix_refl _) h3⟩
  · intro h1 h2
    have hz : ∀ t, t <+: p → tot P s.root t = 0 := by
      intro t ht
      by_contra hc
      obtain ⟨y, h3, h4⟩ := habove.1 ⟨t, ht, hc⟩
      exact h4 (h2 y h3)
    have h3 : Top P s'.root p := (hTop p).2 (.inl ⟨rfl, hz⟩)
    obtain ⟨f', h4⟩ := hs1.osTop p h3
    have hxp : x ≠ p := by
      rintro rfl
      rw [h2 x (List.prefix_refl _)] at hx
      cases hx
    refine ⟨⟨_, f', h4, ?_⟩, ?_⟩
    · intro i hi
      rw [BitVec.getLsbD_or, Bool.or_eq_true] at hi
      rcases hi with hi | hi
      · exact hcarry p _ f' h1 h4 i hi
      · rw [(hm1.exact _ _ _ h4).2 i]
        left
        have h5 : ∃ E g, rregOf (ops ++ [.watch p isrec c e true]) c p = some (E, g) ∧ e ⊑ E := by
          simp only [rregOf, List.foldl_append, List.foldl_cons, List.foldl_nil, rregStep, if_true, Reg.watch, and_self]
          split
          · exact ⟨_, _, rfl, Event.Sub.refl _⟩
          · exact ⟨_, _, rfl, Event.sub_or_right _ _⟩
        obtain ⟨E, g, h6, h7⟩ := h5
        exact ⟨c, E, g, h6, h7 i hi⟩
    · refine hs1.osNone x fun hc => ?_
      rcases (hTop x).1 hc with ⟨h5, -⟩ | ⟨-, ⟨t, h5, h6⟩ | h5⟩
      · exact hxp h5
      · exact h6 (hz t h5)
      · exact h5 h1

/-- Non-trivial case: `/a/b` and `/a/f` are watched; channel 1 watches `/a` recursively, and `/a` takes over the events of both. -/
example : SafeHist Ex.F [.watch [Ex.a, Ex.b] false 2 Ex.CW true, .watch [Ex.a, Ex.f] false 3 Ex.W true] GapEx.s1 ∧
    RStep Ex.F true GapEx.s1 (.watch [Ex.a] true 1 Ex.W true) GapEx.s2 ∧
    SafeWatch (rregOf [.watch [Ex.a, Ex.b] false 2 Ex.CW true, .watch [Ex.a, Ex.f] false 3 Ex.W true]) GapEx.s1.world.log [Ex.a] ∧
    osRec GapEx.s1.world.log [Ex.a, Ex.b] = some (Ex.CW, false) ∧ (∀ t, t <+: [Ex.a] → osRec GapEx.s1.world.log t = none) := by
  refine ⟨GapEx.safe1, GapEx.step2, GapEx.safeOp.2, by decide, fun t ht => ?_⟩
  have : t = [] ∨ t = [Ex.a] := by
    rcases t with _ | ⟨y, t⟩
    · exact .inl rfl
    · rw [List.cons_prefix_cons] at ht
      obtain ⟨rfl, h⟩ := ht
      rw [List.prefix_nil] at h
      exact .inr (by rw [h])
  rcases this with rfl | rfl <;> decide

end Rec
end Verif
