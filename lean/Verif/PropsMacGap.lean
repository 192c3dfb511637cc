/-
FSEvents: the case left out of `C50_macos_partial` is false of the code.
-/
import Verif.PropsFsevents2
import Verif.PropsRecFail

namespace Verif
namespace Fsevents

open Spec PathStr

namespace GapEx
open Rec (SafeHist)
open Rec.Ex (a b f W F n1 m2)

/-- The watcher's table: one watch, on `/a`, not recursive. -/
def t : Table := (serve true [] (.watch [a] W)).1

theorem drives : Drives m2.world.log t := by
  have hl : m2.world.log = [(.watch [a] W, true)] := by decide
  rw [hl]
  exact .call true (.watch [a] W) .nil

theorem safe : SafeHist F [.watch [a] false 1 W true, .watch [a, b] false 2 W true] m2 :=
  (Rec.watchOnly_safe Rec.Ex.hF (Rec.Ex.nhist1.snoc Rec.Ex.mstep2) (by simp [Rec.ROp.isWatch])).1
end GapEx

/-- **C50 is false of the code** without the condition that the OS watch is recursive or directly above the path.  Channel 1 watches the directory `/a` for Write, then
channel 2 the directory `/a/b` for Write.  Both Watch calls succeed.  When `/a/b/f` is modified, no FSEvents watch forwards it. -/
theorem C50_refuted : ¬ ∀ (ops : List Rec.ROp) (s : St) (t : Table) (c : Nat) (q x : Path) (E : Event) (f : Bool) (flags : Event) (k : Nat),
    Rec.SafeHist Platform.fsevents ops s → Drives s.world.log t → (∀ c, (c, false) ∈ s.world.log → ¬ Relocates c) →
    Rec.rregOf ops c q = some (E, f) → (x = q ∨ x.dropLast = q ∨ (f = true ∧ q <+: x.dropLast)) → 2 ≤ x.length →
    flags.getLsbD k = true → E.getLsbD k = true → flags &&& (created ||| removed) = 0 →
    ∃ tp w, t.get? tp = some w ∧
      ∀ w1 : Watch, w1.path = w.path → w1.events = w.events → w1.isrec = w.isrec → Considered w1 [] ⟨str x, flags⟩ →
        (⟨str x, flags⟩, flag k) ∈ (w1.dispatch1 ⟨str x, flags⟩).2 := by
  intro h
  obtain ⟨tp, w, h1, h2⟩ := h _ _ GapEx.t 2 [Rec.Ex.a, Rec.Ex.b] [Rec.Ex.a, Rec.Ex.b, Rec.Ex.f] Rec.Ex.W false 0x11000 12 GapEx.safe GapEx.drives
    (by have hl : Rec.Ex.m2.world.log = [(.watch [Rec.Ex.a] Rec.Ex.W, true)] := by decide
        rw [hl]; simp)
    (by decide) (.inr (.inl rfl)) (by decide) (by decide) (by decide) (by decide)
  have ht : tp = [Rec.Ex.a] := by
    by_cases h0 : tp = [Rec.Ex.a]
    · exact h0
    · rw [show GapEx.t = GoMap.set [] [Rec.Ex.a] ((GapEx.t.get? [Rec.Ex.a]).get (by decide)) from rfl, GoMap.get?_set, if_neg (fun h => h0 h.symm)] at h1
      cases h1
  subst ht
  have hw : w = (GapEx.t.get? [Rec.Ex.a]).get (by decide) := by
    rw [← Option.some_inj, Option.some_get]; exact h1.symm
  subst hw
  exact absurd (h2 { (GapEx.t.get? [Rec.Ex.a]).get (by decide) with flushed := true } rfl rfl rfl (by unfold Considered; decide)) (by decide)

end Fsevents
end Verif
