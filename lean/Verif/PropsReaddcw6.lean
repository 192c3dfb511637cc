/-
C42 on Windows.
-/
import Verif.PropsReaddcw

namespace Verif
namespace Dcw
open Platform (readdcw)
open Event WP

theorem Wants.mono {e e' : Event} (h : e ⊑ e') {c : Change} : Wants e c → Wants e' c := by
  rintro (h1 | ⟨x, hx, h1⟩)
  · exact .inl (h1.trans h)
  · exact .inr ⟨x, hx, h1.trans h⟩

/-- **C42, Windows.**  The channel `c` has the set `s` in a watchpoint.  In a watchpoint with more registrations (`wp'`), where `c` has the same set, the kernel is
asked for every change that it was asked for before, and every action that it reports on one of the two handles is sent to `c` exactly as before: the same events,
in the same order. -/
theorem C42_windows {wp wp' : WP} {c : Nat} {s st st' : Event} (hn : GoMap.Nodup wp) (hn' : GoMap.Nodup wp')
    (hs : wp.get? (.user c) = some s) (hs' : wp'.get? (.user c) = some s) (hsub : s ⊑ wp.val .nil) (hsub' : s ⊑ wp'.val .nil)
    (ho : wp.val .nil &&& readdcw.omitted = 0) (ho' : wp'.val .nil &&& readdcw.omitted = 0)
    (hv : valid (wp.total readdcw) = true) (hv' : valid (wp'.total readdcw) = true) (hst : st ⊑ onlyStates) (hst' : st' ⊑ onlyStates)
    (hmore : wp.total readdcw ⊑ wp'.total readdcw) :
    (∀ ch, Asked (wp.total readdcw) ch → Asked (wp'.total readdcw) ch) ∧
    ∀ (dir : Bool) (a : Action) (p : Path), delivered wp' c (gripFilter dir (wp'.total readdcw) st') a p = delivered wp c (gripFilter dir (wp.total readdcw) st) a p := by
  refine ⟨fun ch hch => ?_, fun dir a p => ?_⟩
  · obtain ⟨h1, h2, h3⟩ := C58_native_partial _ hv
    obtain ⟨h1', h2', h3'⟩ := C58_native_partial _ hv'
    by_cases hd : ch = .dirName
    · subst hd
      rw [h2] at hch; rw [h2']
      exact hch.imp (·.trans hmore) (·.imp (·.trans hmore) (·.trans hmore))
    · by_cases hl : ch = .lastWrite
      · subst hl
        rw [h3] at hch; rw [h3']
        exact hch.trans hmore
      · rw [h1 ch hd hl] at hch; rw [h1' ch hd hl]
        exact hch.mono hmore
  · rw [C59_delivery wp' c s st' dir a p hn' hs' hsub' ho' hv' hst', C59_delivery wp c s st dir a p hn hs hsub ho hv hst]

namespace Ex6

/-- Channel 1 asks for Create; then channel 2 for the names of files and changed attributes. -/
def wp : WP := [(.user 1, readdcw.create), (.nil, readdcw.create)]
def wp' : WP := [(.user 1, readdcw.create), (.user 2, fileName ||| attributes), (.nil, readdcw.create ||| fileName ||| attributes)]

example (a : Action) : delivered wp' 1 (gripFilter false (wp'.total readdcw) 0) a [['a'], ['f']] = delivered wp 1 (gripFilter false (wp.total readdcw) 0) a [['a'], ['f']] :=
  (C42_windows (wp := wp) (wp' := wp') (c := 1) (s := readdcw.create) (st := 0) (st' := 0) (by unfold GoMap.Nodup; decide) (by unfold GoMap.Nodup; decide)
    (by decide) (by decide) (by decide) (by decide) (by decide) (by decide) (by decide) (by decide) (by decide) (by decide) (by decide)).2 false a _

end Ex6

end Dcw
end Verif
