/-
FSEvents: a larger event set takes no event away (C42).
-/
import Verif.PropsFsevents2

namespace Verif
namespace Fsevents
open Event WP

/-- Two watches that differ at most in that the second asks for more events. -/
structure More (w w' : Watch) : Prop where
  prev : w'.prev = w.prev
  path : w'.path = w.path
  isrec : w'.isrec = w.isrec
  flushed : w'.flushed = w.flushed
  events : w.events ⊑ w'.events

theorem More.base {w w' : Watch} (h : More w w') (p : PathStr.Str) : w'.base p = w.base p := by
  unfold Watch.base; rw [h.path, h.isrec]

theorem and_mono {a b c : Event} (h : b ⊑ c) : a &&& b ⊑ a &&& c := by
  intro i hi
  rw [BitVec.getLsbD_and, Bool.and_eq_true] at hi ⊢
  exact ⟨hi.1, h i hi.2⟩

theorem split_mono {a b : Event} (h : a ⊑ b) {f : Event} (hf : f ∈ splitflags a) : f ∈ splitflags b := by
  obtain ⟨k, h1, h2, h3⟩ := mem_splitflags.1 hf
  exact mem_splitflags.2 ⟨k, h1, h k h2, h3⟩

theorem More.strip {w w' : Watch} (h : More w w') (b : PathStr.Str) (f : Event) :
    More (w.strip b f).1 (w'.strip b f).1 ∧ (w'.strip b f).2 = (w.strip b f).2 := by
  unfold Watch.strip
  simp only [h.prev, and_true]
  split
  · exact h
  · exact ⟨rfl, h.path, h.isrec, h.flushed, h.events⟩

/-- One notification: everything the smaller watch sends is sent by the larger one, with the same history afterwards unless
the notification is one of the failure flags. -/
theorem dispatch1_more {w w' : Watch} (h : More w w') (ev : FSEvent) :
    (∀ x ∈ (w.dispatch1 ev).2, x ∈ (w'.dispatch1 ev).2) ∧
    (ev.flags &&& failure = 0 → More (w.dispatch1 ev).1 (w'.dispatch1 ev).1) := by
  unfold Watch.dispatch1
  by_cases h1 : ev.flags &&& historyDone ≠ 0
  · simp only [if_pos h1]
    refine ⟨by simp, fun _ => ⟨h.prev, h.path, h.isrec, rfl, h.events⟩⟩
  · simp only [if_neg h1]
    by_cases h2 : w.flushed = false
    · rw [if_pos h2]
      rw [if_pos (h.flushed.trans h2)]
      exact ⟨by simp, fun _ => h⟩
    · have h2' : ¬ w'.flushed = false := by rw [h.flushed]; exact h2
      simp only [if_neg h2, if_neg h2']
      by_cases h3 : ev.flags &&& failure ≠ 0 ∧ failure &&& w.events = 0
      · rw [if_pos h3]
        exact ⟨by simp, fun h0 => absurd h0 h3.1⟩
      · have h3' : ¬ (ev.flags &&& failure ≠ 0 ∧ failure &&& w'.events = 0) := by
          rintro ⟨ha, hb⟩
          refine h3 ⟨ha, sub_zero (Sub.trans (and_mono h.events) ?_)⟩
          rw [hb]; exact Sub.refl _
        simp only [if_neg h3, if_neg h3', h.base]
        cases hb : w.base ev.path with
        | none => exact ⟨by simp, fun _ => h⟩
        | some b =>
          have hs := h.strip b ev.flags
          simp only [hs.2]
          constructor
          · intro x hx
            by_cases he : (w.strip b ev.flags).2 &&& w.events = 0
            · rw [if_pos he] at hx; cases hx
            · rw [if_neg he] at hx
              obtain ⟨f, hf, rfl⟩ := List.mem_map.1 hx
              rw [if_neg]
              · exact List.mem_map.2 ⟨f, split_mono (and_mono h.events) hf, rfl⟩
              · intro h0
                apply he
                refine sub_zero (Sub.trans (and_mono h.events) ?_)
                rw [h0]; exact Sub.refl _
          · intro _
            exact hs.1

/-- **C42 on FSEvents.**  If more events are watched on a path, a batch of notifications without failure flags still gives
all events it gave before, and so every channel that was sent an event is sent it again (an event is a single flag, and a
watchpoint compares it with the channel's own set). -/
theorem C42_fsevents : ∀ (evs : List FSEvent) {w w' : Watch}, More w w' → (∀ ev ∈ evs, ev.flags &&& failure = 0) →
    ∀ x ∈ (w.dispatch evs).2, x ∈ (w'.dispatch evs).2
  | [], _, _, _, _, x, hx => by cases hx
  | ev :: evs, w, w', h, hf, x, hx => by
    obtain ⟨h1, h2⟩ := dispatch1_more h ev
    simp only [Watch.dispatch] at hx ⊢
    rcases List.mem_append.1 hx with hx | hx
    · exact List.mem_append.2 (.inl (h1 x hx))
    · exact List.mem_append.2 (.inr (C42_fsevents evs (h2 (hf ev List.mem_cons_self))
        (fun e he => hf e (List.mem_cons_of_mem _ he)) x hx))

/-- The watch `Ex.w` and one that also asks for renames, on the batch of the example there: the events stay. -/
example : More Ex.w { Ex.w with events := 0x1b00 } ∧ (∀ ev ∈ Ex.batch, ev.flags &&& failure = 0) ∧
    (⟨"/d/f".toList, 0x11100⟩, 0x100) ∈ (Ex.w.dispatch Ex.batch).2 := by
  refine ⟨⟨rfl, rfl, rfl, rfl, ?_⟩, by decide, ?_⟩
  · have : (Ex.w.events &&& 0x1b00) = Ex.w.events := by decide
    exact sub_iff_and.2 this
  · have h : splitflags 0x1100 = [0x100, 0x1000] := by rw [splitflags_eq]; decide
    have h1 : (Ex.w.dispatch1 ⟨"/d/f".toList, 0x1100⟩) = (Ex.w, []) := rfl
    have h2 : (Ex.w.dispatch1 ⟨"/".toList, 0x10⟩) = ({ Ex.w with flushed := true }, []) := rfl
    have h3 : ({ Ex.w with flushed := true }.dispatch1 ⟨"/d/f".toList, 0x11100⟩) =
        ({ Ex.w with flushed := true, prev := [("f".toList, created)] }, (splitflags 0x1100).map (fun f => (⟨"/d/f".toList, 0x11100⟩, f))) := rfl
    simp only [Ex.batch, Watch.dispatch, h1, h2, h3, h]
    simp

/-- Which channels of a watchpoint are sent an event does not depend on the sets of the others, once it is in the union. -/
theorem C42_watchpoint (P : Platform) (wp wp' : WP) (ei : EventInfo) (k : Key) (hP : P.windows = false)
    (hk : k ∈ wp.dispatch P ei 0) (hn : wp.Nodup) (hsame : wp'.get? k = wp.get? k)
    (hnil : wp.val .nil ⊑ wp'.val .nil) (ho : wp.val .nil &&& P.omitted = 0) (ho' : wp'.val .nil &&& P.omitted = 0) :
    k ∈ wp'.dispatch P ei 0 := by
  unfold WP.dispatch at hk ⊢
  simp only at hk ⊢
  split at hk
  · rename_i hm
    obtain ⟨⟨k', v⟩, h1, h2⟩ := List.mem_map.1 hk
    simp only at h2
    subst h2
    obtain ⟨h3, h4⟩ := List.mem_filter.1 h1
    rw [if_pos]
    · refine List.mem_map.2 ⟨(k', v), List.mem_filter.2 ⟨?_, h4⟩, rfl⟩
      exact GoMap.mem_of_get? (hsame.trans (GoMap.get?_of_mem hn h3))
    · simp only [matchesEv, hP, ho, ho', Bool.and_eq_true, decide_eq_true_eq] at hm ⊢
      simp only [Bool.false_eq_true, if_false, Bool.and_eq_true, decide_eq_true_eq] at hm ⊢
      refine ⟨hm.1, ?_⟩
      rw [← sub_iff_and] at hm ⊢
      exact hm.2.trans hnil
  · cases hk

/-- Channel 1 asks for Write, then channel 2 for Remove: channel 1 still gets its Write. -/
example : Key.user 1 ∈ WP.dispatch .inotify [(.user 1, Platform.inotify.write), (.nil, Platform.inotify.write)]
      { event := Platform.inotify.write, path := [['a']] } 0 ∧
    Key.user 1 ∈ WP.dispatch .inotify [(.user 1, Platform.inotify.write), (.user 2, Platform.inotify.remove),
      (.nil, Platform.inotify.write ||| Platform.inotify.remove)] { event := Platform.inotify.write, path := [['a']] } 0 := by
  decide

end Fsevents
end Verif
