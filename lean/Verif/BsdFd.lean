/-
kqueue and FEN: which calls and notifications leave the descriptor of an entry alone, and what a notification of another entry reports about it.

Used by `PropsBsd`; no definitions of the code here.
-/
import Verif.PropsTrigger7

namespace Verif
namespace Trg

/-- The entry of `x` has descriptor `fd`. -/
def Has (x : Path) (fd : Nat) (s : St) : Prop := ∃ w, s.lkp.get? x = some w ∧ w.fd = fd

section
variable {N : Native} {E : Env} {x : Path} {fd : Nat}

theorem W.add_fd (w : W) (m : Mode) (e : Event) : (w.add m e).fd = w.fd := by cases m <;> rfl

theorem Has.singlewatch {s : St} (h : Has x fd s) (p : Path) (e : Event) (m : Mode) (d : Bool) : Has x fd (singlewatch N E s p e m d).1 := by
  obtain ⟨w, h1, h2⟩ := h
  by_cases hp : p = x
  · subst hp
    refine ⟨w.add m e, ?_, by rw [W.add_fd, h2]⟩
    unfold Trg.singlewatch
    rw [h1]
    simp only
    split <;> simp [GoMap.get?_set]
  · exact ⟨w, by rw [singlewatch_other N E s p e m d hp]; exact h1, h2⟩

theorem Has.watchLoop {p : Path} {e : Event} : ∀ {l : List (Comp × Bool)} {s : St}, Has x fd s → Has x fd (walkLoop (watchKid N E p e) s l).1
  | [], _, h => h
  | y :: l, s, h => by
    have h1 : Has x fd (watchKid N E p e s y).1 := by
      have := h.singlewatch (N := N) (E := E) (join p y.1) e .ndir y.2
      unfold watchKid
      split
      · rename_i heq; rw [heq] at this; exact this
      · exact this
    unfold walkLoop
    split
    · rename_i heq
      rw [heq] at h1
      exact h1.watchLoop
    · rename_i heq
      rw [heq] at h1
      exact h1

theorem Has.watch {s : St} (h : Has x fd s) (p : Path) (e : Event) (d : Bool) : Has x fd (watch N E s p e d).1 := by
  have h1 := h.singlewatch (N := N) (E := E) p e .dir d
  unfold Trg.watch
  split
  · rename_i heq; rw [heq] at h1; exact h1
  · rename_i heq; rw [heq] at h1; exact h1
  · rename_i heq
    rw [heq] at h1
    split
    · unfold walk
      split
      · exact h1
      · exact h1.watchLoop
    · exact h1

theorem Has.Watch {s : St} (h : Has x fd s) (p : Path) (e : Event) : Has x fd (Watch N E s p e).1 := by
  unfold Trg.Watch
  split
  · exact h
  · exact h.watch _ _ _

theorem Has.singleunwatch {s : St} (h : Has x fd s) {p : Path} (hp : p ≠ x) (m : Mode) : Has x fd (singleunwatch N E s p m).1 := by
  obtain ⟨w, h1, h2⟩ := h
  exact ⟨w, by rw [(singleunwatch_other N E s p m hp).1]; exact h1, h2⟩

theorem Has.unwatchLoop {p : Path} (hk : ∀ c, join p c ≠ x) : ∀ {l : List (Comp × Bool)} {s : St}, Has x fd s →
    Has x fd (walkLoop (unwatchKid N E p) s l).1
  | [], _, h => h
  | y :: l, s, h => by
    have h1 : Has x fd (unwatchKid N E p s y).1 := by
      have := h.singleunwatch (N := N) (E := E) (hk y.1) .ndir
      unfold unwatchKid
      split
      · rename_i heq; rw [heq] at this; exact this
      · exact this
    unfold walkLoop
    split
    · rename_i heq
      rw [heq] at h1
      exact h1.unwatchLoop hk
    · rename_i heq
      rw [heq] at h1
      exact h1

theorem Has.unwatch {s : St} (h : Has x fd s) {p : Path} (hp : p ≠ x) (hk : ∀ c, join p c ≠ x) (d : Bool) : Has x fd (unwatch N E s p d).1 := by
  unfold Trg.unwatch
  split
  · have h1 : Has x fd (walk E p (unwatchKid N E p) s).1 := by
      unfold walk
      split
      · exact h
      · exact h.unwatchLoop hk
    split
    · rename_i heq
      rw [heq] at h1
      exact h1.singleunwatch hp _
    · exact h1
  · exact h.singleunwatch hp _

theorem Has.Unwatch {s : St} (h : Has x fd s) {p : Path} (hp : p ≠ x) (hk : ∀ c, join p c ≠ x) : Has x fd (Unwatch N E s p).1 := by
  unfold Trg.Unwatch
  split
  · exact h
  · exact h.unwatch hp hk _

theorem Has.Rewatch {s : St} (h : Has x fd s) {p : Path} (hp : p ≠ x) (hk : ∀ c, join p c ≠ x) (e : Event) : Has x fd (Rewatch N E s p e).1 := by
  unfold Trg.Rewatch
  split
  · exact h
  · rename_i d _
    have h1 := h.unwatch (N := N) (E := E) hp hk d
    split
    · rename_i heq
      rw [heq] at h1
      exact h1.watch _ _ _
    · rename_i heq
      rw [heq] at h1
      exact h1

/-- The path of a call is neither `x` nor its directory. -/
def Away (x : Path) : Call → Prop
  | .watch p _ | .unwatch p | .rewatch p _ _ => p ≠ x ∧ p ≠ x.dropLast
  | _ => True

theorem Away.kids {p : Path} (hlen : 2 ≤ x.length) (h : p ≠ x.dropLast) (c : Comp) : join p c ≠ x := by
  rintro rfl
  unfold join at h hlen
  split at h
  · rename_i hp
    rw [if_pos hp] at hlen
    simp at hlen
  · rename_i hp
    rw [List.dropLast_concat] at h
    exact h rfl

theorem Has.serves {s s' : St} {c : Call} {ok : Bool} (h : Has x fd s) (hlen : 2 ≤ x.length) (ha : Away x c) (hs : Serves N E s c ok s') :
    Has x fd s' := by
  cases hs with
  | watch p e hsk => exact h.Watch p e
  | rewatch p old new hsk => exact h.Rewatch ha.1 (Away.kids hlen ha.2) new
  | unwatch p hsk => exact h.Unwatch ha.1 (Away.kids hlen ha.2)

/-! ### Notifications -/

theorem Has.renew {s : St} (h : Has x fd s) (hr : ∀ p, E.reg p = true) (p : Path) (w : W) (ge : Event) : Has x fd (renew N E s p w ge) := by
  unfold Trg.renew
  split
  · split
    · exact h
    · rw [if_pos (hr p)]
      exact h
  · exact h

/-- A scan reports nothing about an entry that is in the table. -/
theorem scan_has (hr : ∀ p, E.reg p = true) {p : Path} {w : W} : ∀ {l : List (Comp × Bool)} {n : St × List Ev}, Has x fd n.1 → (∀ ev ∈ n.2, ev.path ≠ x) →
    Has x fd (walkLoop (scanKid N E p w) n l).1.1 ∧ ∀ ev ∈ (walkLoop (scanKid N E p w) n l).1.2, ev.path ≠ x
  | [], _, h, h' => ⟨h, h'⟩
  | y :: l, n, h, h' => by
    have h1 : Has x fd (scanKid N E p w n y).1.1 := by
      have := h.singlewatch (N := N) (E := E) (join p y.1) w.eDir .ndir y.2
      unfold scanKid
      simp only
      split <;> (rename_i heq; rw [heq] at this; exact this)
    have h2 : ∀ ev ∈ (scanKid N E p w n y).1.2, ev.path ≠ x := by
      by_cases hq : join p y.1 = x
      · obtain ⟨w', hw', _⟩ := h
        have h3 := (singlewatch_old N E n.1 (join p y.1) w.eDir .ndir y.2 (hr _) (by rw [hq]; exact hw')).1
        unfold scanKid
        simp only
        split <;> (rename_i heq; rw [heq] at h3) <;> first | exact h' | (cases h3; done)
      · unfold scanKid
        simp only
        split
        · intro ev hev
          simp only [List.mem_append] at hev
          rcases hev with hev | hev
          · exact h' ev hev
          · split at hev
            · rw [List.mem_singleton] at hev
              rw [hev]; exact hq
            · cases hev
        · exact h'
        · intro ev hev
          simp only [List.mem_append] at hev
          rcases hev with hev | hev
          · exact h' ev hev
          · split at hev
            · rw [List.mem_singleton] at hev
              rw [hev]; exact hq
            · cases hev
        · exact h'
    unfold walkLoop
    split
    · rename_i heq
      rw [heq] at h1 h2
      exact scan_has hr h1 h2
    · rename_i heq
      rw [heq] at h1 h2
      exact ⟨h1, h2⟩

/-- A notification that is not about a removal leaves the entry of `x` alone; if it is one of another entry, or `x` is a directory, it reports nothing about `x`. -/
theorem Has.process {s : St} (h : Has x fd s) (hr : ∀ p, E.reg p = true) (p : Path) {ge : Event} (hge : ge &&& (N.nRemove ||| N.nRename) = 0) :
    Has x fd (process N E s p ge).1 ∧ (p ≠ x → ∀ ev ∈ (process N E s p ge).2, ev.path ≠ x) := by
  have hge' : ge &&& (N.nRename ||| N.nRemove) = 0 := by rw [BitVec.or_comm]; exact hge
  unfold Trg.process
  split
  · exact ⟨h, fun _ => nofun⟩
  · rename_i w hw
    simp only
    have h1 := h.renew (N := N) hr p w ge
    split
    · exact ⟨h1, fun _ => nofun⟩
    · rw [if_neg (by rw [hge]; exact fun h => h rfl)]
      split
      · unfold dir
        rw [if_neg (by rw [hge']; exact fun h => h rfl)]
        split
        · unfold walk
          split
          · exact ⟨h1, fun _ => nofun⟩
          · rename_i l _
            have := scan_has (N := N) (p := p) (w := w) hr (l := l) (n := (Trg.renew N E s p w ge, [])) h1 nofun
            exact ⟨this.1, fun _ => this.2⟩
        · exact ⟨h1, fun _ => nofun⟩
      · refine ⟨h1, fun hp ev hev => ?_⟩
        rw [List.mem_singleton] at hev
        rw [hev]
        exact hp
end

end Trg
end Verif
