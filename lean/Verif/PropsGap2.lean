/-
What the watchers do while a call runs: inotify keeps a watch while it is changed, the others do not (C89).
-/
import Verif.PropsGap
import Verif.PropsInotify3
import Verif.PropsFsevents2
import Verif.PropsReaddcw
import Verif.PropsTrigger2

namespace Verif
open GoMap

/-! ### inotify -/

namespace Inotify
open Spec.Inotify

/-- What the kernel guarantees about its table. -/
def KOk (s : St) : Prop := s.watches.Nodup ∧ ∀ wd k, s.watches.get? wd = some k → wd < s.next

/-- The kernel's watch `wd` is on the inode and reports everything that `E` stands for. -/
def Reports (wd ino : Nat) (E : Event) (s : St) : Prop :=
  ∃ k, s.watches.get? wd = some k ∧ k.inode = ino ∧ ∀ b ∈ kernelBits, (E, b) ∈ means → b ⊑ k.mask

/-- No running call gives up `E` for `wd` (`Kept`), and the inode exists. -/
def Undisturbed (wd ino : Nat) (p : Path) (E : Event) (s : PSt) : Prop := Kept wd p E s ∧ ∃ q, s.k.inode q = some ino

theorem addWatch_ok {s k' : St} {p : Path} {m : Event} {wd : Nat} (hs : KOk s) (h : addWatch s p m = some (wd, k')) :
    KOk k' ∧ ∃ ino, k'.watches = s.watches.set wd ⟨ino, m, p⟩ ∧
      ∀ k, s.watches.get? wd = some k → k.inode = ino := by
  unfold addWatch at h
  split at h
  · cases h
  · split at h
    · cases h
    · next ino hi =>
      split at h
      · next wd' hw =>
        simp only [Option.some.injEq, Prod.mk.injEq] at h
        obtain ⟨rfl, rfl⟩ := h
        obtain ⟨k, hk, hki⟩ := wdOf_some hs.1 hw
        refine ⟨⟨hs.1.set _ _, ?_⟩, ino, rfl, ?_⟩
        · intro wd k' hk'
          simp only [GoMap.get?_set] at hk'
          split at hk'
          · next h => subst h; exact hs.2 _ _ hk
          · exact hs.2 _ _ hk'
        · intro k1 hk1
          rw [hk] at hk1
          rw [← Option.some.inj hk1]
          exact hki
      · simp only [Option.some.injEq, Prod.mk.injEq] at h
        obtain ⟨rfl, rfl⟩ := h
        refine ⟨⟨hs.1.set _ _, ?_⟩, ino, rfl, ?_⟩
        · intro wd k' hk'
          simp only [GoMap.get?_set] at hk'
          split at hk'
          · next h => subst h; exact Nat.lt_succ_self _
          · exact Nat.lt_succ_of_lt (hs.2 _ _ hk')
        · intro k1 hk1
          exact absurd (hs.2 _ _ hk1) (Nat.lt_irrefl _)

theorem KOk.step {s s' : PSt} {l : List Raw} (h : KOk s.k) (hs : PStep s l s') : KOk s'.k := by
  cases hs with
  | fs k' hf =>
    cases hf with
    | mk f keep hk =>
      refine ⟨List.Nodup.sublist (List.filter_sublist.map Prod.fst) h.1, ?_⟩
      intro wd k hg
      exact h.2 _ _ ((get?_filter h.1 _ _ _).1 hg).1
  | reorder k' _ hf => cases hf; exact h
  | add q e wd k' hc he ha => exact (addWatch_ok h ha).1
  | rm q wd w l hc hf hl =>
    refine ⟨h.1.del _, ?_⟩
    intro wd' k hg
    simp only [GoMap.get?_del] at hg
    split at hg
    · cases hg
    · exact h.2 _ _ hg
  | _ => exact h

theorem PReach.kok {s : PSt} (h : PReach s) : KOk s.k := by
  obtain ⟨f, n, tr, h⟩ := h
  induction h with
  | refl _ => exact ⟨by simp [PSt.init, GoMap.Nodup], by simp [PSt.init, GoMap.get?]⟩
  | step _ hs _ ih => exact ih.step hs

theorem Reports.step {wd ino : Nat} {p : Path} {E : Event} {s s' : PSt} {l : List Raw} (hk : KOk s.k)
    (h : Reports wd ino E s.k) (hs : PStep s l s') (hu : Undisturbed wd ino p E s') : Reports wd ino E s'.k := by
  obtain ⟨k, h1, h2, h3⟩ := h
  cases hs with
  | fs k' hf =>
    cases hf with
    | mk f keep hkeep =>
      refine ⟨k, (get?_filter hk.1 _ _ _).2 ⟨h1, ?_⟩, h2, h3⟩
      simp only [h2]
      exact (hkeep ino).2 hu.2
  | reorder k' _ hf => cases hf; exact ⟨k, h1, h2, h3⟩
  | add q e wd' k' hc he ha =>
    obtain ⟨_, ino', hw, hi⟩ := addWatch_ok hk ha
    by_cases hwd : wd' = wd
    · subst hwd
      obtain ⟨rfl, hE⟩ := hu.1.2 q e rfl
      refine ⟨⟨ino', encode e, q⟩, ?_, ?_, ?_⟩
      · simp only [hw, GoMap.get?_set, if_true]
      · rw [← hi k h1]; exact h2
      · intro b hb hm
        exact ((C32_mask e he).2 b hb).2 ⟨E, hE, hm⟩
    · refine ⟨k, ?_, h2, h3⟩
      simp only [hw, GoMap.get?_set, if_neg hwd]
      exact h1
  | rm q wd' w l hc hf hl =>
    have : ¬ wd' = wd := by rintro rfl; exact hu.1.1 rfl
    refine ⟨k, ?_, h2, h3⟩
    simp only [GoMap.get?_del, if_neg this]
    exact h1
  | _ => exact ⟨k, h1, h2, h3⟩

/-- **C89 on Linux.**  In every execution in which no call gives up `E` for the path of the descriptor and the inode exists, the kernel's
watch stays on the inode and reports everything that `E` stands for, at every moment: also while Watch or Rewatch change its mask, before
and after the watcher's own table is changed.  (What the kernel reports then reaches the tree: C68.) -/
theorem C89_linux {s s' : PSt} (hs : PReach s) {tr : List Raw} {wd ino : Nat} {p : Path} {E : Event}
    (hr : Reports wd ino E s.k) (h : Runs (Undisturbed wd ino p E) s tr s') : Reports wd ino E s'.k := by
  suffices Reports wd ino E s'.k ∧ KOk s'.k from this.1
  induction h with
  | refl _ => exact ⟨hr, hs.kok⟩
  | step _ hst hu ih => exact ⟨ih.1.step ih.2 hst hu, ih.2.step hst⟩

namespace GapEx

/-- `/d` has inode 7. -/
def fs : Path → Option Nat := fun p => if p = [['d']] then some 7 else none
/-- After Watch of `/d` for Create. -/
def k1 : St := (watch false { inode := fs } [['d']] create).1
def g1 : PSt := { k := k1, cons := [.idle, .idle] }
/-- In the middle of Rewatch of `/d` for Create and Write. -/
def g2 : PSt := { g1 with k := { k1 with watches := [(1, ⟨7, encode (create ||| write), [['d']]⟩)] }, caller := .added 1 [['d']] (create ||| write) }

theorem reach1 : PReach g1 := by
  refine ⟨fs, 2, _, .step (.step (.refl trivial) (.add [['d']] create 1 { inode := fs, watches := [(1, ⟨7, encode create, [['d']]⟩)], next := 2 }
    rfl (by decide) ?_) trivial) (.table 1 [['d']] create rfl) trivial⟩
  unfold addWatch
  rw [if_neg (by decide)]
  rfl

theorem runs2 : Runs (Undisturbed 1 7 [['d']] create) g1 [] g2 := by
  refine .step (l := []) (tr := []) (.refl ⟨⟨by simp [g1], by simp [g1]⟩, [['d']], by decide⟩)
    (.add [['d']] (create ||| write) 1 { k1 with watches := [(1, ⟨7, encode (create ||| write), [['d']]⟩)] } rfl (by decide) ?_)
    ⟨⟨by simp [g2], ?_⟩, [['d']], by decide⟩
  · unfold addWatch
    rw [if_neg (by decide)]
    rfl
  · intro q e h
    simp only [g2, Caller.added.injEq, true_and] at h
    obtain ⟨rfl, rfl⟩ := h
    exact ⟨rfl, Event.sub_or_left _ _⟩

end GapEx

/-- Non-trivial case: in the middle of a Rewatch of another channel. -/
example : PReach GapEx.g1 ∧ Reports 1 7 create GapEx.g1.k ∧ Runs (Undisturbed 1 7 [['d']] create) GapEx.g1 [] GapEx.g2 ∧
    GapEx.g2.k.m.get? 1 = some ⟨[['d']], create⟩ ∧ GapEx.g2.k.watches ≠ GapEx.g1.k.watches :=
  ⟨GapEx.reach1, ⟨⟨7, encode create, [['d']]⟩, by decide, rfl,
    fun b hb hm => ((C32_mask create (by decide)).2 b hb).2 ⟨create, Event.Sub.refl _, hm⟩⟩, GapEx.runs2, by decide, by decide⟩

end Inotify

/-! ### kqueue and FEN -/

namespace Trg

/-- **C89 is false on kqueue and FEN.**  Whenever the set of a watched file is changed (some other channel asked for more, or for
less), the native watch is removed first: between the two parts of Rewatch nothing is watched. -/
theorem C89_trigger_refuted (N : Native) {E : Env} {s : St} {p : Path} {w : W} {e : Event} (hst : E.stat p = some false)
    (hu : E.unreg p = true) (ho : E.opn p = .ok) (hr : E.reg p = true) (hw : s.lkp.get? p = some w) (hk : w.eNonDir = 0) :
    ∃ mid, unwatch N E s p false = (mid, .ok) ∧ mid.nat.get? p = none ∧
      Rewatch N E s p e = ((watch N E mid p e false).1, .ok) ∧
      (Rewatch N E s p e).1.nat.get? p = some (N.encode e false) := by
  have h1 : unwatch N E s p false = (del N { s with lkp := s.lkp.set p (w.sub .dir), nat := s.nat.del p } p (w.sub .dir), .ok) := by
    simp only [unwatch, singleunwatch, hw, hu, W.sub, hk, if_true, Bool.false_eq_true, if_false]
    simp
  refine ⟨_, h1, ?_, ?_, ?_⟩
  · simp only [del]
    split <;> simp [GoMap.get?_del]
  · simp only [Rewatch, hst, h1]
  · simp only [Rewatch, hst, h1, watch, singlewatch, del, GoMap.get?_del, if_true, ho, hr, Bool.false_eq_true, if_false,
      W.add, GoMap.get?_set, W.all, Option.some.injEq]
    congr 1
    simp

/-- Non-trivial case: a file watched for Write, Rewatch for Write and Remove. -/
example : ∃ (E : Env) (s : St) (w : W), E.stat [['f']] = some false ∧ E.unreg [['f']] = true ∧ E.opn [['f']] = .ok ∧
    E.reg [['f']] = true ∧ s.lkp.get? [['f']] = some w ∧ w.eNonDir = 0 ∧ s.nat.get? [['f']] = some (kqueue.encode 0x400 false) ∧
    (Rewatch kqueue E s [['f']] 0x600).2 = .ok := by
  let E : Env := { stat := fun _ => some false, opn := fun _ => .ok, reg := fun _ => true, unreg := fun _ => true, list := fun _ => .ok [] }
  exact ⟨E, (Watch kqueue E {} [['f']] 0x400).1, ⟨0, false, 0x400, 0⟩, rfl, rfl, rfl, rfl, by decide, rfl, by decide, by decide⟩

end Trg

/-! ### FSEvents -/

namespace Fsevents

theorem unflushed {w : Watch} (hw : w.flushed = false) : ∀ {evs : List FSEvent}, (∀ ev ∈ evs, ev.flags &&& historyDone = 0) →
    (w.dispatch evs).2 = []
  | [], _ => rfl
  | ev :: evs, h => by
    have h1 : w.dispatch1 ev = (w, []) := by
      unfold Watch.dispatch1
      rw [if_neg (by simp [h ev (by simp)]), if_pos hw]
    simp only [Watch.dispatch, h1, List.nil_append]
    exact unflushed hw fun x hx => h x (by simp [hx])

/-- **C89 is false on macOS** when a Watch moves the OS watch up to a directory above: the old stream is stopped before the
new one starts, and whatever the new one gets before the end of the history is dropped. -/
theorem C89_fsevents_refuted {t : Table} {p p' : Path} {w : Watch} {e e' : Event} (hne : p ≠ p') (hw : t.get? p = some w)
    (hf : t.get? p' = none) :
    ∃ mid t' w', unwatch t p = (mid, true) ∧ mid.get? p = none ∧ mid.get? p' = none ∧
      recRewatch true t p p' e e' = (t', true) ∧ t' = (watch true mid p' e' true).1 ∧ t'.get? p' = some w' ∧
      ∀ evs : List FSEvent, (∀ ev ∈ evs, ev.flags &&& historyDone = 0) → (w'.dispatch evs).2 = [] := by
  have h1 : unwatch t p = (t.del p, true) := by simp only [unwatch, hw]
  have h2 : (t.del p).get? p' = none := by simp [GoMap.get?_del, hne, hf]
  refine ⟨t.del p, (t.del p).set p' { path := PathStr.str p', events := e', isrec := true },
    { path := PathStr.str p', events := e', isrec := true }, h1, by simp [GoMap.get?_del], h2, ?_, ?_, by simp [GoMap.get?_set], ?_⟩
  · simp only [recRewatch, if_neg hne, hf, h1, watch, h2, Bool.true_eq_false, if_false, if_true]
  · simp only [watch, h2, if_true]
  · exact fun evs h => unflushed rfl h

/-- Non-trivial case: the watch of `/a/b` is moved to `/a` while channel 2 waits for events on `/a/b`. -/
example : ∃ w : Watch, GoMap.get? (serve true [] (.watch [Rec.Ex.a, Rec.Ex.b] Rec.Ex.CW)).1 [Rec.Ex.a, Rec.Ex.b] = some w ∧
    GoMap.get? (serve true [] (.watch [Rec.Ex.a, Rec.Ex.b] Rec.Ex.CW)).1 [Rec.Ex.a] = none ∧
    Rec.Ex.s2.world.log.head? = some (.recRewatch [Rec.Ex.a, Rec.Ex.b] [Rec.Ex.a] Rec.Ex.CW Rec.Ex.CW, true) :=
  ⟨{ path := PathStr.str [Rec.Ex.a, Rec.Ex.b], events := Rec.Ex.CW, isrec := false }, rfl, rfl, by decide⟩

end Fsevents

/-! ### ReadDirectoryChangesW -/

namespace Dcw

theorem closeOne_reads (s : St) (g : Option Nat) {r : Read} (h : r ∈ (closeOne s g).1.reads) :
    r ∈ s.reads ∧ ∀ x, g = some x → (s.grips x).handle ≠ some r.h := by
  unfold closeOne at h
  split at h
  · exact ⟨h, by simp⟩
  · next g =>
    split at h
    · next hn => exact ⟨h, by intro x hx; cases hx; rw [hn]; simp⟩
    · next h' hh =>
      simp only [List.mem_filter, decide_eq_true_eq] at h
      refine ⟨h.1, ?_⟩
      intro x hx
      cases hx
      rw [hh]
      intro hc
      exact h.2 (Option.some.inj hc).symm

/-- The second handle is closed too, unless it is the first. -/
theorem closeOne_handle (s : St) (g : Option Nat) (x : Nat) :
    ((closeOne s g).1.grips x).handle = if g = some x then none else (s.grips x).handle := by
  unfold closeOne
  split
  · simp
  · next g =>
    split
    · next hn =>
      split
      · next h => cases h; exact hn
      · rfl
    · simp only [St.setGrip, upd]
      by_cases hx : x = g
      · subst hx; simp
      · rw [if_neg hx, if_neg (by simpa using Ne.symm hx)]

/-- **C89 is false on Windows.**  Whenever the set of a watch is changed, the handles are closed and no read is outstanding for them
when Rewatch returns nil: the kernel watches nothing for that path until the loop has received both packets and created the handles
again. -/
theorem C89_windows_refuted {s s' : St} {p : Path} {w : Nat} {old new : Event} {isrec : Bool} (hw : nonState s p = some w)
    (h : rewatch s p old new isrec = some (s', true)) :
    ∀ r ∈ s'.reads, ∀ i g, (s.wds w).slot i = some g → (s.grips g).handle ≠ some r.h := by
  intro r hr i g hg
  unfold rewatch at h
  split at h
  · rw [hw] at h
    simp only at h
    split at h
    · split at h
      · simp only [Option.some.injEq, Prod.mk.injEq, and_true] at h
        subst h
        simp only [closeHandle] at hr
        obtain ⟨h1, h2⟩ := closeOne_reads _ _ hr
        obtain ⟨_, h4⟩ := closeOne_reads _ _ h1
        simp only [St.setWd, upd, if_true] at h2 h4
        cases i with
        | false => exact h4 g hg
        | true =>
          intro hc
          by_cases h0 : (s.wds w).g0 = some g
          · exact h4 g h0 hc
          · refine h2 g hg ?_
            rw [closeOne_handle, if_neg h0]
            exact hc
      · simp at h
    · cases h
  · simp at h

namespace GapEx

/-- Channel 1 asked for changed sizes in `/a`; one read is outstanding. -/
def s1 : St := (watch St.init [['a']] size false {} {}).1

theorem hist1 : Hist [.watch [['a']] size false true] s1 :=
  Hist.nil.snoc (Step.watch St.init [['a']] size false {} {})

end GapEx

/-- Non-trivial case: a second channel asks for changed attributes; before there is a read for sizes, after it there is none. -/
example : Hist [.watch [['a']] size false true] GapEx.s1 ∧ nonState GapEx.s1 [['a']] = some 0 ∧
    GapEx.s1.reads = [⟨0, 0, size, false⟩] ∧
    (rewatch GapEx.s1 [['a']] size (size ||| attributes) false).map (fun x => (x.1.reads, x.2)) = some ([], true) :=
  ⟨GapEx.hist1, by decide, by decide, by decide⟩

end Dcw
end Verif
