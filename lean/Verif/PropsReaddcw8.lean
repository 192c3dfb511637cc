/-
C123: calls of the Windows watcher that return an error.
-/
import Verif.PropsReaddcw3

namespace Verif
namespace Dcw
open Platform (readdcw)

/-- `unwatch` (watcher_readdcw.go:521-548) for a directory that has no attributes any more, where PostQueuedCompletionStatus succeeds
`k` times and then fails: the packets posted before stay in the queue, the state of the entry is cleared (540-541).  If there are not
more than `k` packets to post nothing fails. -/
def unwatchPost (s : St) (p : Path) (k : Nat) : St × Bool :=
  match nonState s p with
  | none => (s, false)
  | some w =>
    let s1 := s.setWd w { s.wds w with filter := (s.wds w).filter ||| stUnwatch }
    let gs := (s.wds w).g0.toList ++ (s.wds w).g1.toList
    if k < gs.length then
      (({ s1 with queue := s1.queue ++ gs.take k } : St).setWd w { s1.wds w with filter := (s1.wds w).filter &^ stUnwatch }, false)
    else ({ s1 with queue := s1.queue ++ gs }, true)

/-- Otherwise it is the function of the model. -/
theorem unwatchPost_all (s : St) (p : Path) {k : Nat} (hk : 2 ≤ k) : unwatchPost s p k = unwatch s p true := by
  unfold unwatchPost unwatch
  cases nonState s p with
  | none => rfl
  | some w =>
    simp only
    rw [if_neg]
    · simp [List.append_assoc]
    · cases (s.wds w).g0 <;> cases (s.wds w).g1 <;> simp <;> omega

/-- Reads and packets with the memory of a handle. -/
def uses (s : St) (g : Nat) : Nat := inUse s g + s.queue.count g

/-- The handle is one of the entry. -/
def Of (wd : Wd) (g : Nat) : Prop := wd.g0 = some g ∨ wd.g1 = some g

/-- Entries, sets and handles are as they were. -/
def Stays (s s' : St) : Prop :=
  s'.m = s.m ∧ ∀ p w, s.m.get? p = some w → s'.wds w = s.wds w ∧ ∀ g, Of (s.wds w) g → s'.grips g = s.grips g

/-- The same, and what is read with the handles. -/
def Kept (s s' : St) : Prop :=
  Stays s s' ∧ s'.loop = s.loop ∧ ∀ p w g, s.m.get? p = some w → Of (s.wds w) g → uses s' g = uses s g

theorem Kept.refl (s : St) : Kept s s := ⟨⟨rfl, fun _ _ _ => ⟨rfl, fun _ _ => rfl⟩⟩, rfl, fun _ _ _ _ _ => rfl⟩

/-- C123 in full: in the executions of `CHist`, a call that returns an error changes nothing for the directories watched. -/
def C123 : Prop :=
  ∀ (ops : List Op) (s : St), CHist ops s →
    (∀ p e isrec a0 a1 s', LegalOp (asked ops) (.watch p e isrec true) → s.m.get? p = none → a0.Calm → a1.Calm →
      watch s p e isrec a0 a1 = (s', false) → Kept s s') ∧
    (∀ p old new isrec s', rewatch s p old new isrec = some (s', false) → Kept s s') ∧
    (∀ p k s', unwatchPost s p k = (s', false) → Kept s s')

theorem uses_tok (s : St) (g : Nat) : tok s g = uses s g + (if s.loop = .got g then 1 else 0) := by
  unfold tok uses inUse
  omega

theorem of_slots {wd : Wd} {g : Nat} : Of wd g ↔ g ∈ wd.slots := by
  rw [mem_slots]
  constructor
  · rintro (h | h)
    · exact ⟨false, h⟩
    · exact ⟨true, h⟩
  · rintro ⟨i, h⟩
    cases i
    · exact .inl h
    · exact .inr h

theorem unwatch_undone {F : Event} (h : F &&& onlyStates = 0) : (F ||| stUnwatch) &^ stUnwatch = F := by
  apply BitVec.eq_of_getLsbD_eq
  intro i hi
  have h1 : (F &&& onlyStates).getLsbD i = false := by rw [h]; simp
  rw [BitVec.getLsbD_and, st_bits i hi] at h1
  rw [Event.bit_andNot, BitVec.getLsbD_or, un_bits i hi]
  cases hb : F.getLsbD i with
  | false => cases hc : (i == 29) <;> rfl
  | true =>
    rw [hb] at h1
    have h2 : ¬ 28 ≤ i := by simpa using h1
    have h3 : (i == 29) = false := by simp; omega
    rw [h3]
    rfl

/-- An Unwatch that returns an error: not more than one packet is new, and none if the first posting failed. -/
theorem unwatchPost_fail {s s' : St} {p : Path} {k : Nat} (h : unwatchPost s p k = (s', false)) :
    ∃ l : List Nat, s' = { s with queue := s.queue ++ l } ∧ l.length ≤ 1 ∧ (k = 0 → l = []) ∧
      (∀ g ∈ l, ∃ w, s.m.get? p = some w ∧ Of (s.wds w) g) := by
  unfold unwatchPost at h
  cases hn : nonState s p with
  | none =>
    rw [hn] at h
    cases h
    exact ⟨[], by simp, by simp, fun _ => rfl, by simp⟩
  | some w =>
    rw [hn] at h
    simp only at h
    split at h
    · rename_i hk
      have hm : s.m.get? p = some w ∧ (s.wds w).filter &&& onlyStates = 0 := by
        unfold nonState at hn
        cases hg : s.m.get? p with
        | none => rw [hg] at hn; cases hn
        | some w' =>
          rw [hg] at hn
          simp only at hn
          split at hn
          · cases hn
          · rename_i h1
            cases hn
            exact ⟨rfl, by simpa using h1⟩
      refine ⟨((s.wds w).g0.toList ++ (s.wds w).g1.toList).take k, ?_, ?_, ?_, ?_⟩
      · have h1 := (Prod.mk.inj h).1
        rw [← h1]
        simp only [St.setWd, upd_upd, upd_same, unwatch_undone hm.2]
        have : upd s.wds w (s.wds w) = s.wds := by
          funext x; unfold upd; split
          · rename_i e; rw [e]
          · rfl
        simp only [this]
      · rw [List.length_take]
        have : ((s.wds w).g0.toList ++ (s.wds w).g1.toList).length ≤ 2 := by
          cases (s.wds w).g0 <;> cases (s.wds w).g1 <;> simp
        omega
      · rintro rfl; simp
      · intro g hg
        have := List.mem_of_mem_take hg
        refine ⟨w, hm.1, ?_⟩
        simpa [Of] using this
    · cases h

/-- **C123 (partial).**  In the executions of C60 to C62, a Watch that returns an error because a directory cannot be opened, and a
Rewatch that returns an error, change nothing for the directories watched; nor does an Unwatch, unless it posted a packet before the
error: then entries, sets and handles are as they were and there is one more packet, for the first handle of the directory.
Missing: that this packet has no effect.  It has (`C123_refuted`). -/
theorem C123_partial {ops : List Op} {s : St} (hs : CHist ops s) :
    (∀ p e isrec a0 a1 s', LegalOp (asked ops) (.watch p e isrec true) → s.m.get? p = none → a0.Calm → a1.Calm →
      watch s p e isrec a0 a1 = (s', false) → Kept s s') ∧
    (∀ p old new isrec s', rewatch s p old new isrec = some (s', false) → Kept s s') ∧
    (∀ p k s', unwatchPost s p k = (s', false) → Stays s s' ∧ (k = 0 → Kept s s') ∧
      ∃ l : List Nat, s' = { s with queue := s.queue ++ l } ∧ l.length ≤ 1) := by
  have hi := hs.inv
  refine ⟨?_, ?_, ?_⟩
  · intro p e isrec a0 a1 s' hl hm h0 h1 h
    obtain ⟨hfp, hne, hv⟩ := hl
    unfold Dcw.watch at h
    rw [if_pos hv, hm] at h
    simp only at h
    generalize hs1 : { s.setWd s.nw { filter := e, recursive := isrec, path := p } with nw := s.nw + 1 } = s1 at h
    have hb1 : Base s1 := by rw [← hs1]; exact Base.newWd hi.base _ rfl
    have hF : s1.wds s.nw = { filter := e, recursive := isrec, path := p } := by
      rw [← hs1]; simp only [St.setWd]; rw [upd_same]
    have hslot : (s1.wds s.nw).slots = [] := by rw [hF]; rfl
    have hlt : s.nw < s1.nw := by rw [← hs1]; exact Nat.lt_succ_self _
    rcases recreate_calm hb1 hlt (by rw [hF]) hslot (by rw [hF]; exact (C58_accepted e hv).2.2.1) h0 h1 with
      ⟨s2, hr, R⟩ | ⟨s2, hr, R⟩
    · rw [hr] at h
      cases h
    · rw [hr] at h
      simp only [Bool.false_eq_true, if_false] at h
      cases h
      have hloop : s'.loop = s.loop := by rw [R.loop, ← hs1]; rfl
      have hgr : ∀ p w g, s.m.get? p = some w → Of (s.wds w) g → s'.grips g = s.grips g ∧ tok s' g = tok s g := by
        intro q w g hq hg
        have h2 := hi.base.tab q w hq
        have h3 := hi.base.slot w h2.1 g (of_slots.1 hg)
        have h4 := R.rest g (by rw [← hs1]; exact h3.1) (by rw [hslot]; simp)
        rw [h4.1, h4.2, ← hs1]
        exact ⟨rfl, rfl⟩
      refine ⟨⟨by rw [R.m, ← hs1]; rfl, fun q w hq => ⟨?_, fun g hg => (hgr q w g hq hg).1⟩⟩, hloop, fun q w g hq hg => ?_⟩
      · have h2 := hi.base.tab q w hq
        have hne' : w ≠ s.nw := by omega
        rw [R.wds w hne', ← hs1]
        simp only [St.setWd]
        rw [upd_ne _ _ hne']
      · have h2 := (hgr q w g hq hg).2
        rw [uses_tok, uses_tok, hloop] at h2
        omega
  · intro p old new isrec s' h
    unfold rewatch at h
    split at h
    · cases hn : nonState s p with
      | none => rw [hn] at h; cases h; exact Kept.refl s
      | some w =>
        rw [hn] at h
        simp only at h
        split at h
        · have hb1 : Base (s.setWd w { s.wds w with filter := stRewatch ||| new, recursive := isrec }) := Base.setWd hi.base w _ rfl rfl
          have h1 := closeOne_base hb1 ((s.setWd w { s.wds w with filter := stRewatch ||| new, recursive := isrec }).wds w).g0
          have h2 := closeOne_base h1.1 ((s.setWd w { s.wds w with filter := stRewatch ||| new, recursive := isrec }).wds w).g1
          have h3 : (closeHandle (s.setWd w { s.wds w with filter := stRewatch ||| new, recursive := isrec }) w).2 = true := by
            unfold closeHandle
            simp only
            rw [h1.2.2.1, h2.2.2.1]
            rfl
          rw [if_pos h3] at h
          cases h
        · cases h
    · cases h
      exact Kept.refl s
  · intro p k s' h
    obtain ⟨l, h1, h2, h3, _⟩ := unwatchPost_fail h
    refine ⟨by rw [h1]; exact ⟨rfl, fun _ _ _ => ⟨rfl, fun _ _ => rfl⟩⟩, fun hk => ?_, l, h1, h2⟩
    rw [h1, h3 hk, List.append_nil]
    exact Kept.refl s

namespace PostEx
open Ex2 (p)

/-- Channels ask for Create: a handle for files and one for directories. -/
def la : List Act := [.watch p readdcw.create false {} {}]

/-- The hypotheses are met: a Watch of another directory that cannot be opened, a Rewatch while one is under way, an Unwatch. -/
example : CHist (cfinal la).2 (cfinal la).1 ∧ (watch (cfinal la).1 [['q']] readdcw.write false { create := false } {}).2 = false ∧
    (unwatchPost (cfinal la).1 p 0).2 = false ∧ (unwatchPost (cfinal la).1 p 1).2 = false ∧ (unwatchPost (cfinal la).1 p 2).2 = true :=
  ⟨cfinal_hist la, by decide, by decide, by decide, by decide⟩
example : CHist (cfinal (la ++ [.rewatch p readdcw.create readdcw.write false])).2 (cfinal (la ++ [.rewatch p readdcw.create readdcw.write false])).1 ∧
    (rewatch (cfinal (la ++ [.rewatch p readdcw.create readdcw.write false])).1 p readdcw.write readdcw.rename false).map (·.2) = some false :=
  ⟨cfinal_hist _, by decide⟩
end PostEx

/-- **C123 is false of the code**: Unwatch posts the packet of the first handle, and returns an error as the second cannot be posted. -/
theorem C123_refuted : ¬ C123 := by
  intro h
  have h1 := (h _ _ (cfinal_hist PostEx.la)).2.2 Ex2.p 1 (unwatchPost (cfinal PostEx.la).1 Ex2.p 1).1 (Prod.ext rfl (by decide))
  have h2 := h1.2.2 Ex2.p 0 0 (by decide) (.inl (by decide))
  revert h2
  decide

/-- What comes of it: the loop takes the packet for a completed read and reads again, so that two reads are outstanding with one
OVERLAPPED structure and buffer, while the entry is watched as before. -/
theorem C123_two_reads : ∃ (ops : List Op) (s s1 s2 s3 : St) (g : Nat), CHist ops s ∧ Quiet s ∧ unwatchPost s Ex2.p 1 = (s1, false) ∧
    Step s1 .tau s2 ∧ Step s2 .tau s3 ∧ inUse s g = 1 ∧ inUse s3 g = 2 :=
  ⟨_, _, _, _, _, 0, cfinal_hist PostEx.la, by decide, Prod.ext rfl (by decide), .take _, .again _ true, by decide, by decide⟩
end Dcw
end Verif
