/-
Stop of a channel that has nothing registered, and of nil (C85).
-/
import Verif.StopNil
import Verif.PropsFail
import Verif.PropsRec
import Verif.PropsReaddcw5

namespace Verif
open GoMap

namespace GoMap
variable {κ ν : Type} [DecidableEq κ]

theorem del_set_self (m : GoMap κ ν) (k : κ) (v : ν) : (m.set k v).del k = m.del k := by
  induction m with
  | nil => simp [set, del]
  | cons p m ih =>
    obtain ⟨k', v'⟩ := p
    by_cases h : k' = k
    · simp [set, del, h]
    · simp [set, del, h, ih]

theorem del_del_self (m : GoMap κ ν) (k : κ) : (m.del k).del k = m.del k := by
  induction m with
  | nil => simp [del]
  | cons p m ih =>
    obtain ⟨k', v'⟩ := p
    by_cases h : k' = k
    · simp [del, h, ih]
    · simp [del, h, ih]

end GoMap

namespace WP

/-- `Del` for the nil channel: the old total counts as empty, the new one is recomputed. -/
theorem del_key_nil (P : Platform) (w : WP) :
    WP.del P w .nil allEvents =
      (if GoMap.del w .nil = [] then [] else (GoMap.del w .nil).set .nil (orAll (GoMap.del w .nil) &^ P.omitted),
       mkDiff P 0 (orAll (GoMap.del w .nil))) := by
  have h0 : WP.val (w.set .nil (w.val .nil &^ allEvents)) .nil = 0 := by
    rw [val_set]; simp [allEvents]
  have h1 : WP.val (GoMap.del w .nil) .nil = 0 := by rw [val_del]; simp
  simp only [WP.del, h0, if_true, GoMap.del_set_self, GoMap.del_del_self, h1]
  cases hm : GoMap.del w .nil with
  | nil => simp [orAll]
  | cons p m => simp

theorem get_del_nil (P : Platform) (w : WP) {k : Key} (hk : k ≠ .nil) :
    (WP.del P w .nil allEvents).1.get? k = w.get? k := by
  have h := GoMap.get?_del w .nil k
  rw [if_neg (Ne.symm hk)] at h
  rw [del_key_nil]
  dsimp only
  split
  · next h0 => rw [h0] at h; simpa using h
  · rw [GoMap.get?_set, if_neg (Ne.symm hk), h]

theorem bit_orAll_del {w : WP} (hn : w.Nodup) (i : Nat) :
    bit (orAll (GoMap.del w .nil)) i = true ↔ ∃ k v, k ≠ Key.nil ∧ w.get? k = some v ∧ bit v i = true := by
  rw [bit_orAll]
  constructor
  · rintro ⟨k, v, hm, hv⟩
    have hg := GoMap.get?_of_mem (hn.del _) hm
    rw [GoMap.get?_del] at hg
    split at hg
    · simp at hg
    · next hk => exact ⟨k, v, Ne.symm hk, hg, hv⟩
  · rintro ⟨k, v, hk, hg, hv⟩
    exact ⟨k, v, GoMap.mem_of_get? (by rw [GoMap.get?_del, if_neg (Ne.symm hk)]; exact hg), hv⟩

theorem inv_del_nil {P : Platform} {w : WP} (hn : w.Nodup) : Inv P (WP.del P w .nil allEvents).1 where
  nodup := by
    rw [del_key_nil]; dsimp only
    split
    · simp
    · exact (hn.del _).set _ _
  nil_none := by
    have hk : ∀ k, k ≠ Key.nil → (WP.del P w .nil allEvents).1.get? k = w.get? k := fun k hk => get_del_nil P w hk
    have h0 : (WP.del P w .nil allEvents).1.get? .nil = none ↔ GoMap.del w .nil = [] := by
      rw [del_key_nil]; dsimp only
      split
      · next h => simp [h]
      · next h => simp [h, GoMap.get?_set]
    rw [h0, GoMap.eq_nil_iff_get?]
    constructor
    · intro h k hn
      have := h k
      rw [GoMap.get?_del, if_neg (Ne.symm hn)] at this
      rw [hk k hn, this]
    · intro h k
      rw [GoMap.get?_del]
      split
      · rfl
      · next hn => rw [← hk k (Ne.symm hn)]; exact h k (Ne.symm hn)
  total_bit := by
    intro i
    have h1 : (WP.del P w .nil allEvents).1.val .nil = orAll (GoMap.del w .nil) &^ P.omitted := by
      rw [del_key_nil]; dsimp only
      split
      · next h => simp [h, orAll]
      · rw [val_set]; simp
    rw [h1]
    have h2 := bit_orAll_del hn i
    simp only [bit] at h2 ⊢
    rw [Event.bit_andNot, Bool.and_eq_true, h2, and_comm]
    simp only [Bool.not_eq_true']
    refine and_congr_right fun _ => ?_
    constructor
    · rintro ⟨k, v, hk, hg, hv⟩; exact ⟨k, v, hk, by rw [get_del_nil P w hk]; exact hg, hv⟩
    · rintro ⟨k, v, hk, hg, hv⟩; exact ⟨k, v, hk, by rw [← get_del_nil P w hk]; exact hg, hv⟩

end WP

namespace NonRec

variable {P : Platform} {w : WP}

/-- What `watchDelMin` does for the nil channel: users keep their sets; if there is a difference, its left side is empty and its
right side contains all users' sets. -/
theorem watchDelMin_nil (hP : P.Facts) (h : NR P w) {min : Event} (hm : MinOK P min) :
    NR P (watchDelMin P min w .nil allEvents).1 ∧
    (∀ d, (watchDelMin P min w .nil allEvents).1.get? (.user d) = w.get? (.user d)) ∧
    (watchDelMin P min w .nil allEvents).2.1 = 0 ∧
    ((watchDelMin P min w .nil allEvents).2 = Diff.none ∨
      (watchDelMin P min w .nil allEvents).2.2 ≠ 0 ∧
      ∀ d v, w.get? (.user d) = some v → (v &^ P.internal) ⊑ (watchDelMin P min w .nil allEvents).2.2) ∧
    (w.get? .recCh = none → (watchDelMin P min w .nil allEvents).2 = Diff.none ∨
      (watchDelMin P min w .nil allEvents).2.2 = w.total P) := by
  have hmk : ∀ x : Event, (WP.mkDiff P 0 x).1 = 0 ∧ (WP.mkDiff P 0 x = Diff.none ∨ WP.mkDiff P 0 x = (0, x &^ P.internal) ∧ x &^ P.internal ≠ 0) := by
    intro x
    have hz : (0 : Event) &^ P.internal = 0 := by ebits
    simp only [WP.mkDiff, hz]
    split
    · exact ⟨rfl, .inl rfl⟩
    · next h => exact ⟨rfl, .inr ⟨rfl, Ne.symm h⟩⟩
  have hsub : ∀ (w' : WP), w'.Nodup → ∀ k v, k ≠ Key.nil → w'.get? k = some v →
      (v &^ P.internal) ⊑ (WP.orAll (GoMap.del w' .nil) &^ P.internal) := by
    intro w' hn k v hk hv i hi
    rw [Event.bit_andNot, Bool.and_eq_true] at hi ⊢
    exact ⟨(WP.bit_orAll_del hn i).2 ⟨k, v, hk, hv, hi.1⟩, hi.2⟩
  unfold watchDelMin
  cases hr : w.get? .recCh with
  | none =>
    simp only
    refine ⟨⟨WP.inv_del_nil h.inv.nodup, ?_, ?_⟩, ?_, ?_, ?_, ?_⟩
    · intro v hv
      rw [WP.get_del_nil P w (by simp)] at hv
      exact h.recv v hv
    · intro c v hv
      rw [WP.get_del_nil P w (by simp)] at hv
      exact h.user c v hv
    · intro d; exact WP.get_del_nil P w (by simp)
    · rw [WP.del_key_nil]; exact (hmk _).1
    · rw [WP.del_key_nil]
      dsimp only
      rcases (hmk (WP.orAll (GoMap.del w .nil))).2 with h1 | ⟨h1, h2⟩
      · exact .inl h1
      · rw [h1]
        exact .inr ⟨h2, fun d v hv => hsub w h.inv.nodup _ v (by simp) hv⟩
    · intro _
      rw [WP.del_key_nil]
      dsimp only
      rcases (hmk (WP.orAll (GoMap.del w .nil))).2 with h1 | ⟨h1, h2⟩
      · exact .inl h1
      · rw [h1]
        right
        dsimp only
        rw [Event.bext]
        intro i
        rw [Bool.eq_iff_iff, total_bit h.inv, Event.bit_andNot, Bool.and_eq_true, and_comm]
        have := WP.bit_orAll_del h.inv.nodup i
        simp only [WP.bit] at this
        rw [this]
        simp
  | some old =>
    simp only
    have hn0 : (GoMap.set w .recCh min).Nodup := h.inv.nodup.set _ _
    have hrec := h.recv old hr
    have hinv : WP.Inv P (WP.del P (GoMap.set w .recCh min) .nil allEvents).1 := WP.inv_del_nil hn0
    have hg : ∀ k, k ≠ Key.nil → (WP.del P (GoMap.set w .recCh min) .nil allEvents).1.get? k =
        if k = .recCh then some min else w.get? k := by
      intro k hk
      rw [WP.get_del_nil P _ hk, get?_set]
      simp only [eq_comm]
    have hd1 : (WP.del P (GoMap.set w .recCh min) .nil allEvents).2 =
      WP.mkDiff P 0 (WP.orAll (GoMap.del (GoMap.set w .recCh min) .nil)) := by rw [WP.del_key_nil]
    have hmk' := hmk (WP.orAll (GoMap.del (GoMap.set w .recCh min) .nil))
    rw [← hd1] at hmk'
    have hold : old &^ ((WP.del P (GoMap.set w .recCh min) .nil allEvents).2.1 &^
        (WP.del P (GoMap.set w .recCh min) .nil allEvents).2.2) = old := by
      rw [hmk'.1]; ebits
    rw [hold]
    have hne : ¬ (old ||| P.internal = P.internal) := by
      have hcr := hP.create_rec
      have hco := hP.create_omit
      have hcn := hP.create_ne
      intro h0
      clear hold hmk' hd1 hg hinv hsub hmk
      ebits
    rw [if_neg hne]
    refine ⟨⟨hinv.add (by simp) _, ?_, ?_⟩, ?_, ?_, ?_, by simp⟩
    · intro v hv
      rw [WP.get?_add P _ (by simp)] at hv
      simp only [reduceCtorEq, if_false, if_true, Option.some.injEq] at hv
      subst hv
      clear hold hmk' hd1 hg hinv hsub hmk hne
      ebits
    · intro c v hv
      rw [WP.get?_add P _ (by simp), hg _ (by simp)] at hv
      simp only [reduceCtorEq, if_false] at hv
      exact h.user c v hv
    · intro d
      rw [WP.get?_add P _ (by simp), hg _ (by simp)]
      simp
    · dsimp only
      split
      · exact hmk'.1
      · split
        · rfl
        · exact hmk'.1
    · rcases hmk'.2 with h1 | ⟨h1, h2⟩
      · left; dsimp only; rw [if_pos h1]; exact h1
      · right
        have hx : ¬ (WP.del P (GoMap.set w .recCh min) .nil allEvents).2 = Diff.none := by
          rw [h1]
          intro e
          simp only [Diff.none, Prod.mk.injEq, true_and] at e
          exact h2 e
        have hy : ¬ (WP.del P (GoMap.set w .recCh min) .nil allEvents).2.2 ||| P.create =
            (WP.del P (GoMap.set w .recCh min) .nil allEvents).2.1 := by
          rw [h1]
          dsimp only
          have hcn := hP.create_ne
          intro e
          clear hold hmk' hd1 hg hinv hsub hmk hne hx h1
          ebits
        simp only [if_neg hx, if_neg hy]
        constructor
        · have hcn := hP.create_ne
          intro e
          clear hold hmk' hd1 hg hinv hsub hmk hne hx h1
          ebits
        · intro d v hv
          have := hsub _ hn0 (.user d) v (by simp) (by rw [get?_set]; simpa using hv)
          rw [h1]
          exact Event.Sub.trans this (Event.sub_or_left _ _)

theorem stopFuncKey_snd (P : Platform) (O : Oracle) (k : Key) (s : World) (pw : WP) (n : Path) (w : WP) :
    (stopFuncKey P O k s pw n w).2 = if w.length ≠ 0 then
      (watchDelMin P (pw.val .recCh) w k allEvents).1 else w := by
  unfold stopFuncKey; split <;> rfl

theorem stopFuncNil_nr (hP : P.Facts) {O : Oracle} {s : World} {pw : WP} {n : Path} {w : WP}
    (hpw : NR P pw) (h : NR P w) : NR P (stopFuncKey P O .nil s pw n w).2 := by
  rw [stopFuncKey_snd]
  split
  · exact (watchDelMin_nil hP h hpw.minOK).1
  · exact h

/-- Effect of Stop(nil) on the users' entries: none. -/
theorem stopNil_effect (hP : P.Facts) (O : Oracle) {s : St} (h : Shape P s.root) :
    Shape P (stopKey P O s .nil).root ∧ ∀ d q, entry (stopKey P O s .nil).root d q = entry s.root d q := by
  have hQ : ∀ s pw n w, NR P pw → NR P w → NR P (stopFuncKey P O .nil s pw n w).2 :=
    fun _ _ _ _ hpw hw => stopFuncNil_nr hP hpw hw
  have hfind : ∀ q, (stopKey P O s .nil).root.find q = Node.travW (fun pw w => if w.length ≠ 0 then
      (watchDelMin P (pw.val .recCh) w .nil allEvents).1 else w) [] s.root q :=
    fun q => Node.trav_find (fun s pw n w => stopFuncKey_snd P O .nil s pw n w) h.ok q
  refine ⟨⟨Node.trav_OK hQ (nr_nil P) h.ok, ?_⟩, ?_⟩
  · have := hfind []
    simp only [Node.find_nil, Node.travW, Option.some.injEq, h.top] at this
    simpa using this
  · intro d q
    have hx := travW_entry (g := fun pw w => if w.length ≠ 0 then
      (watchDelMin P (pw.val .recCh) w .nil allEvents).1 else w) (K := fun _ => true)
      (Q := NR P) (Q' := NR P)
      (by
        intro pw w hpw hw
        have := hQ s.world pw [] w hpw hw
        rwa [stopFuncKey_snd] at this)
      (by
        intro pw w d hpw hw
        split
        · rw [(watchDelMin_nil hP hw hpw.minOK).2.1 d]; simp
        · simp) (nr_nil P) h.ok q d
    unfold entry
    rw [watchAt, hfind q, hx]
    simp

/-- **C85, nil, systems without native recursion.**  After every history, whatever the operating system answers: Stop(nil) does not
change how many copies of any event any channel is sent. -/
theorem C85_nil_sends (hP : P.Facts) {rel : Bool} {ops : List Op} {s : St} (h : Hist P rel ops s) (O : Oracle) (c : Nat)
    (ei : EventInfo) :
    (sends P (stopKey P O s .nil).root ei).count (.user c) = (sends P s.root ei).count (.user c) := by
  by_cases hlen : 2 ≤ ei.path.length
  case neg => rw [sends_short _ (by omega), sends_short _ (by omega)]
  have hs := Hist.shape hP h
  have hs₁ := (stopNil_effect hP O hs).1
  rw [count_sends hs.sound hlen, count_sends hs₁.sound hlen]
  have hh : ∀ q m, (watchAt (stopKey P O s .nil).root q).hit P (.user c) m = (watchAt s.root q).hit P (.user c) m := by
    intro q m
    rw [hit_user (hs.sound q), hit_user (hs₁.sound q)]
    have := (stopNil_effect hP O hs).2 c q
    unfold entry at this
    rw [this]
  simp only [hh]

/-- Stop(nil) leaves the watch of `q` as it is, or sets it to something that contains the sets of all users. -/
theorem stopNil_os (hP : P.Facts) (O : Oracle) {s : St} (h : Shape P s.root) (q : Path) :
    osOf (stopKey P O s .nil).world.log q = osOf s.world.log q ∨
    osOf (stopKey P O s .nil).world.log q ≠ 0 ∧
    ∀ d v, entry s.root d q = some v → (v &^ P.internal) ⊑ osOf (stopKey P O s .nil).world.log q := by
  have hQ : ∀ s pw n w, NR P pw → NR P w → NR P (stopFuncKey P O .nil s pw n w).2 :=
    fun _ _ _ _ hpw hw => stopFuncNil_nr hP hpw hw
  have hfr : ∀ (s : World) (pw : WP) (n : Path) (w : WP), n ≠ q →
      (fun x : World => osOf x.log q) (stopFuncKey P O .nil s pw n w).1 = (fun x : World => osOf x.log q) s := by
    intro s pw n w hn
    unfold stopFuncKey
    dsimp only
    split
    · split
      · rfl
      · split
        · exact (exec_other O s hn).2.1
        · exact (exec_other O s hn).2.2 _ _
    · rfl
  cases hf : s.root.find q with
  | none =>
    left
    exact Node.trav_frame (skip := false) (π := fun x : World => osOf x.log q) hQ hfr (s := s.world) (nr_nil P) h.ok
      (fun r hr e => hr (by rw [List.nil_append] at e; rw [← e]; exact hf))
  | some w =>
    obtain ⟨s', pw', h1, h2, h3, h4⟩ := Node.trav_at (skip := false) (π := fun x : World => osOf x.log q) hQ hfr (s := s.world)
      (nr_nil P) h.ok (r := q) (by simp) hf
    have hw : NR P w := h.ok.find_Q hf
    have hspec := watchDelMin_nil hP hw h1.minOK
    have he : ∀ d, entry s.root d q = w.get? (.user d) := by intro d; simp [entry, watchAt, hf]
    show osOf (Node.trav false (stopFuncKey P O .nil) s.world [] s.root).1.log q = _ ∨ osOf (Node.trav false (stopFuncKey P O .nil) s.world [] s.root).1.log q ≠ 0 ∧
      ∀ d v, _ → _ ⊑ osOf (Node.trav false (stopFuncKey P O .nil) s.world [] s.root).1.log q
    rw [h3]
    unfold stopFuncKey
    split
    · dsimp only
      split
      · exact .inl h2
      · next hne =>
        rcases hspec.2.2.2.1 with h5 | ⟨h5, h6⟩
        · exact absurd h5 hne
        · rw [if_neg h5]
          unfold World.exec
          dsimp only
          cases O s'.log (.rewatch q (watchDelMin P (pw'.val .recCh) w .nil allEvents).2.1
            (watchDelMin P (pw'.val .recCh) w .nil allEvents).2.2) with
          | false => left; simpa [osOf] using h2
          | true =>
            right
            simp only [osOf, if_true]
            exact ⟨h5, fun d v hv => h6 d v (by rw [← he]; exact hv)⟩
    · exact .inl h2

/-- **C85, nil, systems without native recursion (partial).**  In a history in which the calls whose failure the code ignores succeed:
after Stop(nil), whatever the operating system answers to it, it still watches on each path what the channels asked for there.
Missing: that it does on subdirectories of a recursively watched directory (where the internal channel has the set). -/
theorem C85_nil_os_partial (hP : P.Facts) {ops : List Op} {s : St} (h : Hist P true ops s) (O : Oracle) {c : Nat} {q : Path} {v : Event}
    (hv : entry s.root c q = some v) : (v &^ P.internal) ⊑ osOf (stopKey P O s .nil).world.log q := by
  have hg := Hist.good hP h
  rcases stopNil_os hP O hg.shape q with h1 | ⟨_, h1⟩
  · rw [h1, hg.sync q]
    exact sub_total (hg.shape.nr q).inv (by simp) hv
  · exact h1 c v hv

/-- Two watchpoints with the same sets have the same total. -/
theorem total_congr {w w' : WP} (h : w.Inv P) (h' : w'.Inv P) (hk : ∀ k, k ≠ Key.nil → w'.get? k = w.get? k) :
    w'.total P = w.total P := by
  rw [Event.bext]
  intro i
  rw [Bool.eq_iff_iff, total_bit h, total_bit h']
  refine and_congr_right fun _ => ?_
  constructor
  · rintro ⟨k, v, hn, hg, hv⟩; exact ⟨k, v, hn, by rw [← hk k hn]; exact hg, hv⟩
  · rintro ⟨k, v, hn, hg, hv⟩; exact ⟨k, v, hn, by rw [hk k hn]; exact hg, hv⟩

/-- The second time, `watchDelMin` finds nothing to do. -/
theorem watchDelMin_again (hP : P.Facts) (h : NR P w) {min : Event} (hm : MinOK P min) (c : Nat) :
    (watchDelMin P min (watchDelMin P min w (.user c) allEvents).1 (.user c) allEvents).2 = Diff.none ∧
    (watchDelMin P min (watchDelMin P min w (.user c) allEvents).1 (.user c) allEvents).1.val .recCh =
      (watchDelMin P min w (.user c) allEvents).1.val .recCh := by
  obtain ⟨a1, a2, -, a4, a5⟩ := watchDelMin_spec hP h hm c
  obtain ⟨b1, b2, b3, b4, b5⟩ := watchDelMin_spec hP a1 hm c
  generalize watchDelMin P min (watchDelMin P min w (.user c) allEvents).1 (.user c) allEvents = r2 at *
  generalize (watchDelMin P min w (.user c) allEvents).1 = w1 at *
  have hu : ∀ d, d ≠ c → w1.get? (.user d) = w.get? (.user d) := by intro d hd; rw [a2, if_neg hd]
  have hnone : r2.1.get? .recCh = none ↔ w1.get? .recCh = none := by
    rw [b5]
    constructor
    · rintro (h1 | ⟨h1, h2⟩)
      · exact h1
      · rw [a5]
        by_cases hw : w.get? .recCh = none
        · exact .inl hw
        · refine .inr ⟨h1, fun d v i hd hv hi => ?_⟩
          by_cases hw1 : w1.get? .recCh = none
          · exact (a5.1 hw1).elim (fun h => absurd h hw) (fun h => h.2 d v i hd hv hi)
          · rcases h2 d v i hd (by rw [hu d hd]; exact hv) hi with h3 | h3
            · exact .inl h3
            · right
              by_contra hb
              have : BitVec.getLsbD (w1.val .recCh) i = true :=
                (a4 i).2 ⟨hw, hw1, .inr (.inr ⟨by simpa using hb, d, v, hd, hv, hi⟩)⟩
              rw [h3] at this; simp at this
    · exact .inl
  have hbits : r2.1.val .recCh = w1.val .recCh := by
    rw [Event.bext]
    intro i
    rw [Bool.eq_iff_iff, b4, a4 i]
    constructor
    · rintro ⟨h1, h2, h3⟩
      have hw : w.get? .recCh ≠ none := fun e => h1 (a5.2 (.inl e))
      refine ⟨hw, h1, ?_⟩
      rcases h3 with h3 | h3 | ⟨h3, d, v, hd, hv, hi⟩
      · exact .inl h3
      · exact .inr (.inl h3)
      · rcases h3.2.2 with h4 | h4 | h4
        · exact .inl h4
        · exact .inr (.inl h4)
        · exact .inr (.inr h4)
    · rintro ⟨h0, h1, h3⟩
      refine ⟨h1, fun e => h1 (hnone.1 e), ?_⟩
      rcases h3 with h3 | h3 | ⟨h3, d, v, hd, hv, hi⟩
      · exact .inl h3
      · exact .inr (.inl h3)
      · exact .inr (.inr ⟨⟨h0, h1, .inr (.inr ⟨h3, d, v, hd, hv, hi⟩)⟩, d, v, hd, by rw [hu d hd]; exact hv, hi⟩)
  refine ⟨?_, hbits⟩
  rw [b3, diffOf_none]
  refine (total_congr a1.inv b1.inv fun k hk => ?_).symm
  cases k with
  | nil => exact absurd rfl hk
  | user d =>
    rw [b2]
    split
    · next hd => rw [a2, if_pos hd]
    · rfl
  | recCh =>
    unfold WP.val at hbits
    cases h1 : r2.1.get? .recCh with
    | none => exact (hnone.1 h1).symm
    | some x =>
      cases h2 : w1.get? .recCh with
      | none => rw [hnone.2 h2] at h1; simp at h1
      | some y => rw [h1, h2] at hbits; simpa using hbits

mutual
theorem Node.stop_again (hP : P.Facts) {O O' : Oracle} {c : Nat} {s s2 : World} {pw pw2 : WP} (hpw : NR P pw)
    (he : pw2.val .recCh = pw.val .recCh) {n : Path} : {nd : Node} → nd.OK (NR P) noR n →
    (Node.trav false (stopFunc P O' c) s2 pw2 (Node.trav false (stopFunc P O c) s pw nd).2).1 = s2
  | .mk n' w ch, h => by
    simp only [Node.OK] at h
    obtain ⟨rfl, hw, hc⟩ := h
    simp only [Node.trav]
    have hnr := stopFunc_nr hP (O := O) (c := c) (s := s) (n := n') hpw hw
    have key : (stopFunc P O' c s2 pw2 n' (stopFunc P O c s pw n' w).2).1 = s2 ∧
        (stopFunc P O' c s2 pw2 n' (stopFunc P O c s pw n' w).2).2.val .recCh = (stopFunc P O c s pw n' w).2.val .recCh := by
      rw [stopFunc_snd, stopFunc_snd]
      by_cases hl : w.length ≠ 0
      · have hag := watchDelMin_again hP hw hpw.minOK c
        rw [if_pos hl]
        unfold stopFunc
        rw [he]
        constructor
        · split
          · dsimp only; rw [if_pos hag.1]
          · rfl
        · split
          · exact hag.2
          · rfl
      · have h0 : w = [] := by simpa using hl
        subst h0
        constructor
        · simp [stopFunc]
        · simp
    rw [key.1]
    exact Forest.stop_again hP hnr key.2 hc
theorem Forest.stop_again (hP : P.Facts) {O O' : Oracle} {c : Nat} {s s2 : World} {pw pw2 : WP} (hpw : NR P pw)
    (he : pw2.val .recCh = pw.val .recCh) {n : Path} : {f : Forest} → f.OK (NR P) noR n →
    (Forest.trav false (stopFunc P O' c) s2 pw2 (Forest.trav false (stopFunc P O c) s pw f).2).1 = s2
  | .nil, _ => by simp [Forest.trav]
  | .cons b nd rest, h => by
    simp only [Forest.OK] at h
    simp only [Forest.trav, Bool.false_and, Bool.false_eq_true, if_false]
    rw [Node.stop_again hP hpw he (h.2.2.1 h.2.1), Forest.stop_again hP hpw he h.2.2.2]
end

/-- **C85, systems without native recursion.**  After every history: once Stop(c) has returned, another Stop(c) makes no call and
changes no registration, whatever the operating system answered to the first. -/
theorem C85_again (hP : P.Facts) {rel : Bool} {ops : List Op} {s : St} (h : Hist P rel ops s) (O O' : Oracle) (c : Nat) :
    (stop P O' (stop P O s c) c).world = (stop P O s c).world ∧
    ∀ d q, entry (stop P O' (stop P O s c) c).root d q = entry (stop P O s c).root d q := by
  have hs := Hist.shape hP h
  have h1 := stop_effect hP O hs c
  have h2 := stop_effect hP O' h1.1 c
  refine ⟨Node.stop_again hP (nr_nil P) rfl hs.ok, fun d q => ?_⟩
  rw [h2.2]
  split
  · next hd => rw [h1.2, if_pos hd]
  · rfl

/-- **C85, systems without native recursion.**  After every history, Stop of a channel that has nothing registered changes no
registration, and so not how many copies of an event any channel is sent. -/
theorem C85_unregistered (hP : P.Facts) {rel : Bool} {ops : List Op} {s : St} (h : Hist P rel ops s) (O : Oracle) {c : Nat}
    (hc : ∀ q, entry s.root c q = none) :
    (∀ d q, entry (stop P O s c).root d q = entry s.root d q) ∧
    ∀ d ei, (sends P (stop P O s c).root ei).count (.user d) = (sends P s.root ei).count (.user d) := by
  have hs := Hist.shape hP h
  have h1 := stop_effect hP O hs c
  have he : ∀ d q, entry (stop P O s c).root d q = entry s.root d q := by
    intro d q
    rw [h1.2]
    split
    · next hd => rw [hd, hc]
    · rfl
  refine ⟨he, fun d ei => ?_⟩
  by_cases hlen : 2 ≤ ei.path.length
  case neg => rw [sends_short _ (by omega), sends_short _ (by omega)]
  rw [count_sends hs.sound hlen, count_sends h1.1.sound hlen]
  have hh : ∀ q m, (watchAt (stop P O s c).root q).hit P (.user d) m = (watchAt s.root q).hit P (.user d) m := by
    intro q m
    rw [hit_user (hs.sound q), hit_user (h1.1.sound q)]
    have := he d q
    unfold entry at this
    rw [this]
  simp only [hh]

end NonRec

namespace Rec
open NonRec (watchAt entry UserEvents total_congr)

variable {P : Platform}

theorem gone_total {w : WP} (h : RN P w) {c : Nat} (hc : w.get? (.user c) = none) : (gone P w c).total P = w.total P := by
  refine total_congr h.nr.inv (h.gone c).nr.inv fun k hk => ?_
  unfold gone
  rw [WP.get?_del_ne_nil P w (by simp) _ hk]
  split
  · next e => rw [e, hc]; simp [WP.val, hc]
  · rfl

mutual
theorem stopWalk_absent (O : Oracle) {c : Nat} {n : Path} : (nd : Node) → (s : World) → nd.OK (RN P) (inR (RN P)) n →
    (∀ q, [] ∉ q → (watchAt nd q).get? (.user c) = none ∧ (watchAt nd (q ++ [[]])).get? (.user c) = none) →
    (nd.stopWalk P O c s).1 = s
  | .mk n' w ch, s, h, ha => by
    have hn : n' = n := h.name_eq
    subst hn
    have hi := inact_Q h (RN.nil P)
    have hd : (watchDel P (.mk n' w ch) (.user c) allEvents).2 = Diff.none := by
      rw [watchDel_diff hi, gone_total h.watch, gone_total hi]
      · simp [lostDiff]
      · rw [inact_eq_watchAt]; exact (ha [] (by simp)).2
      · have := (ha [] (by simp)).1; simpa [watchAt] using this
    simp only [Node.stopWalk, hd, true_and]
    split
    · refine stopWalkF_absent O ch s h.child fun b x hx hb q hq => ?_
      have := ha (b :: q) (by simp [Ne.symm hb, hq])
      rw [List.cons_append, watchAt_cons_some (nd := .mk n' w ch) hx, watchAt_cons_some (nd := .mk n' w ch) hx] at this
      exact this
    · rfl
theorem stopWalkF_absent (O : Oracle) {c : Nat} {n : Path} : (f : Forest) → (s : World) → f.OK (RN P) (inR (RN P)) n →
    (∀ b x, f.get? b = some x → b ≠ [] → ∀ q, [] ∉ q → (watchAt x q).get? (.user c) = none ∧
      (watchAt x (q ++ [[]])).get? (.user c) = none) → (f.stopWalk P O c s).1 = s
  | .nil, s, _, _ => rfl
  | .cons b nd rest, s, h, ha => by
    simp only [Forest.OK] at h
    simp only [Forest.stopWalk]
    have hr : ∀ b' x, rest.get? b' = some x → (Forest.cons b nd rest).get? b' = some x := by
      intro b' x hx
      have : b ≠ b' := by
        rintro rfl
        rw [(Forest.get?_eq_none rest b).2 h.1] at hx; simp at hx
      simp [Forest.get?, this, hx]
    rw [stopWalkF_absent O rest _ h.2.2.2 (fun b' x hx hb => ha b' x (hr b' x hx) hb)]
    split
    · rfl
    · next hb => exact stopWalk_absent O nd s (h.2.2.1 hb) (ha b nd (by simp [Forest.get?]) hb)
end

/-- **C85, systems with native recursion (partial).**  After a harmless history (`SafeHist`), Stop of a channel that has nothing
registered makes no call and changes no registration.  Missing: histories with a harmful operation or a Watch that failed. -/
theorem C85_unregistered_partial (hP : P.Facts) {ops : List ROp} {s : St} (h : SafeHist P ops s) (O : Oracle) {c : Nat}
    (hc : ∀ q, Verif.Rec.rregOf ops c q = none) :
    (stop P O s c).world = s.world ∧ ∀ d q, [] ∉ q → entry (stop P O s c).root d q = entry s.root d q := by
  have hs := h.sync hP
  have hr := RHist.refines hP h.hist.1 h.hist.2
  have hrok := RHist.rok hP h.hist.1
  have he : ∀ q, [] ∉ q → entry s.root c q = none := by
    intro q hq
    rw [hr.ent c q hq, hc q]; rfl
  refine ⟨stopWalk_absent O s.root s.world hs.book.ok fun q hq => ⟨he q hq, ?_⟩, fun d q hq => ?_⟩
  · cases hv : (watchAt s.root (q ++ [[]])).get? (.user c) with
    | none => rfl
    | some v =>
      exfalso
      have hrn : RN P (watchAt s.root (q ++ [[]])) := ROK.watchAt hs.book.ok (RN.nil P) _
      have hne : v ≠ 0 := by
        intro e
        have := (hrn.nr.user c v hv).1
        rw [e] at this
        exact this (by simp)
      apply hne
      apply Event.zero_of_getLsbD
      intro i
      by_contra hb
      have hb' : BitVec.getLsbD (uset s.root (q ++ [[]]) c) i = true := by
        unfold uset WP.val; rw [hv]; simpa using hb
      obtain ⟨p, -, -, hp, h4⟩ := hs.book.sub q c i hq hb'
      unfold uset WP.val at h4
      have := he p hp
      unfold entry at this
      rw [this] at h4
      simp at h4
  · rw [stop_entry O hrok]
    split
    · next hd => rw [hd, he q hq]
    · rfl

end Rec

/-! ### Examples -/

namespace NonRec

/-- The theorem applies: channels 1 and 2 are registered; Stop(nil) makes a call for each node. -/
example : Hist Ex.I true Ex.ops2 Ex.s2 ∧ (sends Ex.I Ex.s2.root Ex.ei).count (.user 2) = 1 ∧
    (sends Ex.I (stopKey Ex.I .ok Ex.s2 .nil).root Ex.ei).count (.user 2) = 1 ∧
    (stopKey Ex.I .ok Ex.s2 .nil).world.log.length > Ex.s2.world.log.length := ⟨Ex.hist2, by decide, by decide, by decide⟩

/-- A case for `C85_again` and `C85_unregistered`: channel 1 is stopped while channel 2 is registered. -/
example : Hist Ex.I true Ex.ops2 Ex.s2 ∧ (stop Ex.I .ok Ex.s2 1).world.log.length > Ex.s2.world.log.length ∧
    (stop Ex.I .ok (stop Ex.I .ok Ex.s2 1) 1).world.log.length = (stop Ex.I .ok Ex.s2 1).world.log.length :=
  ⟨Ex.hist2, by decide, by decide⟩

/-- **C85 is false of the code** for nil: on systems without native recursion Stop(nil) calls `Rewatch` with an empty old set,
against the guarantee in watcher.go:36-39. -/
theorem C85_contract_refuted : ∃ ops s p e, Hist Ex.I true ops s ∧
    (stopKey Ex.I .ok s .nil).world.log = (.rewatch p 0 e, true) :: s.world.log ∧
    ¬ Call.Valid Ex.I (osOf s.world.log) (.rewatch p 0 e) := by
  refine ⟨[.watch [Ex.a] false 1 Ex.W true], (watchOp Ex.I .ok .err init [Ex.a] false 1 Ex.W).1, [Ex.a], Ex.W, ?_, by decide, ?_⟩
  · exact Steps.nil.snoc (Step.watch (O := .ok) Ex.good_a Ex.uW (by simp [DirTree.Named]) (fun _ _ => rfl))
  · unfold Call.Valid
    exact fun h => h.2.1 rfl

end NonRec

namespace Dcw
open Platform (readdcw)
open Spec NonRec
open Verif.Rec (RStep RSteps RHist ROp)

/-- The watcher for Windows panics whenever it is given an empty old set for a watched path. -/
theorem rewatch_zero {s : St} {p : Path} {w : Nat} {new : Event} (isrec : Bool) (hv : valid new = true) (hw : nonState s p = some w)
    (hf : (s.wds w).filter &&& (onlyChanges ||| onlyGlobal) ≠ 0) : rewatch s p 0 new isrec = none := by
  unfold rewatch
  rw [if_pos hv, hw]
  simp only
  rw [if_neg hf]

/-- **C85 is false of the code** on Windows: after one Watch of a directory, Stop(nil) makes the tree call `Rewatch` with an empty old
set, and the watcher panics. -/
theorem C85_windows_refuted : ∃ (s : Verif.St) (wops : List Op) (ws : St),
    RHist readdcw true [.watch [Ex5.a] false 1 Ex5.C true] s ∧ Drives s.world.log wops ∧ LHist wops ws ∧
    (Rec.stopKey readdcw .ok s .nil).world.log = (.rewatch [Ex5.a] 0 Ex5.C, true) :: s.world.log ∧
    rewatch ws [Ex5.a] 0 Ex5.C false = none := by
  refine ⟨(Rec.watchOp readdcw .ok Rec.init [Ex5.a] false 1 Ex5.C).1, _, _, ?_, ?_, final_hist [.watch [Ex5.a] Ex5.C false {} {}],
    by decide, by rfl⟩
  · exact RSteps.nil.snoc (RStep.watch (O := .ok) (by simp [GoodPath]) (by unfold UserEvents; decide))
  · have hl : (Rec.watchOp readdcw .ok Rec.init [Ex5.a] false 1 Ex5.C).1.world.log = [(.watch [Ex5.a] Ex5.C, true)] := by decide
    rw [hl]
    exact .watch [Ex5.a] Ex5.C true .nil

/-- A case for `Rec.C85_unregistered_partial`: channel 3 has nothing registered, channels 1 and 2 have. -/
example : Rec.SafeHist readdcw Ex5.ops2 Ex5.s2 ∧ (∀ q, Rec.rregOf Ex5.ops2 3 q = none) ∧ Rec.rregOf Ex5.ops2 1 [Ex5.a] ≠ none :=
  ⟨Ex5.safe2, by intro q; simp [Rec.rregOf, Ex5.ops2, Rec.rregStep, Spec.Reg.watch, Spec.Reg.empty], by decide⟩

end Dcw
end Verif
