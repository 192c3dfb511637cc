/-
Windows: a directory that was unwatched stops reporting (C105).
-/
import Verif.WinFeed
import Verif.PropsReaddcw3

namespace Verif
namespace Dcw
open Platform (readdcw)

/-! ### Specification -/

/-- The next thing the loop does is to look at the state of the entry `w` (watcher_readdcw.go:377-398), for one of its packets. -/
def between (s : St) (w : Nat) : Nat :=
  match s.loop with
  | .st g => if (s.grips g).parent = w then 1 else 0
  | _ => 0

/-- What happens after the state `s₀`, reached by the history `l₀`, while the directory `p`, which has the entry `w`, is not watched again.  `n`: how often the kernel
completed a read of `p`; `k`: how many packets of the entry the loop has handled to the end. -/
inductive Since (p : Path) (w : Nat) (l₀ : List Op) (s₀ : St) : List Op → Nat → Nat → St → Prop
  | refl : Since p w l₀ s₀ [] 0 0 s₀
  | call {l n k s s' op} : Since p w l₀ s₀ l n k s → CStep (asked (l₀ ++ l)) s op s' → op ≠ .tau → asked (l₀ ++ l ++ [op]) p = none →
      Since p w l₀ s₀ (l ++ [op]) n k s'
  | complete {l n k s} (r : Read) : Since p w l₀ s₀ l n k s → r ∈ s.reads →
      Since p w l₀ s₀ (l ++ [.tau]) (if (s.grips r.g).path = p then n + 1 else n) k (complete s r)
  | take {l n k s} : Since p w l₀ s₀ l n k s → Since p w l₀ s₀ (l ++ [.tau]) n k (take s)
  | again {l n k s} : Since p w l₀ s₀ l n k s → Since p w l₀ s₀ (l ++ [.tau]) n k (again s true)
  | state {l n k s s'} : Since p w l₀ s₀ l n k s → loopstate s {} {} = some s' → Since p w l₀ s₀ (l ++ [.tau]) n (k + between s w) s'

/-! ### Proof -/

/-- The directory is unwatched, its entry is there. -/
structure Lingers (s : St) (p : Path) (w : Nat) : Prop where
  tab : s.m.get? p = some w
  st : (s.wds w).filter &&& onlyStates = stUnwatch

variable {s s' : St} {f : Path → Option (Event × Bool)} {D : Prop} {p : Path} {w : Nat}

theorem Lingers.un (hl : Lingers s p w) (hi : Inv s f D) : f p = none ∧ ∃ F, Up s w F := by
  obtain ⟨hw, hp⟩ := hi.base.tab _ _ hl.tab
  cases hi.cls w hw with
  | up F e a b c d => exact absurd hl.st (by rw [c, valid_states d]; decide)
  | re e a b c d => exact absurd hl.st (by rw [c, rewatch_states d]; decide)
  | un F a b c d e => exact ⟨hp ▸ b, F, e⟩
  | gone a => rw [hp] at a; exact absurd hl.tab a

theorem Lingers.tok (hl : Lingers s p w) (hi : Inv s f D) {g : Nat} (hg : g ∈ (s.wds w).slots) : tok s g = 1 := by
  obtain ⟨_, F, hu⟩ := hl.un hi
  obtain ⟨_, _, _, _, _, _, _, ht⟩ := hu.handle hg
  exact ht

/-- Outstanding reads of the entry. -/
def rdsum (s : St) (w : Nat) : Nat := ((s.wds w).slots.map (inUse s)).sum

theorem sum_le {l : List Nat} {a b : Nat → Nat} (h : ∀ x ∈ l, a x ≤ b x) : (l.map a).sum ≤ (l.map b).sum := by
  induction l with
  | nil => simp
  | cons x l ih =>
    simp only [List.map_cons, List.sum_cons]
    have := h x List.mem_cons_self
    have := ih fun y hy => h y (List.mem_cons_of_mem _ hy)
    omega

/-- A call of the watcher for another directory leaves the entry alone. -/
theorem Lingers.call (hl : Lingers s p w) (hi : Inv s f D) {op : Op} (h : CStep f s op s') (hop : op ≠ .tau) :
    s'.wds w = s.wds w ∧ s'.m.get? p = some w ∧ s'.loop = s.loop ∧ Ext s s' := by
  obtain ⟨hfp, _⟩ := hl.un hi
  obtain ⟨hw, hpw⟩ := hi.base.tab _ _ hl.tab
  cases h with
  | complete r hr => exact absurd rfl hop
  | take => exact absurd rfl hop
  | again => exact absurd rfl hop
  | state _ hs => exact absurd rfl hop
  | watch p' e isrec a0 a1 hl' hm' h0' h1' =>
    have hx := watch_ext s p' e isrec a0 a1
    have hne : p' ≠ p := by rintro rfl; rw [hl.tab] at hm'; cases hm'
    obtain ⟨_, _, hv⟩ := hl'
    refine ⟨?_, ?_, ?_, hx⟩ <;> (
      unfold Dcw.watch
      rw [if_pos hv, hm']
      simp only
      generalize hs1 : { s.setWd s.nw { filter := e, recursive := isrec, path := p' } with nw := s.nw + 1 } = s1
      have hb1 : Base s1 := by rw [← hs1]; exact Base.newWd hi.base _ rfl
      have hFw : s1.wds s.nw = { filter := e, recursive := isrec, path := p' } := by
        rw [← hs1]; simp only [St.setWd]; rw [upd_same]
      have hm1 : s1.m = s.m := by rw [← hs1]; rfl
      have hlo : s1.loop = s.loop := by rw [← hs1]; rfl
      have hn1 : s1.nw = s.nw + 1 := by rw [← hs1]
      have hw1 : s1.wds w = s.wds w := by rw [← hs1]; simp only [St.setWd]; rw [upd_ne _ _ (by omega)]
      have hslot : (s1.wds s.nw).slots = [] := by rw [hFw]; rfl
      rcases recreate_calm hb1 (by omega) (by rw [hFw]) hslot (by rw [hFw]; exact (C58_accepted e hv).2.2.1) h0' h1' with
        ⟨s2, hr, R⟩ | ⟨s2, hr, R⟩ <;> rw [hr] <;> simp only [if_true, Bool.false_eq_true, if_false])
    · exact (R.wds w (by omega)).trans hw1
    · exact (R.wds w (by omega)).trans hw1
    · rw [GoMap.get?_set, if_neg hne, R.m, hm1]; exact hl.tab
    · rw [R.m, hm1]; exact hl.tab
    · exact R.loop.trans hlo
    · exact R.loop.trans hlo
  | rewatch p' old new isrec _ ok hl' hn hr hrw =>
    have hx := rewatch_ext hrw
    obtain ⟨hfp', hne, hv⟩ := hl'
    have hne : p' ≠ p := by rintro rfl; rw [hfp] at hfp'; cases hfp'
    unfold Dcw.rewatch at hrw
    rw [if_pos hv] at hrw
    cases hns : nonState s p' with
    | none => rw [hns] at hrw; cases hrw; exact ⟨rfl, hl.tab, rfl, hx⟩
    | some w' =>
      rw [hns] at hrw
      simp only at hrw
      obtain ⟨hw', hww⟩ : w' < s.nw ∧ w ≠ w' := by
        unfold nonState at hns
        cases hm : s.m.get? p' with
        | none => rw [hm] at hns; cases hns
        | some w2 =>
          rw [hm] at hns
          simp only at hns
          split at hns
          · cases hns
          · cases hns
            refine ⟨(hi.base.tab _ _ hm).1, ?_⟩
            rintro rfl
            exact hne (((hi.base.tab _ _ hm).2).symm.trans hpw)
      split at hrw
      · generalize hs1 : s.setWd w' { s.wds w' with filter := stRewatch ||| new, recursive := isrec } = s1 at hrw
        have hb1 : Base s1 := by rw [← hs1]; exact Base.setWd hi.base w' _ rfl rfl
        obtain ⟨b1, b2, b3, b4, b5, b6, b7, b8, b9⟩ := closeHandle_base hb1 (w := w') (by rw [← hs1]; exact hw')
        rw [if_pos b3] at hrw
        cases hrw
        refine ⟨?_, ?_, ?_, hx⟩
        · rw [b4, ← hs1]; simp only [St.setWd]; rw [upd_ne _ _ hww]
        · rw [b7, ← hs1]; exact hl.tab
        · rw [b8, ← hs1]; rfl
      · cases hrw
  | unwatch p' hl' =>
    have hx := unwatch_ext s p' false
    have hne : p' ≠ p := by rintro rfl; exact hl' hfp
    cases hns : nonState s p' with
    | none =>
      have : Dcw.unwatch s p' false = (s, false) := by unfold Dcw.unwatch; rw [hns]
      rw [this] at hx ⊢
      exact ⟨rfl, hl.tab, rfl, hx⟩
    | some w' =>
      have : (Dcw.unwatch s p' false).1 = s.setWd w' { s.wds w' with filter := (s.wds w').filter ||| stUnwatch } := by
        unfold Dcw.unwatch; rw [hns]; rfl
      rw [this] at hx ⊢
      refine ⟨?_, hl.tab, rfl, hx⟩
      simp only [St.setWd]
      rw [upd_ne]
      unfold nonState at hns
      cases hm : s.m.get? p' with
      | none => rw [hm] at hns; cases hns
      | some w2 =>
        rw [hm] at hns
        simp only at hns
        split at hns
        · cases hns
        · cases hns
          rintro rfl
          exact hne (((hi.base.tab _ _ hm).2).symm.trans hpw)

/-- `loopstate` for a packet of another entry. -/
theorem Lingers.other (hl : Lingers s p w) (hi : Inv s f D) {g : Nat} (hg : s.loop = .st g) (hw : (s.grips g).parent ≠ w) (h : loopstate s {} {} = some s') :
    s'.wds w = s.wds w ∧ s'.m.get? p = some w ∧ s'.loop = .idle ∧ Ext s s' := by
  have hx := loopstate_ext h
  have hre := @Inv.reopen s f D hi g hg
  obtain ⟨_, hpw⟩ := hi.base.tab _ _ hl.tab
  unfold loopstate at h
  rw [hg] at h
  simp only at h
  have hpos : 0 < pend s g := by unfold pend; rw [hg]; simp
  obtain ⟨hw', hgs⟩ := hi.base.own g (.inl hpos)
  obtain ⟨-, -, hpath, -⟩ := hi.base.slot _ hw' g hgs
  generalize hpw' : (s.grips g).parent = w' at *
  by_cases h0 : (s.wds w').filter &&& onlyStates = 0
  · rw [if_pos h0] at h
    cases h
    exact ⟨rfl, hl.tab, rfl, hx⟩
  rw [if_neg h0] at h
  by_cases hz : (s.wds w').count - 1 = 0
  · rw [if_pos hz, hz] at h
    by_cases h1 : (s.wds w').filter &&& onlyStates = stRewatch
    · rw [if_pos h1] at h
      obtain ⟨s2, hr, R⟩ := hre h1 hz
      rw [hr] at h
      cases h
      refine ⟨(R.wds w (Ne.symm hw)).trans ?_, by rw [R.m]; exact hl.tab, R.loop, hx⟩
      simp only [St.setWd]
      rw [upd_ne _ _ (Ne.symm hw)]
    · rw [if_neg h1] at h
      by_cases h2 : (s.wds w').filter &&& onlyStates = stUnwatch
      · rw [if_pos h2] at h
        have hb0 : Base { s with loop := .idle } := by
          have ht0 : ∀ x, Dcw.tok { s with loop := .idle } x = Dcw.tok s x := by intro x; unfold Dcw.tok; rw [hg]; simp
          exact hi.base.move rfl rfl rfl rfl rfl rfl rfl hi.base.rd (fun x => by rw [ht0]; exact hi.base.tok x) (fun x hx => by
            unfold pend at hx ⊢
            rw [ht0] at hx
            simp at hx
            omega)
        have hbase : Base ({ s with loop := .idle }.setWd w' { s.wds w' with count := 0 }) := Base.setWd hb0 w' _ rfl rfl
        obtain ⟨b1, b2, -, b4, b5, b6, b7, b8, b9⟩ := closeHandle_base hbase (w := w') hw'
        cases h
        have hmne : s.m.get? (s.wds w').path = some w' := by
          cases hi.cls w' hw' with
          | up F e a => exact a
          | re e a => exact a
          | un F a => exact a
          | gone a b c d =>
            exfalso
            rcases c with c | ⟨_, c | c⟩
            · exact h0 c
            · rw [c.1] at hz; exact absurd hz (by decide)
            · have h3 : (s.wds w').count = 1 := by
                generalize (s.wds w').count = k at hz
                have := congrArg (fun x : BitVec 8 => x + 1) hz
                simp only [BitVec.sub_add_cancel] at this
                exact this
              rw [h3] at c
              have : (1 : BitVec 8).toNat = 1 := rfl
              omega
        refine ⟨?_, ?_, ?_, hx⟩
        · simp only
          rw [b4]
          simp only [St.setWd]
          rw [upd_ne _ _ (Ne.symm hw)]
        · simp only
          rw [b7, GoMap.get?_del, if_neg]
          · exact hl.tab
          · rw [hpath]
            rintro rfl
            rw [hl.tab] at hmne
            exact hw (Option.some.inj hmne).symm
        · exact b8
      · rw [if_neg h2] at h; cases h
  · rw [if_neg hz] at h
    cases h
    refine ⟨?_, hl.tab, rfl, hx⟩
    simp only [St.setWd]
    rw [upd_ne _ _ (Ne.symm hw)]

/-- `loopstate` for a packet of the entry. -/
theorem Lingers.self (hl : Lingers s p w) (hi : Inv s f D) {g : Nat} (hg : s.loop = .st g) (hw : (s.grips g).parent = w) (h : loopstate s {} {} = some s') :
    ((s.wds w).count - 1 = 0 ∧ s'.m.get? p = none) ∨
    ((s.wds w).count - 1 ≠ 0 ∧ s' = { s with loop := .idle }.setWd w { s.wds w with count := (s.wds w).count - 1 }) := by
  obtain ⟨hw', hpw⟩ := hi.base.tab _ _ hl.tab
  unfold loopstate at h
  rw [hg] at h
  simp only at h
  have hpos : 0 < pend s g := by unfold pend; rw [hg]; simp
  obtain ⟨-, hgs⟩ := hi.base.own g (.inl hpos)
  rw [hw] at hgs
  obtain ⟨-, -, hpath, -⟩ := hi.base.slot _ hw' g hgs
  rw [hw, hl.st, if_neg (by decide)] at h
  by_cases hz : (s.wds w).count - 1 = 0
  · rw [if_pos hz, if_neg (by decide), if_pos rfl] at h
    cases h
    refine .inl ⟨hz, ?_⟩
    simp only
    rw [hpath, hpw, GoMap.get?_del, if_pos rfl]
  · rw [if_neg hz] at h
    cases h
    exact .inr ⟨hz, rfl⟩

theorem rd_ext (hi : Inv s f D) {f' : Path → Option (Event × Bool)} {D' : Prop} (hi' : Inv s' f' D') (hl : Lingers s p w) (hw : s'.wds w = s.wds w)
    (hm : s'.m.get? p = some w) (hx : Ext s s') (hlo : ∀ g, s.loop = .got g → s'.loop = .got g) : Lingers s' p w ∧ rdsum s' w ≤ rdsum s w := by
  have hl' : Lingers s' p w := ⟨hm, by rw [hw]; exact hl.st⟩
  refine ⟨hl', ?_⟩
  unfold rdsum
  rw [hw]
  refine sum_le fun g hg => ?_
  have h1 := hl.tok hi hg
  have h2 := hl'.tok hi' (g := g) (by rw [hw]; exact hg)
  have h3 : s.queue.count g ≤ s'.queue.count g := hx.2.sublist.count_le _
  unfold tok at h1 h2
  unfold inUse
  have h4 : (if s.loop = .got g then 1 else 0) ≤ (if s'.loop = .got g then 1 else 0 : Nat) := by
    split
    · rw [if_pos (hlo g (by assumption))]; exact Nat.le_refl _
    · exact Nat.zero_le _
  omega

theorem Since.hist {l₀ l : List Op} {s₀ : St} {n k : Nat} (h : Since p w l₀ s₀ l n k s) (h0 : CHist l₀ s₀) : CHist (l₀ ++ l) s := by
  induction h with
  | refl => rw [List.append_nil]; exact h0
  | call _ hs _ _ ih => rw [← List.append_assoc]; exact ih.snoc hs
  | complete r _ hr ih => rw [← List.append_assoc]; exact ih.snoc (.complete r hr)
  | take _ ih => rw [← List.append_assoc]; exact ih.snoc .take
  | again _ ih => rw [← List.append_assoc]; exact ih.snoc .again
  | state _ hs ih => rw [← List.append_assoc]; exact ih.snoc (.state _ hs)

theorem Since.noask {l₀ l : List Op} {s₀ : St} {n k : Nat} (h : Since p w l₀ s₀ l n k s) (h0 : asked l₀ p = none) : asked (l₀ ++ l) p = none := by
  induction h with
  | refl => rw [List.append_nil]; exact h0
  | call _ _ _ h _ => rw [← List.append_assoc]; exact h
  | complete r _ _ ih => rw [← List.append_assoc, asked_snoc]; exact ih
  | take _ ih => rw [← List.append_assoc, asked_snoc]; exact ih
  | again _ ih => rw [← List.append_assoc, asked_snoc]; exact ih
  | state _ _ ih => rw [← List.append_assoc, asked_snoc]; exact ih

theorem count_pred {c : BitVec 8} (h : c - 1 ≠ 0) (hp : 0 < c.toNat) : 0 < (c - 1).toNat ∧ (c - 1).toNat + 1 = c.toNat := by
  have h1 : (c - 1).toNat = c.toNat - 1 := by
    rw [BitVec.toNat_sub]
    have := c.isLt
    have : (1 : BitVec 8).toNat = 1 := rfl
    omega
  have h2 : (c - 1).toNat ≠ 0 := fun h0 => h (BitVec.eq_of_toNat_eq (by rw [h0]; rfl))
  omega

theorem Since.bound {l₀ l : List Op} {s₀ : St} {n k : Nat} (h : Since p w l₀ s₀ l n k s) (h0 : CHist l₀ s₀) (ha : asked l₀ p = none)
    (hl : Lingers s₀ p w) (hpos : 0 < (s₀.wds w).count.toNat) :
    (Lingers s p w ∧ (s.wds w).slots = (s₀.wds w).slots ∧ 0 < (s.wds w).count.toNat ∧ (s.wds w).count.toNat + k = (s₀.wds w).count.toNat ∧
      n + rdsum s w ≤ (s₀.wds w).slots.length + k + between s w) ∨
    (s.m.get? p = none ∧ n ≤ (s₀.wds w).slots.length + (s₀.wds w).count.toNat ∧ (s₀.wds w).count.toNat ≤ k) := by
  induction h with
  | refl =>
    refine .inl ⟨hl, rfl, by omega, by omega, ?_⟩
    have : rdsum s₀ w ≤ (s₀.wds w).slots.length := sum_le_len fun g hg => by
      have := hl.tok h0.inv hg
      unfold tok at this
      unfold inUse
      omega
    omega
  | @call l n k s s' op hS hs hop hn ih =>
    have hh := hS.hist h0
    have hi' := (hh.snoc hs).inv
    rcases ih with ⟨g1, g2, g3, g4, g5⟩ | ⟨g1, g2⟩
    · obtain ⟨e1, e2, e3, e4⟩ := g1.call hh.inv hs hop
      obtain ⟨e5, e6⟩ := rd_ext hh.inv hi' g1 e1 e2 e4 (fun g hg => by rw [e3]; exact hg)
      refine .inl ⟨e5, by rw [e1]; exact g2, by rw [e1]; exact g3, by rw [e1]; exact g4, ?_⟩
      have : between s' w = between s w := by
        unfold between
        rw [e3]
        split
        · rename_i g hg
          have hpo : 0 < pend s g := by unfold pend; rw [hg]; simp
          have hlt := hh.inv.base.own g (.inl hpo)
          have := (hh.inv.base.slot _ hlt.1 g hlt.2).1
          rw [(e4.1.2 g this).2]
        · rfl
      omega
    · exact .inr ⟨CStep.clear hh.inv hs g1 (by rw [asked_snoc] at hn; exact hn), g2⟩
  | @complete l n k s r hS hr ih =>
    have hh := hS.hist h0
    rcases ih with ⟨g1, g2, g3, g4, g5⟩ | ⟨g1, g2⟩
    · have hle : ∀ g, inUse (Dcw.complete s r) g ≤ inUse s g := fun g => by
        unfold inUse Dcw.complete
        exact (List.erase_sublist).countP_le
      refine .inl ⟨⟨g1.tab, g1.st⟩, g2, g3, g4, ?_⟩
      have hbe : between (Dcw.complete s r) w = between s w := rfl
      split
      · rename_i hp
        have hrt := hh.inv.read_tab hr
        rw [hp, g1.tab] at hrt
        have hrd := (hh.inv.base.rd r hr).1
        have ho := hh.inv.base.own r.g (.inr (by rw [hrd]; simp))
        rw [← Option.some.inj hrt] at ho
        have : rdsum s w = rdsum (Dcw.complete s r) w + 1 := by
          unfold rdsum
          refine sum_dec (hh.inv.base.nd w ho.1) ho.2 ?_ fun x hx => ?_
          · unfold inUse Dcw.complete
            simp only
            rw [(List.perm_cons_erase hr).countP_eq (fun r' => decide (r'.g = r.g)), List.countP_cons]
            simp
          · unfold inUse Dcw.complete
            simp only
            rw [(List.perm_cons_erase hr).countP_eq (fun r' => decide (r'.g = x)), List.countP_cons]
            simp [Ne.symm hx]
        omega
      · have : rdsum (Dcw.complete s r) w ≤ rdsum s w := sum_le fun g _ => hle g
        omega
    · refine .inr ⟨g1, ?_⟩
      rw [if_neg]
      · exact g2
      · intro hp
        have := hh.inv.read_tab hr
        rw [hp, g1] at this
        cases this
  | @take l n k s hS ih =>
    obtain ⟨t1, t2, t3, t4⟩ := take_same s
    rcases ih with ⟨g1, g2, g3, g4, g5⟩ | ⟨g1, g2⟩
    · refine .inl ⟨⟨by rw [t4]; exact g1.tab, by rw [t3]; exact g1.st⟩, by rw [t3]; exact g2, by rw [t3]; exact g3, by rw [t3]; exact g4, ?_⟩
      have h1 : rdsum (Dcw.take s) w = rdsum s w := by
        have : (Dcw.take s).reads = s.reads := by unfold Dcw.take; split <;> (try split) <;> rfl
        unfold rdsum inUse
        rw [t3, this]
      have h2 : between (Dcw.take s) w = between s w := by
        have : (Dcw.take s).loop = s.loop ∨ ∃ g, s.loop = .idle ∧ (Dcw.take s).loop = .got g := by
          unfold Dcw.take
          split
          · rename_i g q hlo hq
            split
            · exact .inr ⟨g, hlo, rfl⟩
            · exact .inl rfl
          · exact .inl rfl
        unfold between
        rw [t1]
        rcases this with h | ⟨g, h, h'⟩
        · rw [h]
        · rw [h, h']
      omega
    · exact .inr ⟨by rw [t4]; exact g1, g2⟩
  | @again l n k s hS ih =>
    obtain ⟨t1, t3, t4⟩ := again_same s
    have hh := hS.hist h0
    rcases ih with ⟨g1, g2, g3, g4, g5⟩ | ⟨g1, g2⟩
    · refine .inl ⟨⟨by rw [t4]; exact g1.tab, by rw [t3]; exact g1.st⟩, by rw [t3]; exact g2, by rw [t3]; exact g3, by rw [t3]; exact g4, ?_⟩
      have hi := hh.inv
      by_cases hgot : ∃ g, s.loop = .got g
      · obtain ⟨g, hg⟩ := hgot
        have hb0 : between s w = 0 := by unfold between; rw [hg]
        have hb1 : between (Dcw.again s true) w = if (s.grips g).parent = w then 1 else 0 := by
          have : (Dcw.again s true).loop = .st g := by unfold Dcw.again; rw [hg]
          unfold between
          rw [this, t1]
        have hin : ∀ x, inUse (Dcw.again s true) x ≤ inUse s x + if x = g then 1 else 0 := by
          intro x
          unfold inUse Dcw.again readDirChanges
          rw [hg]
          simp only
          split
          · exact Nat.le_add_right _ _
          · split
            · simp only [List.countP_append, List.countP_singleton]
              by_cases e : x = g
              · subst e; simp
              · simp [e, Ne.symm e]
            · exact Nat.le_add_right _ _
        have hpo : 0 < pend s g := by unfold pend tok; rw [hg]; simp
        have ho := hi.base.own g (.inl hpo)
        have hww := (hi.base.tab _ _ g1.tab).1
        have hsum : rdsum (Dcw.again s true) w ≤ rdsum s w + if (s.grips g).parent = w then 1 else 0 := by
          unfold rdsum
          rw [t3]
          split
          · rename_i hpw
            rw [hpw] at ho
            have := sum_dec (p := fun x => inUse s x + if x = g then 1 else 0) (p' := inUse s) (hi.base.nd w hww) ho.2 (by simp) (fun x hx => by simp [hx])
            rw [← this]
            exact sum_le fun x _ => hin x
          · rename_i hpw
            refine sum_le fun x hx => ?_
            have := hin x
            rw [if_neg] at this
            · exact this
            · rintro rfl
              exact hpw (hi.base.slot w hww _ hx).2.1
        omega
      · have : Dcw.again s true = s := by
          unfold Dcw.again
          split
          · rename_i g hg; exact absurd ⟨g, hg⟩ hgot
          · rfl
        rw [this]
        omega
    · exact .inr ⟨by rw [t4]; exact g1, g2⟩
  | @state l n k s s' hS hs ih =>
    have hh := hS.hist h0
    have hi' := (hh.snoc (.state _ hs)).inv
    rcases ih with ⟨g1, g2, g3, g4, g5⟩ | ⟨g1, g2⟩
    · by_cases hst : ∃ g, s.loop = .st g
      · obtain ⟨g, hg⟩ := hst
        by_cases hw : (s.grips g).parent = w
        · have hb : between s w = 1 := by unfold between; rw [hg]; simp [hw]
          rw [hb]
          rcases g1.self hh.inv hg hw hs with ⟨e1, e2⟩ | ⟨e1, e2⟩
          · have : (s.wds w).count.toNat = 1 := by
              have h3 : (s.wds w).count = 1 := by
                generalize (s.wds w).count = k at e1
                have := congrArg (fun x : BitVec 8 => x + 1) e1
                simp only [BitVec.sub_add_cancel] at this
                exact this
              rw [h3]; rfl
            exact .inr ⟨e2, by omega, by omega⟩
          · obtain ⟨c1, c2⟩ := count_pred e1 g3
            have hwd : s'.wds w = { s.wds w with count := (s.wds w).count - 1 } := by
              rw [e2]; simp only [St.setWd]; rw [upd_same]
            refine .inl ⟨⟨by rw [e2]; exact g1.tab, by rw [hwd]; exact g1.st⟩, by rw [hwd]; exact g2, by rw [hwd]; exact c1, by rw [hwd]; simp only; omega, ?_⟩
            have h1 : rdsum s' w = rdsum s w := by
              unfold rdsum
              rw [hwd, e2]
              rfl
            omega
        · have hb : between s w = 0 := by unfold between; rw [hg]; simp [hw]
          rw [hb]
          obtain ⟨e1, e2, e3, e4⟩ := g1.other hh.inv hg hw hs
          obtain ⟨e5, e6⟩ := rd_ext hh.inv hi' g1 e1 e2 e4 (fun x hx => by rw [hg] at hx; cases hx)
          refine .inl ⟨e5, by rw [e1]; exact g2, by rw [e1]; exact g3, by rw [e1]; omega, ?_⟩
          omega
      · have hb : between s w = 0 := by
          unfold between
          split
          · rename_i g hg; exact absurd ⟨g, hg⟩ hst
          · rfl
        have : s' = s := by
          unfold loopstate at hs
          split at hs
          · rename_i g hg; exact absurd ⟨g, hg⟩ hst
          · exact (Option.some.inj hs).symm
        subst this
        rw [hb]
        exact .inl ⟨g1, g2, g3, by omega, by omega⟩
    · exact .inr ⟨CStep.clear hh.inv (.state _ hs) g1 (hS.noask ha), g2.1, by have := g2.2; omega⟩

theorem Up.len {F : Event} (hu : Up s w F) : (s.wds w).slots.length = (cnt F).toNat ∧ (s.wds w).slots.length = (if hasFile F then 1 else 0) + if hasDir F then 1 else 0 := by
  unfold cnt Wd.slots
  have h0 := hu false
  have h2 := hu true
  simp only [has, Wd.slot] at h0 h2
  rcases h0 with ⟨a, b⟩ | ⟨a, g, h, b, _⟩ <;> rcases h2 with ⟨c, d⟩ | ⟨c, g', h', d, _⟩ <;> rw [a, b, c, d] <;> simp

/-- The state left by a successful `Unwatch`. -/
theorem CHist.unwatched {l : List Op} {e : Event} {r : Bool} (h : CHist l s) (hl : asked l p = some (e, r)) (ho : (unwatch s p false).2 = true) :
    ∃ w, s.m.get? p = some w ∧ CHist (l ++ [.unwatch p true]) (unwatch s p false).1 ∧ asked (l ++ [.unwatch p true]) p = none ∧
      Lingers (unwatch s p false).1 p w ∧ ((unwatch s p false).1.wds w).slots.length = (wanted e r).length ∧
      ((unwatch s p false).1.wds w).count.toNat = (wanted e r).length ∧ 0 < (wanted e r).length := by
  have hst : CStep (asked l) s (.unwatch p true) (unwatch s p false).1 := by
    have := CStep.unwatch (f := asked l) (s := s) p (show LegalOp (asked l) (.unwatch p true) from fun hn => by rw [hn] at hl; cases hl)
    rw [ho] at this
    exact this
  obtain ⟨w, hw, hm, hp, hrec, hve, hc⟩ := h.inv.ask hl
  have hns : ∃ w', nonState s p = some w' := by
    unfold Dcw.unwatch at ho
    cases hns : nonState s p with
    | none => rw [hns] at ho; cases ho
    | some w' => exact ⟨w', rfl⟩
  obtain ⟨w', hns⟩ := hns
  have hww : w' = w ∧ (s.wds w).filter &&& onlyStates = 0 := by
    unfold nonState at hns
    rw [hm] at hns
    simp only at hns
    split at hns
    · cases hns
    · rename_i h0
      cases hns
      exact ⟨rfl, Classical.not_not.1 h0⟩
  obtain ⟨rfl, hst0⟩ := hww
  have hun : (Dcw.unwatch s p false).1 = s.setWd w' { s.wds w' with filter := (s.wds w').filter ||| stUnwatch } := by
    unfold Dcw.unwatch; rw [hns]; rfl
  have hwd : (Dcw.unwatch s p false).1.wds w' = { s.wds w' with filter := (s.wds w').filter ||| stUnwatch } := by
    rw [hun]; simp only [St.setWd]; rw [upd_same]
  rcases hc with ⟨h3, h5, F, h6, h7, h8, h9⟩ | ⟨h3, -, -⟩
  · have hlen : (s.wds w').slots.length = (wanted e r).length := by
      rw [h8.len.2, h7, hasDir_st F, h6]
      unfold wanted
      cases hasFile e <;> cases hasDir e <;> simp
    refine ⟨w', hm, h.snoc hst, ?_, ⟨?_, ?_⟩, ?_, ?_, ?_⟩
    · rw [asked_snoc]; simp [askedStep]
    · rw [hun]; exact hm
    · rw [hwd, h3]; exact unwatch_states hve
    · rw [hwd]; exact hlen
    · rw [hwd]; simp only; rw [h9, ← h8.len.1, hlen]
    · unfold wanted
      rcases (C58_accepted e hve).2.2.2 h5 with h | h <;> rw [h] <;> simp
  · rw [h3, rewatch_states hve] at hst0
    exact absurd hst0 (by decide)

/-- The steps of the watcher while `p` is not watched again are those of `Since`. -/
theorem Since.step {l₀ l : List Op} {s₀ : St} {n k : Nat} {op : Op} (h : Since p w l₀ s₀ l n k s) (hs : CStep (asked (l₀ ++ l)) s op s')
    (hn : asked (l₀ ++ l ++ [op]) p = none) : ∃ n' k', n ≤ n' ∧ Since p w l₀ s₀ (l ++ [op]) n' k' s' := by
  cases hs with
  | complete r hr => exact ⟨_, _, by split <;> omega, .complete r h hr⟩
  | take => exact ⟨_, _, Nat.le_refl _, .take h⟩
  | again => exact ⟨_, _, Nat.le_refl _, .again h⟩
  | state _ hs => exact ⟨_, _, Nat.le_refl _, .state h hs⟩
  | watch p' e' isrec a0 a1 h1 h2 h3 h4 => exact ⟨_, _, Nat.le_refl _, .call h (.watch p' e' isrec a0 a1 h1 h2 h3 h4) nofun hn⟩
  | rewatch p' old new isrec _ ok h1 h2 h3 h4 => exact ⟨_, _, Nat.le_refl _, .call h (.rewatch p' old new isrec _ ok h1 h2 h3 h4) nofun hn⟩
  | unwatch p' h1 => exact ⟨_, _, Nat.le_refl _, .call h (.unwatch p' h1) nofun hn⟩

/-- A path that is in the table and not asked for lingers. -/
theorem Inv.lingers (hi : Inv s f D) (hf : f p = none) (hm : s.m.get? p = some w) : Lingers s p w := by
  obtain ⟨hw, hp⟩ := hi.base.tab _ _ hm
  cases hi.cls w hw with
  | up F e a b => rw [hp, hf] at b; cases b
  | re e a b => rw [hp, hf] at b; cases b
  | un F a b c => exact ⟨hm, c⟩
  | gone a => rw [hp] at a; exact absurd hm a

theorem Lingers.count {l : List Op} (h : CHist l s) : ∀ {p w}, Lingers s p w → 0 < (s.wds w).count.toNat ∧ (s.wds w).count.toNat ≤ (s.wds w).slots.length := by
  induction h with
  | nil => intro p w hl; have := hl.tab; cases this
  | @snoc l s s' op h hs ih =>
    intro p w hl'
    have hn := (hl'.un (h.snoc hs).inv).1
    cases hf : asked l p with
    | some er =>
      obtain ⟨e, r⟩ := er
      have hop : op = .unwatch p true := by
        rw [asked_snoc] at hn
        cases op with
        | tau => simp only [askedStep] at hn; rw [hf] at hn; cases hn
        | watch q e' r' ok => cases ok <;> simp only [askedStep] at hn <;> (try split at hn) <;> simp_all
        | rewatch q o e' r' ok => cases ok <;> simp only [askedStep] at hn <;> (try split at hn) <;> simp_all
        | unwatch q ok => cases ok <;> simp only [askedStep] at hn <;> (try split at hn) <;> simp_all
      subst hop
      generalize hop' : Op.unwatch p true = o at hs
      cases hs with
      | unwatch p' h1 =>
        simp only [Op.unwatch.injEq] at hop'
        obtain ⟨rfl, ho⟩ := hop'
        obtain ⟨w', -, -, -, hl2, h5, h6, h7⟩ := h.unwatched hf ho.symm
        have : w' = w := Option.some.inj (hl2.tab.symm.trans hl'.tab)
        subst this
        omega
      | _ => cases hop'
    | none =>
      cases hm : s.m.get? p with
      | none =>
        have := CStep.clear h.inv hs hm (by rw [asked_snoc] at hn; exact hn)
        have h2 := hl'.tab
        rw [this] at h2
        cases h2
      | some w2 =>
        have hl := h.inv.lingers hf hm
        have hc := ih hl
        obtain ⟨n', k', -, hS⟩ := Since.step (p := p) (w := w2) (l := []) .refl (by rw [List.append_nil]; exact hs) (by rw [List.append_nil]; exact hn)
        rcases hS.bound h hf hl hc.1 with ⟨g1, g2, g3, g4, -⟩ | ⟨g1, -⟩
        · have : w2 = w := Option.some.inj (g1.tab.symm.trans hl'.tab)
          subst this
          rw [g2]
          omega
        · have h2 := hl'.tab
          rw [g1] at h2
          cases h2

/-! ### C105 -/

/-- **C105 (partial).**  A directory is watched with the set `e`, for which the kernel holds one or two handles; then `Unwatch` succeeds.  As long as the directory is not
watched again, whatever else is watched, changed and unwatched and whatever changes: the kernel completes at most twice as many reads of the directory as there were handles,
the entry is in the table until the loop has handled as many packets of it as there were handles, and from then on the table has no entry and the kernel reads nothing for it.
Missing: the executions excluded in C60 to C62; that nothing is reported after `Unwatch` is false (`C60_unwatch_refuted`, `C105_tight`), and
the bound is false without these exclusions (`C105_refuted`). -/
theorem C105_silent_partial {l : List Op} {e : Event} {r : Bool} (h : CHist l s) (hl : asked l p = some (e, r)) (ho : (unwatch s p false).2 = true) :
    1 ≤ (wanted e r).length ∧ (wanted e r).length ≤ 2 ∧ ∃ w, s.m.get? p = some w ∧
      ∀ l' n k s', Since p w (l ++ [.unwatch p true]) (unwatch s p false).1 l' n k s' →
        n ≤ 2 * (wanted e r).length ∧
        (k < (wanted e r).length → s'.m.get? p = some w) ∧
        ((wanted e r).length ≤ k → s'.m.get? p = none ∧ held s' p = []) := by
  obtain ⟨w, hm, h0, ha, hli, hsl, hc, hpos⟩ := h.unwatched hl ho
  refine ⟨hpos, hsl ▸ slots_len _, w, hm, fun l' n k s' hS => ?_⟩
  have hb := hS.bound h0 ha hli (by rw [hc]; exact hpos)
  rw [hsl, hc] at hb
  rcases hb with ⟨g1, g2, g3, g4, g5⟩ | ⟨g1, g2, g3⟩
  · have : between s' w ≤ 1 := by
      unfold between
      split
      · split <;> omega
      · omega
    refine ⟨by omega, fun _ => g1.tab, fun hk => by omega⟩
  · refine ⟨by omega, fun hk => by omega, fun _ => ⟨g1, ?_⟩⟩
    unfold held
    rw [List.map_eq_nil_iff, List.filter_eq_nil_iff]
    intro x hx hp
    have := (hS.hist h0).inv.read_tab hx
    rw [of_decide_eq_true hp, g1] at this
    cases this

/-- **C105 (partial), at any time.**  At any moment at which a directory is not to be watched, and from then on as long as it is not watched again, the kernel completes
at most four reads of it; none if it is not in the table, and then it does not get there. -/
theorem C105_any_partial {l : List Op} (h : CHist l s) (hl : asked l p = none) {w : Nat} {l' : List Op} {n k : Nat} (hS : Since p w l s l' n k s') :
    (s.m.get? p = some w → n ≤ 4) ∧ (s.m.get? p = none → n = 0 ∧ s'.m.get? p = none) := by
  refine ⟨fun hm => ?_, fun hm => ?_⟩
  · have hli := h.inv.lingers hl hm
    have hc := Lingers.count h hli
    have h2 := slots_len (s.wds w)
    rcases hS.bound h hl hli hc.1 with ⟨g1, g2, g3, g4, g5⟩ | ⟨g1, g2, g3⟩
    · have : between s' w ≤ 1 := by
        unfold between
        split
        · split <;> omega
        · omega
      omega
    · omega
  · induction hS with
    | refl => exact ⟨rfl, hm⟩
    | call hS hs hop hn ih => exact ⟨ih.1, CStep.clear (hS.hist h).inv hs ih.2 (by rw [asked_snoc] at hn; exact hn)⟩
    | complete r hS hr ih =>
      refine ⟨?_, ih.2⟩
      rw [if_neg]
      · exact ih.1
      · intro hp
        have := (hS.hist h).inv.read_tab hr
        rw [hp, ih.2] at this
        cases this
    | take hS ih => exact ⟨ih.1, by rw [(take_same _).2.2.2]; exact ih.2⟩
    | again hS ih => exact ⟨ih.1, by rw [(again_same _).2.2]; exact ih.2⟩
    | state hS hs ih => exact ⟨ih.1, CStep.clear (hS.hist h).inv (.state _ hs) ih.2 (hS.noask hl)⟩

/-! ### The bound is reached -/

/-- Steps of the loop and of the kernel, counted. -/
def scont (p : Path) (w : Nat) : List Act → St → Nat → Nat → Option (St × Nat × Nat)
  | [], s, n, k => some (s, n, k)
  | .complete i :: l, s, n, k =>
    match s.reads[i]? with
    | none => none
    | some r => scont p w l (Dcw.complete s r) (if (s.grips r.g).path = p then n + 1 else n) k
  | .take :: l, s, n, k => scont p w l (Dcw.take s) n k
  | .again true :: l, s, n, k => scont p w l (Dcw.again s true) n k
  | .state _ _ :: l, s, n, k =>
    match loopstate s {} {} with
    | none => none
    | some s' => scont p w l s' n (k + between s w)
  | _, _, _, _ => none

theorem scont_since {l₀ : List Op} {s₀ : St} : ∀ (a : List Act) {l : List Op} {s : St} {n k : Nat} {x : St × Nat × Nat}, Since p w l₀ s₀ l n k s →
    scont p w a s n k = some x → ∃ l', Since p w l₀ s₀ l' x.2.1 x.2.2 x.1
  | [], l, s, n, k, x, h, e => by cases e; exact ⟨l, h⟩
  | .complete i :: a, l, s, n, k, x, h, e => by
    simp only [scont] at e
    cases hr : s.reads[i]? with
    | none => rw [hr] at e; cases e
    | some r => rw [hr] at e; exact scont_since a (.complete r h (List.mem_of_getElem? hr)) e
  | .take :: a, l, s, n, k, x, h, e => scont_since a (.take h) e
  | .again true :: a, l, s, n, k, x, h, e => scont_since a (.again h) e
  | .state _ _ :: a, l, s, n, k, x, h, e => by
    simp only [scont] at e
    cases hr : loopstate s {} {} with
    | none => rw [hr] at e; cases e
    | some s' => rw [hr] at e; exact scont_since a (.state h hr) e
  | .again false :: a, l, s, n, k, x, h, e => by simp [scont] at e
  | .watch .. :: a, l, s, n, k, x, h, e => by simp [scont] at e
  | .rewatch .. :: a, l, s, n, k, x, h, e => by simp [scont] at e
  | .unwatch .. :: a, l, s, n, k, x, h, e => by simp [scont] at e

namespace Ex7

/-- A directory watched for Create needs two handles. -/
def a0 : List Act := [.watch Ex2.p readdcw.create false {} {}]

/-- Four reports after `Unwatch`: one each before the first packet is handled, during that, and two before the second is. -/
def a1 : List Act := [.complete 0, .take, .again true, .complete 1, .state {} {}, .take, .again true, .complete 1, .complete 0, .state {} {}]

/-- After the race of `C61_refuted` there are three reads outstanding. -/
def a2 : List Act := [.complete 0, .complete 0, .complete 0, .take, .again true, .complete 0, .state {} {}, .take, .again true, .complete 0, .state {} {}]

end Ex7

/-- The bound of C105 is reached: four reports after `Unwatch`. -/
theorem C105_tight : ∃ l s l' s' p, CHist l s ∧ asked l p = some (readdcw.create, false) ∧ (unwatch s p false).2 = true ∧
    Since p 0 (l ++ [.unwatch p true]) (unwatch s p false).1 l' 4 2 s' ∧ (wanted readdcw.create false).length = 2 := by
  have h : ∃ x, scont Ex2.p 0 Ex7.a1 (unwatch (cfinal Ex7.a0).1 Ex2.p false).1 0 0 = some x ∧ x.2.1 = 4 ∧ x.2.2 = 2 := by
    have : (scont Ex2.p 0 Ex7.a1 (unwatch (cfinal Ex7.a0).1 Ex2.p false).1 0 0).map (·.2) = some (4, 2) := by decide
    obtain ⟨x, h1, h2⟩ := Option.map_eq_some_iff.1 this
    exact ⟨x, h1, by rw [h2], by rw [h2]⟩
  obtain ⟨⟨s', n, k⟩, hx, h1, h2⟩ := h
  simp only at h1 h2
  subst h1 h2
  obtain ⟨l', hS⟩ := scont_since (l₀ := (cfinal Ex7.a0).2 ++ [.unwatch Ex2.p true]) Ex7.a1 .refl hx
  exact ⟨_, _, l', s', Ex2.p, cfinal_hist Ex7.a0, by decide, by decide, hS, by decide⟩

/-- **C105 is false of the code** in general: after a `Rewatch` while the loop handles an event there are more reads than handles, and five reports after `Unwatch`. -/
theorem C105_refuted : ¬ ∀ (l : List Op) (s : St) (p : Path) (e : Event) (r : Bool) (w : Nat) (l' : List Op) (n k : Nat) (s' : St),
    LHist l s → asked l p = some (e, r) → s.m.get? p = some w → (unwatch s p false).2 = true →
    Since p w (l ++ [.unwatch p true]) (unwatch s p false).1 l' n k s' → n ≤ 2 * (wanted e r).length := by
  intro h
  have : (scont Ex2.p 0 Ex7.a2 (unwatch (final Ex2.le).1 Ex2.p false).1 0 0).map (·.2) = some (5, 2) := by decide
  obtain ⟨⟨s', n, k⟩, hx, h2⟩ := Option.map_eq_some_iff.1 this
  cases h2
  obtain ⟨l', hS⟩ := scont_since (l₀ := (final Ex2.le).2 ++ [.unwatch Ex2.p true]) Ex7.a2 .refl hx
  have := h _ _ Ex2.p (readdcw.create ||| readdcw.write) false 0 l' _ _ s' (final_hist Ex2.le) (by decide) (by decide) (by decide) hS
  have h4 : (wanted (readdcw.create ||| readdcw.write) false).length = 2 := by decide
  rw [h4] at this
  simp only at this
  omega

/-- C105 for the example. -/
example : ∀ l' n k s', Since Ex2.p 0 ((cfinal Ex7.a0).2 ++ [.unwatch Ex2.p true]) (unwatch (cfinal Ex7.a0).1 Ex2.p false).1 l' n k s' →
    n ≤ 4 ∧ (2 ≤ k → held s' Ex2.p = []) := by
  intro l' n k s' hS
  obtain ⟨-, -, w, hm, hb⟩ := C105_silent_partial (cfinal_hist Ex7.a0) (p := Ex2.p) (e := readdcw.create) (r := false) (by decide) (by decide)
  obtain rfl : w = 0 := (Option.some.inj (hm.symm.trans (by decide)))
  have := hb l' n k s' hS
  have hw : (wanted readdcw.create false).length = 2 := by decide
  rw [hw] at this
  exact ⟨this.1, fun hk => (this.2.2 hk).2⟩

end Dcw
end Verif
