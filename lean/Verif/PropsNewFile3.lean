/-
The whole program on Solaris and illumos: a file that appears in a directory watched for Create (C121).

Other than on the BSDs a notification ends the association of the directory; what happens to the directory before the watcher has made another one
(watcher_trigger.go:429-438) is not reported.
-/
import Verif.PropsNewFile2
import Verif.PropsFen

namespace Verif
namespace Fen
open Trg (fen Env Unseen Told)
open NonRec (Op regOf NoFail GoodPath)
open Spec (wants copies)
open Linux (Free sigs isSig isEv Gets)
open Plain (Leaves Fit due due_step free_tree)

/-- The part of `J` that does not speak about the file system. -/
structure G (base ops : List Op) (s : FSt) : Prop where
  amid : Plain.Amid P base ops s.sys.tree s.plan s.todo s.log
  queue : ∀ y ∈ s.kern.queue, y.2.2 &&& gone = 0
  since : ∀ q, s.kern.since q &&& gone = 0
  hand : ∀ p ge, s.hand = some (p, ge) → ge &&& gone = 0
  turn : s.hand ≠ none → s.out = []

theorem G.step {cfg : Sched.Cfg} {E : Env} {base ops o : List Op} {k : List (Call × Bool)} {r : List (Path × Event)} {g : List (Key × EventInfo)}
    {s s' : FSt} (h : G base ops s) (hs : FStep cfg (calm E) s o k r g s') : G base (ops ++ o) s' := by
  cases hs with
  | go l sys' htr hl =>
    rw [List.append_nil]
    refine ⟨?_, h.queue, h.since, h.hand, h.turn⟩
    simp only [free_tree (P := P) htr hl]
    exact h.amid
  | change p fl hx =>
    rw [List.append_nil]
    refine ⟨h.amid, fun y hy => ?_, fun q => ?_, h.hand, h.turn⟩
    · rcases change_queue hy with hy | ⟨a, m, _, rfl⟩
      · exact h.queue y hy
      · exact and_gone hx
    · simp only [Kern.change]
      split
      · rw [BitVec.and_or_distrib_right, and_gone hx, h.since p]; rfl
      · exact h.since q
  | wait p a fl hh ho hp =>
    rw [List.append_nil]
    refine ⟨h.amid, fun y hy => h.queue y (List.mem_of_mem_erase hy), h.since, ?_, fun _ => ho⟩
    intro p' ge he
    cases he
    exact h.queue _ hp
  | process E' p ge hx hh =>
    rw [List.append_nil]
    exact ⟨h.amid, fun y hy => (calls_queue _ h.since hy).elim (h.queue y) id, calls_since _ h.since, (fun _ _ he => by cases he), fun he => absurd rfl he⟩
  | send ei l ho hc hok =>
    rw [List.append_nil]
    refine ⟨h.amid, h.queue, h.since, h.hand, fun hh => ?_⟩
    have := h.turn hh
    rw [ho] at this
    cases this
  | plan r ops' t new hr hp ht hn =>
    have ha := h.amid
    rw [hp] at ha
    exact ⟨ha.begin r ht.1 hn, h.queue, h.since, h.hand, h.turn⟩
  | call E' c ok rest w' hx ht hs =>
    rw [List.append_nil]
    have ha := h.amid
    rw [ht] at ha
    exact ⟨ha.call, fun y hy => (calls_queue _ h.since hy).elim (h.queue y) id, calls_since _ h.since, h.hand, h.turn⟩
  | effect i r a b t hcalls hp ht =>
    have ha := h.amid
    rw [hp, ht] at ha
    rw [List.append_nil]
    refine ⟨?_, h.queue, h.since, h.hand, h.turn⟩
    simp only [ht]
    exact ha.done
  | intEffect ei t hi hp ht =>
    have ha := h.amid
    rw [hp, ht] at ha
    rw [List.append_nil]
    refine ⟨?_, h.queue, h.since, h.hand, h.turn⟩
    simp only [ht]
    exact ha.done

/-- The directory is not read yet; `chd`: it has changed, and a notification is on its way. -/
structure Waits (p : Path) (n : Comp) (chd : Prop) (s : FSt) : Prop where
  unseen : Unseen fen p n s.w
  main : (∃ a m, (p, a, m) ∈ s.kern.assoc ∧ fen.nWrite ⊑ m) ∨ Flying p fen.nWrite s
  chg : chd → Flying p fen.nWrite s

/-- Either this, or enough signals were made or are on their way. -/
structure Stage (K c : Nat) (p : Path) (n : Comp) (chd : Prop) (sg : Nat) (s : FSt) : Prop where
  fit : Fit K c (isEv P.create (p ++ [n])) s.sys
  or : Waits p n chd s ∨ K ≤ sg + due K c (isEv P.create (p ++ [n])) s.sys + K * s.out.countP (isEv P.create (p ++ [n]))

section
variable {cfg : Sched.Cfg} {E : Env} {base ops o : List Op} {k : List (Call × Bool)} {r : List (Path × Event)} {g : List (Key × EventInfo)}
  {s s' : FSt} {c : Nat} {p : Path} {n : Comp} {K sg : Nat} {chd : Prop}

theorem told_count {evs : List Trg.Ev} (h : Told fen p n evs) : 1 ≤ (evs.map info).countP (isEv P.create (p ++ [n])) := by
  obtain ⟨d, h⟩ := h
  exact List.countP_pos_iff.2 ⟨_, List.mem_map_of_mem h, by simp [isEv, info]; rfl⟩

/-- A call that is not for `p` nor for the directory above ends no association of `p`. -/
theorem Keeps.spared {z : Rec} (h : Keeps p z) {c : Call} {ok : Bool} {z' : Rec} (ha : Bsd.Spares p n c) (hs : Serves E z c ok z') : Keeps p z' := by
  cases hs with
  | watch q e _ =>
    unfold Fen.Watch
    split
    · exact h
    · exact h.watch _ _ _
  | rewatch q old new _ =>
    unfold Fen.Rewatch
    split
    · exact h
    · rename_i d _
      have h1 := h.unwatch (E := E) ha.1 ha.2.2 d
      split
      · rename_i heq
        rw [heq] at h1
        exact h1.watch _ _ _
      · rename_i heq
        rw [heq] at h1
        exact h1
  | unwatch q _ =>
    unfold Fen.Unwatch
    split
    · exact h
    · exact h.unwatch ha.1 ha.2.2 _

theorem unseen_serves (hE : Trg.Steady E) (hp : GoodPath p) {t : Trg.St} (h : Unseen fen p n t) {c : Call} {ok : Bool} {z' : Rec}
    (ha : Bsd.Spares p n c) (hs : Serves E ⟨t, []⟩ c ok z') : Unseen fen p n z'.t := by
  obtain ⟨h1, _⟩ := Sim.serves (n₀ := t.nat) (s := ⟨t, []⟩) hE.reg hE.unreg ⟨rfl, rfl⟩ hs
  generalize z'.t = t' at h1
  cases h1 with
  | watch q e _ => exact (Unseen.frame hp ha.1 ha.2).toAdds.Watch h e
  | rewatch q old new _ => exact (Unseen.frame hp ha.1 ha.2.1).Rewatch h new
  | unwatch q _ => exact (Unseen.frame hp ha.1 ha.2.1).Unwatch h

theorem Waits.moved {s' : FSt} {chd' : Prop} (h : Waits p n chd s) (hw : Unseen fen p n s'.w) (hh : s'.hand = s.hand)
    (ha : ∀ a m, (p, a, m) ∈ s.kern.assoc → (p, a, m) ∈ s'.kern.assoc) (hq : ∀ a m, (p, a, m) ∈ s.kern.queue → (p, a, m) ∈ s'.kern.queue)
    (hc : chd' → chd) : Waits p n chd' s' := by
  have hf : Flying p fen.nWrite s → Flying p fen.nWrite s' := by
    rintro (⟨a, fl, h1, h2⟩ | h1)
    · exact .inl ⟨a, fl, hq a fl h1, h2⟩
    · exact .inr (by rw [hh]; exact h1)
  exact ⟨hw, h.main.imp (fun ⟨a, m, h1, h2⟩ => ⟨a, m, ha a m h1, h2⟩) hf, fun h1 => hf (h.chg (hc h1))⟩

theorem write_ne {m ge : Event} (h1 : fen.nWrite ⊑ m) (h2 : fen.nWrite ⊑ ge) : ge &&& m ≠ 0 := by
  intro h0
  have := Event.bext.1 h0 1
  rw [BitVec.getLsbD_and, show BitVec.getLsbD ge 1 = true from h2 1 (by decide), show BitVec.getLsbD m 1 = true from h1 1 (by decide)] at this
  revert this
  decide

theorem Stage.step (hg : G base ops s) (hE : Trg.Steady E) (hp : GoodPath p) (hst : E.stat p = some true) (hn : E.stat (p ++ [n]) ≠ none)
    (hK : ∀ ei, isEv P.create (p ++ [n]) ei = true → (Y.sends s.sys.tree ei).count (.user c) = K)
    (h : Stage K c p n chd sg s) (hs : FStep cfg (calm E) s o k r g s') (hk : ∀ y ∈ k, Bsd.Spares p n y.1)
    (hr : ∀ fl, (p, fl) ∈ r → fen.nWrite ⊑ fl) :
    Stage K c p n (chd ∨ ∃ fl, (p, fl) ∈ r) (sg + g.countP (isSig c (isEv P.create (p ++ [n])))) s' := by
  obtain ⟨hfit, hor⟩ := h
  cases hs with
  | go l sys' htr hl =>
    obtain ⟨h4, h5⟩ := due_step (P := P) (f := isEv P.create (p ++ [n])) htr hl hK hfit
    refine ⟨h5, ?_⟩
    rcases hor with h | h
    · exact .inl (h.moved h.unseen rfl (fun _ _ h => h) (fun _ _ h => h) (by simp))
    · right; dsimp only; omega
  | change q fl hxc =>
    refine ⟨hfit, hor.imp (fun h => ?_) (fun h => by simpa using h)⟩
    by_cases hq : q = p
    · subst hq
      have hf : Flying q fen.nWrite { s with kern := s.kern.change q fl } := by
        rcases h.main with ⟨a, m, h1, h2⟩ | h1
        · have hfl := hr fl (by simp)
          rcases change_assoc (p := q) (fl := fl) h1 with ⟨_, _, h3⟩ | ⟨h3, _⟩
          · exact .inl ⟨a, _, h3, and_sub hfl (h2.trans (Event.sub_or_left _ _))⟩
          · exact absurd ⟨rfl, write_ne (h2.trans (Event.sub_or_left _ _)) hfl⟩ h3
        · exact h1.change q fl
      exact ⟨h.unseen, .inr hf, fun _ => hf⟩
    · refine ⟨h.unseen, ?_, fun hc => (h.chg (hc.resolve_right ?_)).change q fl⟩
      · rcases h.main with ⟨a, m, h1, h2⟩ | h1
        · rcases change_assoc (p := q) (fl := fl) h1 with ⟨h3, _⟩ | ⟨_, h3⟩
          · exact absurd h3.symm hq
          · exact .inl ⟨a, m, h3, h2⟩
        · exact .inr (h1.change q fl)
      · rintro ⟨fl', hmem⟩
        simp at hmem
        exact hq hmem.1.symm
  | wait q a fl hh ho hpq =>
    refine ⟨hfit, hor.imp (fun h => ⟨h.unseen, h.main.imp id (fun h => h.wait hh), fun hc => (h.chg (by simpa using hc)).wait hh⟩) (fun h => by simpa using h)⟩
  | process E' q ge hxe hh =>
    have hx' : E' = E := hxe
    subst hx'
    have hout : s.out = [] := hg.turn (by rw [hh]; simp)
    have hge := hg.hand _ _ hh
    refine ⟨hfit, ?_⟩
    rcases hor with h | h
    · obtain ⟨⟨e1, _⟩, e2⟩ := Sim.process (n₀ := (Trg.retrieved fen s.w q).nat) (s := s.woken q) (t := Trg.retrieved fen s.w q) hE.reg hE.unreg ⟨rfl, rfl⟩ q ge
      have hu : Unseen fen p n (Trg.retrieved fen s.w q) := ⟨h.unseen.dir, h.unseen.new⟩
      have hdone : Told fen p n (Trg.process fen E' (Trg.retrieved fen s.w q) q ge).2 →
          K ≤ sg + ([] : List (Key × EventInfo)).countP (isSig c (isEv P.create (p ++ [n]))) + due K c (isEv P.create (p ++ [n])) s.sys +
            K * ((process E' (s.woken q) q ge).2.map info).countP (isEv P.create (p ++ [n])) := by
        intro ht
        have h1 := told_count ht
        rw [e2]
        have := Nat.mul_le_mul_left K h1
        omega
      by_cases hnow : q = p ∧ fen.nWrite ⊑ ge
      · obtain ⟨rfl, hwr⟩ := hnow
        right
        apply hdone
        have hn' : n ≠ [] := by
          rcases hE.form _ hn with hh | hh
          · exfalso
            have := congrArg List.length hh
            simp at this
            exact hp.1 this
          · rintro rfl
            exact hh.2 (by simp)
        obtain ⟨d, hd⟩ := Option.ne_none_iff_exists'.1 hn
        obtain ⟨l, hl1, _, hl3⟩ := hE.list q hst
        refine hu.found hp (hE.reg q) hge (write_ne (fun _ h => h) hwr) hl1 ?_ ?_
        · exact List.mem_map.2 ⟨(n, d), (hl3 n d).2 ⟨hn', by rw [Trg.join_entry hp]; exact hd⟩, rfl⟩
        · rcases hE.opn _ hn with h1 | h1
          · exact .inr ⟨h1, hE.reg _⟩
          · exact .inl h1
      · rcases hu.process hp (E := E') (q := q) (ge := ge) (fun _ => hE.reg p) (.inl hge) with h1 | h1
        · left
          have hkeep := calls_keep (x := p) (process E' (s.woken q) q ge).1.n (k := s.kern)
            (Keeps.process (s := s.woken q) (fun _ h => by cases h) q hge)
          have hf : Flying p fen.nWrite s → ∃ a fl, (p, a, fl) ∈ s.kern.queue ∧ fen.nWrite ⊑ fl := by
            rintro (hf | ⟨ge', h2, h3⟩)
            · exact hf
            · rw [hh] at h2
              cases h2
              exact absurd ⟨rfl, h3⟩ hnow
          have hf' : Flying p fen.nWrite s → ∃ a fl, (p, a, fl) ∈ ((process E' (s.woken q) q ge).1.n.foldl Kern.call s.kern).queue ∧ fen.nWrite ⊑ fl :=
            fun h2 => (hf h2).imp fun a h3 => h3.imp fun fl h4 => ⟨(hkeep.2 a fl).2 h4.1, h4.2⟩
          refine ⟨by simp only [e1]; exact h1, ?_, fun hc => .inl (hf' (h.chg (by simpa using hc)))⟩
          exact h.main.imp (fun ⟨a, m, h2, h3⟩ => ⟨a, m, hkeep.1 a m h2, h3⟩) (fun h2 => .inl (hf' h2))
        · exact .inr (hdone h1)
    · right
      rw [hout] at h
      simp only [List.countP_nil, Nat.mul_zero, Nat.add_zero] at h ⊢
      omega
  | send ei l ho hc hok =>
    refine ⟨hfit, hor.imp (fun h => h.moved h.unseen rfl (fun _ _ h => h) (fun _ _ h => h) (by simp)) (fun h => ?_)⟩
    simp only [due, ho, List.countP_append, List.countP_cons, List.countP_nil, Nat.mul_add] at h ⊢
    omega
  | plan r ops' t new hr' hp ht' hn =>
    exact ⟨hfit, hor.imp (fun h => h.moved h.unseen rfl (fun _ _ h => h) (fun _ _ h => h) (by simp)) (fun h => by simpa using h)⟩
  | call E' c' ok rest w' hxe htodo hs =>
    have hx' : E' = E := hxe
    subst hx'
    have ha : Bsd.Spares p n c' := hk (c', ok) (by simp)
    refine ⟨hfit, hor.imp (fun h => ?_) (fun h => by simpa using h)⟩
    have hkeep := calls_keep (x := p) w'.n (k := s.kern) (Keeps.spared (z := ⟨s.w, []⟩) (fun _ h => by cases h) ha hs)
    exact h.moved (unseen_serves hE hp h.unseen ha hs) rfl hkeep.1 (fun a m => (hkeep.2 a m).2) (by simp)
  | effect i r a b t hcalls hp ht' =>
    exact ⟨hfit, hor.imp (fun h => h.moved h.unseen rfl (fun _ _ h => h) (fun _ _ h => h) (by simp)) (fun h => by simpa [due] using h)⟩
  | intEffect ei t hi hp ht' =>
    exact ⟨hfit, hor.imp (fun h => h.moved h.unseen rfl (fun _ _ h => h) (fun _ _ h => h) (by simp)) (fun h => by simpa [due] using h)⟩
end

/-- The state at the beginning. -/
theorem J.waits_os {E : Env} {base : List Op} {s : FSt} (hj : J E base [] s) (hE : Trg.Steady E) (hq : s.Quiet)
    {p : Path} {n : Comp} (hst : E.stat p = some true) (hsk : E.opn p ≠ .skip) (hn : E.stat (p ++ [n]) = none)
    (hos : P.create ⊑ osOf s.log p) : Waits p n False s := by
  have hbit : BitVec.getLsbD (osOf s.log p) 8 = true := by
    rw [show P.create = BitVec.twoPow 32 8 by decide] at hos
    exact (Inotify.sub_pow _ (by decide)).1 hos
  have hbook := fun q => Trg.C66_any_partial hE (hj.drives.runs hE (hj.amid.valid factsP)) q
  have hwp : Spec.Trg.want E.stat (Trg.skips E) (osOf s.log) p = some (true, osOf s.log p, Spec.Trg.indirect (osOf s.log) p) := by
    unfold Spec.Trg.want
    rw [hst]
    simp only
    rw [if_neg]
    rintro (hh | hh)
    · exact hsk (of_decide_eq_true hh)
    · have := Event.bext.1 hh 8
      rw [BitVec.getLsbD_or, hbit] at this
      simp at this
  obtain ⟨b1, b2⟩ := (hbook p).resolve_right (by rw [hwp]; exact fun h => nomatch h.1)
  rw [hwp] at b1 b2
  obtain ⟨w, k1, k2, k3, k4⟩ := Trg.look_some b1
  simp only at k2 k3 k4
  have hc : w.eDir &&& fen.P.create ≠ 0 := by
    rw [k3, show fen.P.create = BitVec.twoPow 32 8 by decide]
    exact (Inotify.and_pow _ (by decide)).2 hbit
  refine ⟨⟨⟨w, k1, k2, hc⟩, ?_⟩, .inl ?_, False.elim⟩
  · have hl := ((hbook (p ++ [n])).resolve_right (by rw [hn]; exact fun ⟨_, _, h, _⟩ => nomatch h)).1
    unfold Spec.Trg.want at hl
    rw [hn] at hl
    exact Trg.look_none hl
  · rcases hj.tok p _ b2 with ⟨a, h1⟩ | ⟨a, fl, h1⟩ | ⟨fl, h1⟩
    · refine ⟨a, _, h1, ?_⟩
      rw [show fen.nWrite = BitVec.twoPow 32 1 by decide, Inotify.sub_pow _ (by decide), Trg.fen_encode_bit _ _ (by decide)]
      simp [hbit]
    · rw [hq.1] at h1; cases h1
    · rw [hq.2.1] at h1; cases h1

theorem J.waits {E : Env} {base : List Op} {s : FSt} (hj : J E base [] s) (hE : Trg.Steady E) (hq : s.Quiet) {c : Nat} (hfail : ∀ op ∈ base, NoFail c op)
    {p : Path} {n : Comp} (hst : E.stat p = some true) (hsk : E.opn p ≠ .skip) (hn : E.stat (p ++ [n]) = none)
    (hw : wants (regOf P base) c P.create p = true) : Waits p n False s :=
  hj.waits_os hE hq hst hsk hn (hj.amid.backed factsP (by simpa using hfail) (x := p) List.prefix_rfl (by simp) (by decide) hw)

theorem FRun.stage {cfg : Sched.Cfg} {E : Env} {base ops : List Op} {calls : List (Call × Bool)} {chgs : List (Path × Event)}
    {sgs : List (Key × EventInfo)} {s s' : FSt} {c : Nat} {p : Path} {n : Comp} {K : Nat} (hg : G base [] s) (hE : Trg.Steady E)
    (hp : GoodPath p) (hst : E.stat p = some true) (hn : E.stat (p ++ [n]) ≠ none) (h : FRun cfg (calm E) s ops calls chgs sgs s')
    (hk : ∀ y ∈ calls, Bsd.Spares p n y.1) (hr : ∀ fl, (p, fl) ∈ chgs → fen.nWrite ⊑ fl) (hops : ∀ op ∈ base ++ ops, NoFail c op)
    (hl : ∀ op ∈ ops, Leaves P c (p ++ [n]) op)
    (hK : copies (regOf P base) c P.create (p ++ [n]) = K) (h0 : Stage K c p n False 0 s) :
    G base ops s' ∧ Stage K c p n (∃ fl, (p, fl) ∈ chgs) (sgs.countP (isSig c (isEv P.create (p ++ [n])))) s' := by
  have hlen : 2 ≤ (p ++ [n]).length := by
    have : p.length ≠ 0 := fun h => hp.1 (List.length_eq_zero_iff.1 h)
    simp; omega
  induction h with
  | refl => exact ⟨hg, h0.fit, h0.or.imp (fun h => ⟨h.unseen, h.main, fun ⟨_, h⟩ => by cases h⟩) id⟩
  | @step ops calls chgs sgs o k r g s1 s2 h1 hs ih =>
    have hops' : ∀ op ∈ base ++ ops, NoFail c op := fun a ha => hops a (by
      simp only [List.mem_append] at ha ⊢; rcases ha with h | h; exact .inl h; exact .inr (.inl h))
    have hl' : ∀ op ∈ ops, Leaves P c (p ++ [n]) op := fun a ha => hl a (by simp [ha])
    obtain ⟨hg1, hs1⟩ := ih (fun y hy => hk y (by simp [hy])) (fun fl hfl => hr fl (by simp [hfl])) hops' hl'
    refine ⟨hg1.step hs, ?_⟩
    have h2 := hs1.step hg1 hE hp hst hn (fun ei hei => (hg1.amid.copies factsP hops' hl' (by decide) nofun hlen hei).trans hK) hs
      (fun y hy => hk y (by simp [hy])) (fun fl hfl => hr fl (by simp [hfl]))
    rw [List.countP_append]
    refine ⟨h2.fit, h2.or.imp (fun h => ⟨h.unseen, h.main, fun ⟨fl, hm⟩ => h.chg ?_⟩) id⟩
    rcases List.mem_append.1 hm with hm | hm
    · exact .inl ⟨fl, hm⟩
    · exact .inr ⟨fl, hm⟩

/-- **C121 (partial), the whole program on Solaris and illumos.**  As `Bsd.C121_bsd_partial`; in addition, whatever happens to the directory `p` while the
entry is new is a change of its contents, at least once.  Missing: calls for `p`, the new entry and the directory in which `p` is; other changes of `p`: with
these it is false (`C121_fen_refuted`). -/
theorem C121_fen_partial {cfg : Sched.Cfg} {E E' : Env} (hE : Trg.Steady E) (hE' : Trg.Steady E') {ops₀ : List Op} {calls₀ : List (Call × Bool)}
    {chgs₀ : List (Path × Event)} {sg₀ : List (Key × EventInfo)} {s : FSt} (h0 : FRun cfg (calm E) FSt.init ops₀ calls₀ chgs₀ sg₀ s)
    (hplan : s.plan = none) (hq : s.Quiet) {c : Nat} {p : Path} {n : Comp} (hp : GoodPath p) (hst : E.stat p = some true) (hsk : E.opn p ≠ .skip)
    (hold : E.stat (p ++ [n]) = none) (hnew : E'.stat (p ++ [n]) ≠ none)
    (hreg : wants (regOf P ops₀) c P.create p = true) (hfail : ∀ op ∈ ops₀, NoFail c op)
    {ops : List Op} {calls : List (Call × Bool)} {chgs : List (Path × Event)} {sg : List (Key × EventInfo)} {s' : FSt}
    (h : FRun cfg (calm E') s ops calls chgs sg s') {fl : Event} (hfl : (p, fl) ∈ chgs) (hwr : ∀ fl, (p, fl) ∈ chgs → fen.nWrite ⊑ fl)
    (hl : ∀ op ∈ ops, Leaves P c (p ++ [n]) op) (hk : ∀ y ∈ calls, Bsd.Spares p n y.1) (hq' : s'.Quiet) :
    1 ≤ copies (regOf P ops₀) c P.create (p ++ [n]) ∧
    copies (regOf P ops₀) c P.create (p ++ [n]) ≤ sg.countP (Gets c P.create (p ++ [n])) := by
  have hj : J E ops₀ [] s := (h0.j hE (J.init E)).rebase hplan
  have hn' : n ≠ [] := by
    rcases hE'.form _ hnew with hh | hh
    · exfalso
      have := congrArg List.length hh
      simp at this
      exact hp.1 this
    · rintro rfl
      exact hh.2 (by simp)
  have hst' : E'.stat p = some true := hE'.isdir p n hp.1 hn' (by rw [Trg.join_entry hp]; exact hnew)
  have hops : ∀ op ∈ ops₀ ++ ops, NoFail c op := by
    intro op hop
    rcases List.mem_append.1 hop with h | h
    · exact hfail op h
    · exact (hl op h).noFail
  have hs0 : Stage (copies (regOf P ops₀) c P.create (p ++ [n])) c p n False 0 s := by
    refine ⟨fun i ei d a hmem => ?_, .inl (hj.waits hE hq hfail hst hsk hold hreg)⟩
    rw [hq.2.2.2.2] at hmem; cases hmem
  obtain ⟨_, _, hor⟩ := h.stage ⟨hj.amid, hj.queue, hj.since, hj.hand, hj.turn⟩ hE' hp hst' hnew hk hwr hops hl rfl hs0
  constructor
  · unfold copies
    rw [List.dropLast_concat, hreg]
    simp only [if_true]
    omega
  · have hgets : sg.countP (Gets c P.create (p ++ [n])) = sg.countP (isSig c (isEv P.create (p ++ [n]))) := by
      apply List.countP_congr
      intro y _
      simp [Gets, isSig, isEv, Bool.and_assoc]
    rw [hgets]
    rcases hor with h1 | h1
    · exfalso
      rcases h1.chg ⟨fl, hfl⟩ with ⟨_, _, h2, _⟩ | ⟨_, h2, _⟩
      · rw [hq'.1] at h2; cases h2
      · rw [hq'.2.1] at h2; cases h2
    · simpa [due, hq'.2.2.1, hq'.2.2.2.1, hq'.2.2.2.2] using h1

/-! ### A change of the attributes before -/

namespace NewEx
open Ex (cfg d e x Re goodE goodX goodD uR)
open Trg.Ex (E7 kd ke kf steady7)
open Trg.NewEx (E0 steady0)

/-- Create and FileAttrib. -/
def CA : Event := 0x104
theorem uCA : NonRec.UserEvents P CA := by unfold NonRec.UserEvents; decide
def req1 : Sched.Req := .watch e false 1 CA
def op1 : Op := .watch e false 1 CA true
def t1 : St := (NonRec.watchOp P .ok (.dir .nil) NonRec.init e false 1 CA).1
theorem step1 : NonRec.Step P true NonRec.init op1 t1 :=
  NonRec.Step.watch (O := .ok) goodE uCA (by simp [DirTree.Named, Entries.Named]) (fun _ _ => rfl)

/-- Channel 1 watches the empty directory `/d/e` for Create and FileAttrib. -/
def s1 : FSt :=
  { sys := { Sched.State.init Y with tree := t1, next := 1 }, w := (Watch E0 ⟨{}, []⟩ e CA).1.t, kern := (Watch E0 ⟨{}, []⟩ e CA).1.n.foldl Kern.call {}
    log := [(.watch e CA, true)] }

theorem run1 : FRun cfg (calm E0) FSt.init [op1] [(.watch e CA, true)] [] [] s1 := by
  have h := FRun.refl (cfg := cfg) (X := calm E0) (s := FSt.init)
  have h := h.step (.go _ _ (.call (Y := Y) req1 (show GoodPath e ∧ NonRec.UserEvents P CA from ⟨goodE, uCA⟩) trivial) trivial)
  have h := h.step (.go _ _ (.lock 0 req1 [] [] rfl (by rintro ⟨_, _, _, _, h⟩; cases h)
    (by rintro ⟨_, _, h | h⟩ <;> cases h <;> contradiction) (by rintro ⟨_, h | h⟩ <;> cases h)) trivial)
  have h := h.step (.plan req1 [op1] t1 [(.watch e CA, true)] (.inl ⟨0, .head _⟩) rfl ⟨NonRec.Steps.nil.snoc step1, op1, ⟨_, rfl⟩, .inl rfl⟩ rfl)
  have h := h.step (.call E0 (.watch e CA) true [] _ rfl rfl (.watch e CA (by decide)))
  have h := h.step (.effect 0 req1 [] [] t1 rfl rfl rfl)
  have h := h.step (.go _ _ (.unlock 0 req1 [] [] rfl) trivial)
  have h := h.step (.go _ _ (.ret 0 req1 [] [] rfl) trivial)
  exact h

theorem quiet1 : s1.Quiet := ⟨rfl, rfl, rfl, rfl, rfl⟩

/-- The attributes of `/d/e` change, and `/d/e/f` appears before the watcher has handled the notification. -/
theorem run2 : ∃ s', FRun cfg (calm E7) s1 [] [] [(e, 0x4), (e, 0x2)] [] s' ∧ s'.plan = none ∧ s'.Quiet := by
  have h := FRun.refl (cfg := cfg) (X := calm E7) (s := s1)
  have h := h.step (.change e 0x4 (by unfold calm; decide))
  have h := h.step (.change e 0x2 (by unfold calm; decide))
  have h := h.step (.wait e 0 0x4 rfl rfl (by decide))
  have h := h.step (.process E7 e 0x4 rfl (by decide))
  exact ⟨_, h, rfl, by decide, rfl, by decide, rfl, rfl⟩

def ei : EventInfo := { event := P.create, path := x, isDir := some false }
def req3 : Sched.Req := .watch d false 2 Re
def op3 : Op := .watch d false 2 Re true
def t3 : St := (NonRec.watchOp P .ok (.dir .nil) t1 d false 2 Re).1
theorem step3 : NonRec.Step P true t1 op3 t3 :=
  NonRec.Step.watch (O := .ok) goodD uR (by simp [DirTree.Named, Entries.Named]) (fun _ _ => rfl)

/-- `/d/e/f` appears; channel 2 watches `/d` before the notification of `/d/e` is retrieved. -/
theorem run3 : ∃ s', FRun cfg (calm E7) s1 [op3] [(.watch d Re, true)] [(e, 0x2)] [(.user 1, ei)] s' ∧ s'.Quiet := by
  have h := FRun.refl (cfg := cfg) (X := calm E7) (s := s1)
  have h := h.step (.change e 0x2 (by unfold calm; decide))
  have h := h.step (.go _ _ (.call (Y := Y) req3 (show GoodPath d ∧ NonRec.UserEvents P Re from ⟨goodD, uR⟩) trivial) trivial)
  have h := h.step (.go _ _ (.lock 1 req3 [] [] rfl (by rintro ⟨_, _, _, _, h⟩; cases h)
    (by rintro ⟨_, _, h | h⟩ <;> cases h <;> contradiction) (by rintro ⟨_, h | h⟩ <;> cases h)) trivial)
  have h := h.step (.plan req3 [op3] t3 [(.watch d Re, true)] (.inl ⟨1, .head _⟩) rfl ⟨NonRec.Steps.nil.snoc step3, op3, ⟨_, rfl⟩, .inl rfl⟩ rfl)
  have h := h.step (.call E7 (.watch d Re) true [] _ rfl rfl (.watch d Re (by decide)))
  have h := h.step (.effect 1 req3 [] [] t3 rfl rfl rfl)
  have h := h.step (.go _ _ (.unlock 1 req3 [] [] rfl) trivial)
  have h := h.step (.wait e 0 0x2 rfl rfl (by decide))
  have h := h.step (.process E7 e 0x2 rfl (by decide))
  have h := h.step (.send ei [] (by decide) (by decide) goodX)
  have h := h.step (.go _ _ (.spawn ei [] rfl) trivial)
  have h := h.step (.go _ _ (.rlock 2 ei [] [] rfl (by rintro ⟨_, _, h | h⟩ <;> cases h <;> contradiction)
    (by rintro ⟨_, h | h⟩ <;> cases h)
    (by rintro _ (⟨_, _, h⟩ | ⟨_, h⟩) <;> cases h <;> contradiction)) trivial)
  have h := h.step (.go _ _ (.pick 2 ei [] (.user 1) [] [] rfl (by decide)) trivial)
  have h := h.step (.go _ _ (.send 2 ei [] (.user 1) [] [] rfl) trivial)
  have hs : NonRec.sends P t3.root ei = [.user 1] := by decide
  have h := h.step (.go _ _ (.fin 2 ei [.user 1] [] [] rfl (by intro k; exact Nat.le_of_eq (congrArg (List.count k) hs)) (by decide)) trivial)
  exact ⟨_, h, by decide, rfl, rfl, rfl, rfl⟩

/-- The run meets the hypotheses. -/
example : ∃ s', FRun cfg (calm E7) s1 [op3] [(.watch d Re, true)] [(e, 0x2)] [(.user 1, ei)] s' ∧
    copies (regOf P [op1]) 1 P.create (e ++ [kf]) ≤ [(Key.user 1, ei)].countP (Gets 1 P.create (e ++ [kf])) := by
  obtain ⟨s', h, hq⟩ := run3
  exact ⟨s', h, (C121_fen_partial steady0 steady7 run1 rfl quiet1 (c := 1) (p := e) (n := kf) goodE (by decide) (by decide) (by decide) (by decide)
    (by decide) (by simp [op1, NoFail]) h (fl := 0x2) (by simp) (by simp; decide) (by simp [op3, Leaves]) (by simp [Bsd.Spares]; decide) hq).2⟩
end NewEx

/-- **C121 is false of the code on Solaris and illumos even if nothing is called**: channel 1 is registered for Create and FileAttrib on the empty directory
`/d/e`, whose attributes change.  Before the watcher has handled the notification `/d/e/f` appears.  The kernel has no association of the directory at that
moment; the watcher makes another one but, as the notification does not speak of the contents, does not read the directory (watcher_trigger.go:429-438,
332-333).  Nothing is on its way any more, and nobody was told about the file. -/
theorem C121_fen_refuted : ∃ (E E' : Env) (ops₀ : List Op) (calls₀ : List (Call × Bool)) (s s' : FSt) (p : Path) (n : Comp),
    Trg.Steady E ∧ Trg.Steady E' ∧ E.stat (p ++ [n]) = none ∧ E'.stat (p ++ [n]) ≠ none ∧ (∀ q, q ≠ p ++ [n] → E'.stat q = E.stat q) ∧
    FRun ⟨2, 2, true, false⟩ (calm E) FSt.init ops₀ calls₀ [] [] s ∧ s.plan = none ∧ s.Quiet ∧ (∀ op ∈ ops₀, NoFail 1 op) ∧ GoodPath p ∧
    wants (regOf P ops₀) 1 P.create p = true ∧
    FRun ⟨2, 2, true, false⟩ (calm E') s [] [] [(p, 0x4), (p, fen.nWrite)] [] s' ∧ s'.plan = none ∧ s'.Quiet := by
  obtain ⟨s', h1, h2, h3⟩ := NewEx.run2
  exact ⟨Trg.NewEx.E0, Trg.Ex.E7, _, _, _, s', Ex.e, Trg.Ex.kf, Trg.NewEx.steady0, Trg.Ex.steady7, by decide, by decide,
    fun q hq => (if_neg hq).symm, NewEx.run1, rfl, NewEx.quiet1, by simp [NewEx.op1, NoFail], Ex.goodE, by decide, h1, h2, h3⟩

end Fen
end Verif
