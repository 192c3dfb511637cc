/-
The whole program on the BSDs: a file that appears in a directory watched for Create (C121).
-/
import Verif.PropsNewFile

namespace Verif
namespace Trg
open NonRec (GoodPath)

/-! ### The registration of the directory -/

/-- The kernel reports changes of the contents of `p`. -/
def Armed (p : Path) (s : St) : Prop := ∃ m, s.nat.get? p = some m ∧ kqueue.nWrite ⊑ m

section
variable {E : Env} {p : Path} {n : Comp} {s : St}

theorem armed_encode {w : W} (h : w.eDir &&& kqueue.P.create ≠ 0) : kqueue.nWrite ⊑ kqueue.encode w.all true := by
  have h8 : w.eDir.getLsbD 8 = true := by
    rw [show kqueue.P.create = BitVec.twoPow 32 8 by decide] at h
    exact (Inotify.and_pow _ (by decide)).1 h
  have hall : w.all.getLsbD 8 = true := by
    unfold W.all
    rw [BitVec.getLsbD_or, h8]; rfl
  rw [show kqueue.nWrite = BitVec.twoPow 32 1 by decide, Inotify.sub_pow _ (by decide), kq_encode_bit _ _ (by decide), hall]
  simp

/-- Both. -/
def Ready (p : Path) (n : Comp) (s : St) : Prop := Unseen kqueue p n s ∧ Armed p s

theorem Ready.singlewatch (h : Ready p n s) {q : Path} (hq : q ≠ p ++ [n]) (e : Event) (m : Mode) {d : Bool} (hd : q = p → d = true) :
    Ready p n (singlewatch kqueue E s q e m d).1 := by
  refine ⟨h.1.singlewatch hq e m d, ?_⟩
  by_cases hp : q = p
  · subst hp
    cases hd rfl
    obtain ⟨w, h1, h2, h3⟩ := h.1.dir
    unfold Trg.singlewatch
    rw [h1]
    simp only
    split
    · exact ⟨_, by simp [GoMap.get?_set], armed_encode (add_eDir (N := kqueue) h3 m e)⟩
    · exact h.2
  · obtain ⟨m', h1, h2⟩ := h.2
    exact ⟨m', by rw [singlewatch_nat kqueue E s q e m d hp]; exact h1, h2⟩

theorem Ready.singleunwatch (h : Ready p n s) {q : Path} (hq : q ≠ p) (m : Mode) : Ready p n (singleunwatch kqueue E s q m).1 := by
  refine ⟨h.1.singleunwatch fun hh => absurd hh hq, ?_⟩
  obtain ⟨m', h1, h2⟩ := h.2
  exact ⟨m', by rw [(singleunwatch_other kqueue E s q m hq).2]; exact h1, h2⟩

/-- Every listing in which `p` appears shows it as a directory. -/
def Lists (E : Env) (p : Path) : Prop := ∀ q l, E.list q = .ok l → ∀ x ∈ l, join q x.1 = p → x.2 = true

theorem Ready.adds (hL : Lists E p) (hp : GoodPath p) {q : Path} (hq : q ≠ p) (hqn : q ≠ p ++ [n]) : Adds kqueue E (Ready p n) q where
  sw := fun _ e _ h => h.singlewatch hqn e .dir fun hh => absurd hh hq
  swk := fun _ e l hl x hx h => h.singlewatch (join_ne_entry hp hq x.1) e .ndir (hL q l hl x hx)

theorem Ready.frame (hL : Lists E p) (hp : GoodPath p) {q : Path} (hq : q ≠ p) (hqn : q ≠ p ++ [n]) (hk : ∀ c, join q c ≠ p) :
    Frame kqueue E (Ready p n) q where
  toAdds := Ready.adds hL hp hq hqn
  suw := fun _ h => h.singleunwatch hq _
  suwk := fun _ c h => h.singleunwatch (hk c) _

theorem Ready.renew (h : Ready p n s) (hr : ∀ q, E.reg q = true) (hst : E.stat p = some true) {q : Path} {w : W} (hw : s.lkp.get? q = some w)
    (ge : Event) : Ready p n (renew kqueue E s q w ge) := by
  refine ⟨h.1.renew (fun _ => hr p) w ge, ?_⟩
  unfold Trg.renew
  split
  · split
    · exact h.2
    · rename_i d hd
      rw [if_pos (hr q)]
      by_cases hq : q = p
      · subst hq
        rw [hst] at hd
        cases hd
        obtain ⟨w', h1, _, h3⟩ := h.1.dir
        rw [hw] at h1
        cases h1
        exact ⟨_, by simp [GoMap.get?_set], armed_encode h3⟩
      · obtain ⟨m, h1, h2⟩ := h.2
        exact ⟨m, by simp [GoMap.get?_set, hq, h1], h2⟩
  · exact h.2

theorem Armed.process (h : Ready p n s) (hL : Lists E p) (hr : ∀ q, E.reg q = true) (hst : E.stat p = some true)
    (q : Path) {ge : Event} (hge : ge &&& (kqueue.nRemove ||| kqueue.nRename) = 0) : Armed p (process kqueue E s q ge).1 := by
  have hge' : ge &&& (kqueue.nRename ||| kqueue.nRemove) = 0 := by rw [BitVec.or_comm]; exact hge
  unfold Trg.process
  split
  · exact h.2
  · rename_i w hw
    simp only
    have h1 := h.renew hr hst hw ge
    split
    · exact h1.2
    · rw [if_neg (by rw [hge]; exact fun h => h rfl)]
      split
      · unfold Trg.dir
        rw [if_neg (by rw [hge']; exact fun h => h rfl)]
        split
        · unfold walk
          split
          · exact h1.2
          · rename_i l hl
            -- the entry of `p` stays as far as the registration is concerned; the entry `n` may come into the table
            have := walkLoop_keep (f := scanKid kqueue E q w) (I := fun z : St × List Ev =>
                (∃ w, z.1.lkp.get? p = some w ∧ w.isDir = true ∧ w.eDir &&& kqueue.P.create ≠ 0) ∧ Armed p z.1) l (Trg.renew kqueue E s q w ge, [])
              (fun z x hx hz => by
                rw [scanKid_eq]
                by_cases hj : join q x.1 = p
                · obtain ⟨⟨w', k1, k2, k3⟩, k4⟩ := hz
                  have hd := hL q l hl x hx hj
                  simp only [hj, hd]
                  unfold Trg.singlewatch
                  rw [k1]
                  simp only
                  split
                  · exact ⟨⟨w'.add .ndir w.eDir, by simp [GoMap.get?_set], by rw [add_isDir]; exact k2, add_eDir (N := kqueue) k3 _ _⟩,
                      ⟨kqueue.encode (w'.add .ndir w.eDir).all true, by simp [GoMap.get?_set], armed_encode (add_eDir (N := kqueue) k3 _ _)⟩⟩
                  · exact ⟨⟨w'.add .ndir w.eDir, by simp [GoMap.get?_set], by rw [add_isDir]; exact k2, add_eDir (N := kqueue) k3 _ _⟩, k4⟩
                · obtain ⟨⟨w', k1, k2, k3⟩, m, k4, k5⟩ := hz
                  exact ⟨⟨w', by rw [singlewatch_other kqueue E _ _ _ _ _ hj]; exact k1, k2, k3⟩,
                    m, by rw [singlewatch_nat kqueue E _ _ _ _ _ hj]; exact k4, k5⟩) ⟨h1.1.dir, h1.2⟩
            exact this.2
        · exact h1.2
      · exact h1.2
end
end Trg

namespace Bsd
open Trg (kqueue Env Has Unseen Armed Ready Lists Told)
open NonRec (Op regOf NoFail GoodPath)
open Spec (wants copies)
open Linux (Free sigs isSig isEv Gets)
open Plain (Leaves Fit due due_step free_tree)

/-! ### The program -/

/-- The part of `J` that does not speak about the file system. -/
structure G (base ops : List Op) (s : KSt) : Prop where
  amid : Plain.Amid P base ops s.sys.tree s.plan s.todo s.log
  pend : ∀ q, s.pend q &&& gone = 0
  hand : ∀ fd p ge, s.hand = some (fd, p, ge) → ge &&& gone = 0
  turn : s.hand ≠ none → s.out = []

theorem or_gone {a b m g : Event} (h1 : a &&& g = 0) (h2 : b &&& g = 0) : (a ||| (b &&& m)) &&& g = 0 := by
  rw [Event.bext] at *
  intro i
  have h1 := h1 i
  have h2 := h2 i
  simp only [BitVec.getLsbD_and, BitVec.getLsbD_or] at *
  revert h1 h2
  cases b.getLsbD i <;> cases m.getLsbD i <;> cases a.getLsbD i <;> cases g.getLsbD i <;> simp

theorem G.step {cfg : Sched.Cfg} {E : Env} {base ops o : List Op} {k : List (Call × Bool)} {r : List (Path × Event)} {g : List (Key × EventInfo)}
    {s s' : KSt} (h : G base ops s) (hs : KStep cfg (calm E) s o k r g s') : G base (ops ++ o) s' := by
  cases hs with
  | go l sys' htr hl =>
    rw [List.append_nil]
    refine ⟨?_, h.pend, h.hand, h.turn⟩
    simp only [free_tree (P := P) htr hl]
    exact h.amid
  | change p fl m hx hm hf =>
    rw [List.append_nil]
    refine ⟨h.amid, fun q => ?_, h.hand, h.turn⟩
    simp only
    split
    · exact or_gone (h.pend p) hx
    · exact h.pend q
  | wait p w hh ho hp hw =>
    rw [List.append_nil]
    refine ⟨h.amid, fun q => ?_, ?_, fun _ => ho⟩
    · simp only
      split
      · simp
      · exact h.pend q
    · intro fd p' ge he
      cases he
      exact h.pend p
  | process E' fd p ge hx hh =>
    rw [List.append_nil]
    exact ⟨h.amid, live_gone h.pend, (fun _ _ _ he => by cases he), fun he => absurd rfl he⟩
  | send ei l ho hc hok =>
    rw [List.append_nil]
    refine ⟨h.amid, h.pend, h.hand, fun hh => ?_⟩
    have := h.turn hh
    rw [ho] at this
    cases this
  | plan r ops' t new hr hp ht hn =>
    have ha := h.amid
    rw [hp] at ha
    exact ⟨ha.begin r ht.1 hn, h.pend, h.hand, h.turn⟩
  | call E' c ok rest w' hx ht hs =>
    rw [List.append_nil]
    have ha := h.amid
    rw [ht] at ha
    refine ⟨ha.call, live_gone fun q => ?_, h.hand, h.turn⟩
    split
    · simp
    · exact h.pend q
  | effect i r a b t hcalls hp ht =>
    have ha := h.amid
    rw [hp, ht] at ha
    rw [List.append_nil]
    refine ⟨?_, h.pend, h.hand, h.turn⟩
    simp only [ht]
    exact ha.done
  | intEffect ei t hi hp ht =>
    have ha := h.amid
    rw [hp, ht] at ha
    rw [List.append_nil]
    refine ⟨?_, h.pend, h.hand, h.turn⟩
    simp only [ht]
    exact ha.done

/-- A call of the watcher is not for `p` nor its entry `n`; if it ends watches, it is not for the directory in which `p` is. -/
def Spares (p : Path) (n : Comp) : Call → Prop
  | .watch q _ => q ≠ p ∧ q ≠ p ++ [n]
  | .unwatch q | .rewatch q _ _ => q ≠ p ∧ q ≠ p ++ [n] ∧ ∀ c, Trg.join q c ≠ p
  | _ => True

theorem cuts_spares {E : Env} {p : Path} {n : Comp} {c : Call} (h : Spares p n c) : cuts E c p = false := by
  have key : ∀ q, q ≠ p → (∀ c, Trg.join q c ≠ p) → (match E.stat q, E.list q with
      | none, _ => false
      | some true, .ok l => p == q || l.any fun y => p == Trg.join q y.1
      | _, _ => p == q) = false := by
    intro q h1 h2
    split
    · rfl
    · rw [Bool.or_eq_false_iff, beq_eq_false_iff_ne, List.any_eq_false]
      exact ⟨Ne.symm h1, fun y _ => by simpa using fun h => h2 y.1 h.symm⟩
    · rw [beq_eq_false_iff_ne]
      exact Ne.symm h1
  unfold cuts
  cases c with
  | unwatch q => exact key q h.1 h.2.2
  | rewatch q o n => exact key q h.1 h.2.2
  | _ => rfl

/-- The directory is not read yet; `chd`: it has changed, and the kernel is to report it or has. -/
structure Waits (p : Path) (n : Comp) (fd : Nat) (chd : Prop) (s : KSt) : Prop where
  ready : Ready p n s.w
  has : Has p fd s.w
  hand : ∀ fd' ge, s.hand = some (fd', p, ge) → fd' = fd
  chg : chd → kqueue.nWrite ⊑ s.pend p ∨ ∃ fd' ge, s.hand = some (fd', p, ge) ∧ kqueue.nWrite ⊑ ge

/-- Either this, or enough signals were made or are on their way. -/
structure Stage (K c : Nat) (p : Path) (n : Comp) (fd : Nat) (chd : Prop) (sg : Nat) (s : KSt) : Prop where
  fit : Fit K c (isEv P.create (p ++ [n])) s.sys
  or : Waits p n fd chd s ∨ K ≤ sg + due K c (isEv P.create (p ++ [n])) s.sys + K * s.out.countP (isEv P.create (p ++ [n]))

section
variable {cfg : Sched.Cfg} {E : Env} {base ops o : List Op} {k : List (Call × Bool)} {r : List (Path × Event)} {g : List (Key × EventInfo)}
  {s s' : KSt} {c : Nat} {p : Path} {n : Comp} {fd K sg : Nat} {chd : Prop}

theorem live_armed {w : Trg.St} (h : Armed p w) (f : Path → Event) : live w f p = f p := by
  obtain ⟨m, h, _⟩ := h
  unfold live
  rw [if_neg (by rw [h]; simp)]

theorem told_count {evs : List Trg.Ev} (h : Told kqueue p n evs) : 1 ≤ (evs.map info).countP (isEv P.create (p ++ [n])) := by
  obtain ⟨d, h⟩ := h
  exact List.countP_pos_iff.2 ⟨_, List.mem_map_of_mem h, by simp [isEv, info]; rfl⟩

theorem Stage.step (hg : G base ops s) (hE : Trg.Steady E) (hL : Lists E p) (hp : GoodPath p) (hst : E.stat p = some true) (hn : E.stat (p ++ [n]) ≠ none)
    (hK : ∀ ei, isEv P.create (p ++ [n]) ei = true → (Y.sends s.sys.tree ei).count (.user c) = K)
    (h : Stage K c p n fd chd sg s) (hs : KStep cfg (calm E) s o k r g s') (hk : ∀ y ∈ k, Spares p n y.1) :
    Stage K c p n fd (chd ∨ ∃ fl, (p, fl) ∈ r ∧ kqueue.nWrite ⊑ fl) (sg + g.countP (isSig c (isEv P.create (p ++ [n])))) s' := by
  obtain ⟨hfit, hor⟩ := h
  cases hs with
  | go l sys' htr hl =>
    obtain ⟨h4, h5⟩ := due_step (P := P) (f := isEv P.create (p ++ [n])) htr hl hK hfit
    refine ⟨h5, ?_⟩
    rcases hor with h | h
    · exact .inl ⟨h.ready, h.has, h.hand, fun hc => h.chg (by simpa using hc)⟩
    · right; dsimp only; omega
  | change q fl m hxc hm hf =>
    refine ⟨hfit, hor.imp (fun h => ⟨h.ready, h.has, h.hand, fun hc => ?_⟩) (fun h => by simpa using h)⟩
    simp only
    by_cases hq : p = q
    · subst hq
      rw [if_pos rfl]
      rcases hc with hc | ⟨fl', hmem, hfl⟩
      · exact (h.chg hc).imp (fun hh => hh.trans (Event.sub_or_left _ _)) id
      · left
        obtain rfl : fl' = fl := by simpa using hmem
        obtain ⟨m', h1, h2⟩ := h.ready.2
        rw [hm] at h1
        cases h1
        refine Event.Sub.trans ?_ (Event.sub_or_right _ _)
        clear hxc hm hf
        generalize kqueue.nWrite = a at *
        ebits
    · rw [if_neg hq]
      refine h.chg (hc.resolve_right ?_)
      rintro ⟨fl', hmem, _⟩
      simp at hmem
      exact hq hmem.1
  | wait q w hh ho hpd hw =>
    refine ⟨hfit, hor.imp (fun h => ⟨h.ready, h.has, ?_, fun hc => ?_⟩) (fun h => by simpa using h)⟩
    · intro fd' ge he
      cases he
      obtain ⟨w', h1, h2⟩ := h.has
      rw [hw] at h1
      cases h1
      exact h2
    · have hc : chd := by simpa using hc
      have h1 := (h.chg hc).resolve_right (by rintro ⟨_, _, h2, _⟩; rw [hh] at h2; cases h2)
      simp only
      by_cases hq : p = q
      · subst hq
        exact .inr ⟨_, _, rfl, h1⟩
      · rw [if_neg hq]
        exact .inl h1
  | process E' fd' q ge hxe hh =>
    have hx' : E' = E := hxe
    subst hx'
    have hout : s.out = [] := hg.turn (by rw [hh]; simp)
    have hge := hg.hand _ _ _ hh
    refine ⟨hfit, ?_⟩
    rcases hor with h | h
    · by_cases hfd : (s.w.lkp.get? q).map (·.fd) = some fd'
      · have hr : Ready p n (Trg.retrieved kqueue s.w q) := h.ready
        have hhas : Has p fd (Trg.retrieved kqueue s.w q) := h.has
        have hdone : Told kqueue p n (Trg.process kqueue E' (Trg.retrieved kqueue s.w q) q ge).2 →
            K ≤ sg + ([] : List (Key × EventInfo)).countP (isSig c (isEv P.create (p ++ [n]))) + due K c (isEv P.create (p ++ [n])) s.sys +
              K * ((handle E' s.w fd' q ge).2.map info).countP (isEv P.create (p ++ [n])) := by
          intro ht
          have h1 := told_count ht
          unfold handle
          rw [if_pos hfd]
          have := Nat.mul_le_mul_left K h1
          omega
        by_cases hnow : q = p ∧ kqueue.nWrite ⊑ ge
        · obtain ⟨rfl, hwr⟩ := hnow
          right
          apply hdone
          have hn' : n ≠ [] := by
            rcases hE.form _ hn with hh | hh
            · exfalso
              have := congrArg List.length hh
              simp at this
              exact hp.1 this
            · rintro rfl
              exact hh.2 (by simp)
          obtain ⟨d, hd⟩ := Option.ne_none_iff_exists'.1 hn
          obtain ⟨l, hl1, _, hl3⟩ := hE.list q hst
          refine hr.1.found hp (hE.reg q) hge ?_ hl1 ?_ ?_
          · intro h0
            have h1 := hwr 1 (by decide)
            have := Event.bext.1 h0 1
            rw [BitVec.getLsbD_and] at this
            rw [show BitVec.getLsbD ge 1 = true from h1] at this
            revert this
            decide
          · exact List.mem_map.2 ⟨(n, d), (hl3 n d).2 ⟨hn', by rw [Trg.join_entry hp]; exact hd⟩, rfl⟩
          · rcases hE.opn _ hn with h1 | h1
            · exact .inr ⟨h1, hE.reg _⟩
            · exact .inl h1
        · have harm := Armed.process hr hL hE.reg hst q hge
          rcases hr.1.process hp (E := E') (q := q) (ge := ge) (fun _ => hE.reg p) (.inl hge) with h1 | h1
          · left
            have hhan : handle E' s.w fd' q ge = Trg.process kqueue E' (Trg.retrieved kqueue s.w q) q ge := by
              unfold handle; rw [if_pos hfd]
            refine ⟨by simp only [hhan]; exact ⟨h1, harm⟩, by simp only [hhan]; exact (hhas.process hE.reg q hge).1, (fun _ _ he => by cases he), fun hc => ?_⟩
            have hc : chd := by simpa using hc
            left
            simp only [hhan]
            rw [live_armed harm]
            refine (h.chg hc).resolve_right ?_
            rintro ⟨fd'', ge', h2, h3⟩
            rw [hh] at h2
            cases h2
            exact hnow ⟨rfl, h3⟩
          · exact .inr (hdone h1)
      · left
        have hhan : handle E' s.w fd' q ge = (s.w, []) := by unfold handle; rw [if_neg hfd]
        refine ⟨by simp only [hhan]; exact h.ready, by simp only [hhan]; exact h.has, (fun _ _ he => by cases he), fun hc => ?_⟩
        have hc : chd := by simpa using hc
        left
        simp only [hhan]
        rw [live_armed h.ready.2]
        refine (h.chg hc).resolve_right ?_
        rintro ⟨fd'', ge', h2, h3⟩
        have h4 := h.hand _ _ h2
        rw [hh] at h2
        cases h2
        obtain ⟨w, k1, k2⟩ := h.has
        exact hfd (by rw [k1, h4, ← k2]; rfl)
    · right
      rw [hout] at h
      simp only [List.countP_nil, Nat.mul_zero, Nat.add_zero] at h ⊢
      omega
  | send ei l ho hc hok =>
    refine ⟨hfit, hor.imp (fun h => ⟨h.ready, h.has, h.hand, fun hc => h.chg (by simpa using hc)⟩) (fun h => ?_)⟩
    simp only [due, ho, List.countP_append, List.countP_cons, List.countP_nil, Nat.mul_add] at h ⊢
    omega
  | plan r ops' t new hr' hp ht' hn =>
    exact ⟨hfit, hor.imp (fun h => ⟨h.ready, h.has, h.hand, fun hc => h.chg (by simpa using hc)⟩) (fun h => by simpa using h)⟩
  | call E' c' ok rest w' hxe htodo hs =>
    have hx' : E' = E := hxe
    subst hx'
    have ha : Spares p n c' := hk (c', ok) (by simp)
    refine ⟨hfit, hor.imp (fun h => ?_) (fun h => by simpa using h)⟩
    have hw : Ready p n w' ∧ Has p fd w' := by
      cases hs with
      | watch q e _ => exact ⟨(Ready.adds hL hp ha.1 ha.2).Watch h.ready e, h.has.Watch q e⟩
      | rewatch q old new _ => exact ⟨(Ready.frame hL hp ha.1 ha.2.1 ha.2.2).Rewatch h.ready new, h.has.Rewatch ha.1 ha.2.2 new⟩
      | unwatch q _ => exact ⟨(Ready.frame hL hp ha.1 ha.2.1 ha.2.2).Unwatch h.ready, h.has.Unwatch ha.1 ha.2.2⟩
    refine ⟨hw.1, hw.2, h.hand, fun hc => ?_⟩
    simp only
    rw [live_armed hw.1.2, if_neg (by rw [cuts_spares ha]; decide)]
    exact h.chg (by simpa using hc)
  | effect i r a b t hcalls hp ht' =>
    exact ⟨hfit, hor.imp (fun h => ⟨h.ready, h.has, h.hand, fun hc => h.chg (by simpa using hc)⟩) (fun h => by simpa [due] using h)⟩
  | intEffect ei t hi hp ht' =>
    exact ⟨hfit, hor.imp (fun h => ⟨h.ready, h.has, h.hand, fun hc => h.chg (by simpa using hc)⟩) (fun h => by simpa [due] using h)⟩
end

/-- The state of the table at the beginning. -/
theorem J.ready_os {E : Env} {base : List Op} {s : KSt} (hj : J E base [] s) (hE : Trg.Steady E) {p : Path} {n : Comp}
    (hst : E.stat p = some true) (hsk : E.opn p ≠ .skip) (hn : E.stat (p ++ [n]) = none) (hos : P.create ⊑ osOf s.log p) : Ready p n s.w := by
  have hbit : BitVec.getLsbD (osOf s.log p) 8 = true := by
    rw [show P.create = BitVec.twoPow 32 8 by decide] at hos
    exact (Inotify.sub_pow _ (by decide)).1 hos
  have hbook := fun q => Trg.C66_any_partial hE (hj.drives.runs hE (hj.amid.valid factsP)) q
  have hwp : Spec.Trg.want E.stat (Trg.skips E) (osOf s.log) p = some (true, osOf s.log p, Spec.Trg.indirect (osOf s.log) p) := by
    unfold Spec.Trg.want
    rw [hst]
    simp only
    rw [if_neg]
    rintro (hh | hh)
    · exact hsk (of_decide_eq_true hh)
    · have := Event.bext.1 hh 8
      rw [BitVec.getLsbD_or, hbit] at this
      simp at this
  obtain ⟨b1, b2⟩ := (hbook p).resolve_right (by rw [hwp]; exact fun h => nomatch h.1)
  rw [hwp] at b1 b2
  obtain ⟨w, k1, k2, k3, k4⟩ := Trg.look_some b1
  simp only at k2 k3 k4
  have hc : w.eDir &&& kqueue.P.create ≠ 0 := by
    rw [k3, show kqueue.P.create = BitVec.twoPow 32 8 by decide]
    exact (Inotify.and_pow _ (by decide)).2 hbit
  refine ⟨⟨⟨w, k1, k2, hc⟩, ?_⟩, ⟨_, b2, ?_⟩⟩
  · have hl := ((hbook (p ++ [n])).resolve_right (by rw [hn]; exact fun ⟨_, _, h, _⟩ => nomatch h)).1
    unfold Spec.Trg.want at hl
    rw [hn] at hl
    exact Trg.look_none hl
  · have := Trg.armed_encode hc
    unfold Trg.W.all at this
    rw [k3, k4] at this
    exact this

theorem J.ready {E : Env} {base : List Op} {s : KSt} (hj : J E base [] s) (hE : Trg.Steady E) {c : Nat} (hfail : ∀ op ∈ base, NoFail c op) {p : Path} {n : Comp}
    (hst : E.stat p = some true) (hsk : E.opn p ≠ .skip) (hn : E.stat (p ++ [n]) = none)
    (hw : wants (regOf P base) c P.create p = true) : Ready p n s.w :=
  hj.ready_os hE hst hsk hn (hj.amid.backed factsP (by simpa using hfail) (x := p) List.prefix_rfl (by simp) (by decide) hw)

theorem KRun.stage {cfg : Sched.Cfg} {E : Env} {base ops : List Op} {calls : List (Call × Bool)} {chgs : List (Path × Event)}
    {sgs : List (Key × EventInfo)} {s s' : KSt} {c : Nat} {p : Path} {n : Comp} {fd K : Nat} (hg : G base [] s) (hE : Trg.Steady E) (hL : Lists E p)
    (hp : GoodPath p) (hst : E.stat p = some true) (hn : E.stat (p ++ [n]) ≠ none) (h : KRun cfg (calm E) s ops calls chgs sgs s')
    (hk : ∀ y ∈ calls, Spares p n y.1) (hops : ∀ op ∈ base ++ ops, NoFail c op) (hl : ∀ op ∈ ops, Leaves P c (p ++ [n]) op)
    (hK : copies (regOf P base) c P.create (p ++ [n]) = K) (h0 : Stage K c p n fd False 0 s) :
    G base ops s' ∧ Stage K c p n fd (∃ fl, (p, fl) ∈ chgs ∧ kqueue.nWrite ⊑ fl) (sgs.countP (isSig c (isEv P.create (p ++ [n])))) s' := by
  have hlen : 2 ≤ (p ++ [n]).length := by
    have : p.length ≠ 0 := fun h => hp.1 (List.length_eq_zero_iff.1 h)
    simp; omega
  induction h with
  | refl => exact ⟨hg, h0.fit, h0.or.imp (fun h => ⟨h.ready, h.has, h.hand, fun ⟨_, h, _⟩ => by cases h⟩) id⟩
  | @step ops calls chgs sgs o k r g s1 s2 h1 hs ih =>
    have hops' : ∀ op ∈ base ++ ops, NoFail c op := fun a ha => hops a (by
      simp only [List.mem_append] at ha ⊢; rcases ha with h | h; exact .inl h; exact .inr (.inl h))
    have hl' : ∀ op ∈ ops, Leaves P c (p ++ [n]) op := fun a ha => hl a (by simp [ha])
    obtain ⟨hg1, hs1⟩ := ih (fun y hy => hk y (by simp [hy])) hops' hl'
    refine ⟨hg1.step hs, ?_⟩
    have h2 := hs1.step hg1 hE hL hp hst hn (fun ei hei => (hg1.amid.copies factsP hops' hl' (by decide) nofun hlen hei).trans hK) hs
      (fun y hy => hk y (by simp [hy]))
    rw [List.countP_append]
    refine ⟨h2.fit, h2.or.imp (fun h => ⟨h.ready, h.has, h.hand, fun ⟨fl, hm, hf⟩ => h.chg ?_⟩) id⟩
    rcases List.mem_append.1 hm with hm | hm
    · exact .inl ⟨fl, hm, hf⟩
    · exact .inr ⟨fl, hm, hf⟩

/-- **C121 (partial), the whole program on the BSDs.**  Up to some moment (`s`) the files are those of `E`; then no operation is under way, nothing is on
its way, channel `c` is registered for Create on the directory `p`, which has no entry `n`, and no non-recursive Watch with `c` has failed.  From then on the
files are those of `E'`, in which there is an entry `n`; the kernel is to report that `p` has changed.  Any number of goroutines call Watch and Stop, but not
for `c`, and nothing is removed or renamed.  Then, when nothing is on its way again, `c` was signalled a Create of `n` at least as often as its registrations
ask for, which is at least once, if the tree did not call the watcher for `p` or its new entry, nor end or change a watch of the directory in which `p` is.
Missing: with such calls; for the new entry it is false (`C121_refuted`). -/
theorem C121_bsd_partial {cfg : Sched.Cfg} {E E' : Env} (hE : Trg.Steady E) (hE' : Trg.Steady E') {ops₀ : List Op} {calls₀ : List (Call × Bool)}
    {chgs₀ : List (Path × Event)} {sg₀ : List (Key × EventInfo)} {s : KSt} (h0 : KRun cfg (calm E) KSt.init ops₀ calls₀ chgs₀ sg₀ s)
    (hplan : s.plan = none) (hq : s.Quiet) {c : Nat} {p : Path} {n : Comp} (hp : GoodPath p) (hst : E.stat p = some true) (hsk : E.opn p ≠ .skip)
    (hold : E.stat (p ++ [n]) = none) (hnew : E'.stat (p ++ [n]) ≠ none) (hL : ∀ q l, E'.list q = .ok l → ∀ x ∈ l, Trg.join q x.1 = p → x.2 = true)
    (hreg : wants (regOf P ops₀) c P.create p = true) (hfail : ∀ op ∈ ops₀, NoFail c op)
    {ops : List Op} {calls : List (Call × Bool)} {chgs : List (Path × Event)} {sg : List (Key × EventInfo)} {s' : KSt}
    (h : KRun cfg (calm E') s ops calls chgs sg s') {fl : Event} (hfl : (p, fl) ∈ chgs) (hwr : kqueue.nWrite ⊑ fl)
    (hl : ∀ op ∈ ops, Leaves P c (p ++ [n]) op) (hk : ∀ y ∈ calls, Spares p n y.1) (hq' : s'.Quiet) :
    1 ≤ copies (regOf P ops₀) c P.create (p ++ [n]) ∧
    copies (regOf P ops₀) c P.create (p ++ [n]) ≤ sg.countP (Gets c P.create (p ++ [n])) := by
  have hj : J E ops₀ [] s := (h0.j (J.init E)).rebase hplan
  have hr := hj.ready hE hfail hst hsk hold hreg
  obtain ⟨w, k1, _⟩ := hr.1.dir
  have hn' : n ≠ [] := by
    rcases hE'.form _ hnew with hh | hh
    · exfalso
      have := congrArg List.length hh
      simp at this
      exact hp.1 this
    · rintro rfl
      exact hh.2 (by simp)
  have hst' : E'.stat p = some true := hE'.isdir p n hp.1 hn' (by rw [Trg.join_entry hp]; exact hnew)
  have hops : ∀ op ∈ ops₀ ++ ops, NoFail c op := by
    intro op hop
    rcases List.mem_append.1 hop with h | h
    · exact hfail op h
    · exact (hl op h).noFail
  have hs0 : Stage (copies (regOf P ops₀) c P.create (p ++ [n])) c p n w.fd False 0 s := by
    refine ⟨fun i ei d a hmem => ?_, .inl ⟨hr, ⟨w, k1, rfl⟩, fun fd' ge he => ?_, False.elim⟩⟩
    · rw [hq.2.2.2.2] at hmem; cases hmem
    · rw [hq.2.1] at he; cases he
  obtain ⟨_, _, hor⟩ := h.stage ⟨hj.amid, hj.pend, hj.hand, hj.turn⟩ hE' hL hp hst' hnew hk hops hl rfl hs0
  constructor
  · unfold copies
    rw [List.dropLast_concat, hreg]
    simp only [if_true]
    omega
  · have hgets : sg.countP (Gets c P.create (p ++ [n])) = sg.countP (isSig c (isEv P.create (p ++ [n]))) := by
      apply List.countP_congr
      intro y _
      simp [Gets, isSig, isEv, Bool.and_assoc]
    rw [hgets]
    rcases hor with h1 | h1
    · exfalso
      rcases h1.chg ⟨fl, hfl, hwr⟩ with h2 | ⟨_, _, h2, _⟩
      · rw [hq'.1 p] at h2
        exact absurd (h2 1 (by decide)) (by decide)
      · rw [hq'.2.1] at h2; cases h2
    · simpa [due, hq'.2.2.1, hq'.2.2.2.1, hq'.2.2.2.2] using h1

namespace NewEx
open Ex (cfg d e x Wr goodE goodX goodD uR Re)
open Trg.Ex (E7 kd ke kf steady7)
open Trg.NewEx (E0 steady0)

def req3 : Sched.Req := .watch d false 2 Re
def op3 : Op := .watch d false 2 Re true
def t3 : St := (NonRec.watchOp P .ok (.dir .nil) t1 d false 2 Re).1
theorem step3 : NonRec.Step P true t1 op3 t3 :=
  NonRec.Step.watch (O := .ok) goodD uR (by simp [DirTree.Named, Entries.Named]) (fun _ _ => rfl)
def w3 : Trg.St := (Trg.Watch kqueue E7 w1 d Re).1
def ei : EventInfo := { event := Cr, path := x, isDir := some false }

/-- `/d/e/f` appears; channel 2 watches `/d` before the notification of `/d/e` is retrieved. -/
theorem run3 : ∃ s', KRun cfg (calm E7) s1 [op3] [(.watch d Re, true)] [(e, 0x2)] [(.user 1, ei)] s' ∧ s'.Quiet := by
  have h := KRun.refl (cfg := cfg) (X := calm E7) (s := s1)
  have h := h.step (.change e 0x2 0x2 (by unfold calm; decide) (by decide) (by decide))
  have h := h.step (.go _ _ (.call (Y := Y) req3 (show GoodPath d ∧ NonRec.UserEvents P Re from ⟨goodD, uR⟩) trivial) trivial)
  have h := h.step (.go _ _ (.lock 1 req3 [] [] rfl (by rintro ⟨_, _, _, _, h⟩; cases h)
    (by rintro ⟨_, _, h | h⟩ <;> cases h <;> contradiction) (by rintro ⟨_, h | h⟩ <;> cases h)) trivial)
  have h := h.step (.plan req3 [op3] t3 [(.watch d Re, true)] (.inl ⟨1, .head _⟩) rfl ⟨NonRec.Steps.nil.snoc step3, op3, ⟨_, rfl⟩, .inl rfl⟩ rfl)
  have h := h.step (.call E7 (.watch d Re) true [] w3 rfl rfl (.watch d Re (by decide)))
  have h := h.step (.effect 1 req3 [] [] t3 rfl rfl rfl)
  have h := h.step (.go _ _ (.unlock 1 req3 [] [] rfl) trivial)
  have h := h.step (.wait e ⟨0, true, Cr, Re⟩ rfl rfl (by decide) (by decide))
  have h := h.step (.process E7 0 e 0x2 rfl (by decide))
  have h := h.step (.send ei [] (by decide) (by decide) goodX)
  have h := h.step (.go _ _ (.spawn ei [] rfl) trivial)
  have h := h.step (.go _ _ (.rlock 2 ei [] [] rfl (by rintro ⟨_, _, h | h⟩ <;> cases h <;> contradiction)
    (by rintro ⟨_, h | h⟩ <;> cases h)
    (by rintro _ (⟨_, _, h⟩ | ⟨_, h⟩) <;> cases h <;> contradiction)) trivial)
  have h := h.step (.go _ _ (.pick 2 ei [] (.user 1) [] [] rfl (by decide)) trivial)
  have h := h.step (.go _ _ (.send 2 ei [] (.user 1) [] [] rfl) trivial)
  have hs : NonRec.sends P t3.root ei = [.user 1] := by decide
  have h := h.step (.go _ _ (.fin 2 ei [.user 1] [] [] rfl (by intro k; exact Nat.le_of_eq (congrArg (List.count k) hs)) (by decide)) trivial)
  refine ⟨_, h, fun q => ?_, rfl, rfl, rfl, rfl⟩
  by_cases hq : q = e
  · subst hq; rfl
  · simp only [live, hq, if_false, s1]
    split <;> simp

theorem lists7 : ∀ q l, E7.list q = .ok l → ∀ x ∈ l, Trg.join q x.1 = e → x.2 = true := by
  intro q l h x hx hj
  simp only [E7] at h
  split at h
  · cases h; cases List.mem_singleton.1 hx; rfl
  · split at h
    · cases h; cases List.mem_singleton.1 hx; rfl
    · split at h
      · rename_i hq
        subst hq
        cases h
        cases List.mem_singleton.1 hx
        revert hj
        decide
      · cases h

/-- The run meets the hypotheses. -/
example : ∃ s', KRun cfg (calm E7) s1 [op3] [(.watch d Re, true)] [(e, 0x2)] [(.user 1, ei)] s' ∧
    copies (regOf P [op1]) 1 P.create (e ++ [kf]) ≤ [(Key.user 1, ei)].countP (Gets 1 P.create (e ++ [kf])) := by
  obtain ⟨s', h, hq⟩ := run3
  exact ⟨s', h, (C121_bsd_partial steady0 steady7 run1 rfl quiet1 (c := 1) (p := e) (n := kf) goodE (by decide) (by decide) (by decide) (by decide) lists7
    (by decide) (by simp [op1, NoFail]) h (fl := 0x2) (by simp) (by decide) (by simp [op3, Leaves]) (by simp [Spares]; decide) hq).2⟩
end NewEx

/-! ### Calls for the directory above -/

namespace NewEx
open Ex (cfg d e goodE goodD uR Re)
open Trg.Ex (E7 kd ke kf steady7)
open Trg.NewEx (E0 steady0)

def w4 : Trg.St := (Trg.Watch kqueue E0 w1 d Re).1

/-- Channel 1 watches `/d/e` for Create, channel 2 watches `/d` for Remove. -/
theorem run4 : ∃ s, KRun cfg (calm E0) KSt.init [op1, op3] [(.watch e Cr, true), (.watch d Re, true)] [] [] s ∧ s.plan = none ∧ s.Quiet ∧
    ∃ s', KRun cfg (calm E7) s [.stop 2] [(.unwatch d, true)] [(e, 0x2)] [] s' ∧ s'.plan = none ∧ s'.Quiet := by
  have h := run1
  have h := h.step (.go _ _ (.call (Y := Y) req3 (show GoodPath d ∧ NonRec.UserEvents P Re from ⟨goodD, uR⟩) trivial) trivial)
  have h := h.step (.go _ _ (.lock 1 req3 [] [] rfl (by rintro ⟨_, _, _, _, h⟩; cases h)
    (by rintro ⟨_, _, h | h⟩ <;> cases h <;> contradiction) (by rintro ⟨_, h | h⟩ <;> cases h)) trivial)
  have h := h.step (.plan req3 [op3] t3 [(.watch d Re, true)] (.inl ⟨1, .head _⟩) rfl ⟨NonRec.Steps.nil.snoc step3, op3, ⟨_, rfl⟩, .inl rfl⟩ rfl)
  have h := h.step (.call E0 (.watch d Re) true [] w4 rfl rfl (.watch d Re (by decide)))
  have h := h.step (.effect 1 req3 [] [] t3 rfl rfl rfl)
  have h := h.step (.go _ _ (.unlock 1 req3 [] [] rfl) trivial)
  have h := h.step (.go _ _ (.ret 1 req3 [] [] rfl) trivial)
  refine ⟨_, h, rfl, ⟨fun q => ?_, rfl, rfl, rfl, rfl⟩, ?_⟩
  · simp only [live, s1]
    split
    · rfl
    · split
      · rfl
      · split <;> rfl
  clear h
  have h := KRun.refl (cfg := cfg) (X := calm E7)
    (s := { s1 with sys := { Sched.State.init Y with tree := t3, next := 2 }, w := w4,
                    pend := live w4 (fun q => if cuts E0 (.watch d Re) q then 0 else s1.pend q), log := [(.watch d Re, true), (.watch e Cr, true)] })
  have h := h.step (.change e 0x2 0x3 (by unfold calm; decide) (by decide) (by decide))
  have h := h.step (.go _ _ (.call (Y := Y) (Sched.Req.stop 2) trivial trivial) trivial)
  have h := h.step (.go _ _ (.lock (Y := Y) 2 (Sched.Req.stop 2) [] [] rfl (by rintro ⟨_, _, _, _, h⟩; cases h)
    (by rintro ⟨_, _, h | h⟩ <;> cases h <;> contradiction) (by rintro ⟨_, h | h⟩ <;> cases h)) trivial)
  have h := h.step (.plan (.stop 2) [.stop 2] (NonRec.stop P .ok t3 2) [(.unwatch d, true)] (.inl ⟨2, .head _⟩) rfl
    ⟨NonRec.Steps.nil.snoc (NonRec.Step.stop (fun _ => rfl)), .stop 2, rfl, .inl rfl⟩ rfl)
  have h := h.step (.call E7 (.unwatch d) true [] (Trg.Unwatch kqueue E7 w4 d).1 rfl rfl (.unwatch d (by decide)))
  have h := h.step (.effect 2 (.stop 2) [] [] _ rfl rfl rfl)
  have h := h.step (.go _ _ (.unlock (Y := Y) 2 (Sched.Req.stop 2) [] [] rfl) trivial)
  have h := h.step (.go _ _ (.ret (Y := Y) 2 (Sched.Req.stop 2) [] [] rfl) trivial)
  refine ⟨_, h, rfl, fun q => ?_, rfl, rfl, rfl, rfl⟩
  by_cases hq : q = e
  · subst hq; rfl
  · simp only [live, hq, if_false, s1]
    split
    · rfl
    · split
      · rfl
      · split
        · rfl
        · split
          · rfl
          · split <;> rfl
end NewEx

/-- **C121 is also false of the code if others end a watch of the directory above**: channel 1 is registered for Create on the empty directory `/d/e`, channel 2
for Remove on `/d`.  The file `/d/e/f` appears, which the kernel is to report; before the notification is retrieved channel 2 is stopped.  For this the
watcher ends the registration of `/d/e` and makes it again.  Nothing is on its way any more, and channel 1 was not signalled. -/
theorem C121_above_refuted : ∃ (E E' : Env) (ops₀ : List Op) (calls₀ : List (Call × Bool)) (s s' : KSt) (p q : Path) (n : Comp),
    Trg.Steady E ∧ Trg.Steady E' ∧ E.stat (p ++ [n]) = none ∧ E'.stat (p ++ [n]) ≠ none ∧ (∀ q, q ≠ p ++ [n] → E'.stat q = E.stat q) ∧
    KRun ⟨2, 2, true, false⟩ (calm E) KSt.init ops₀ calls₀ [] [] s ∧ s.plan = none ∧ s.Quiet ∧ (∀ op ∈ ops₀, NoFail 1 op) ∧ GoodPath p ∧
    wants (regOf P ops₀) 1 P.create p = true ∧ q ≠ p ∧ q ≠ p ++ [n] ∧
    KRun ⟨2, 2, true, false⟩ (calm E') s [.stop 2] [(.unwatch q, true)] [(p, kqueue.nWrite)] [] s' ∧ s'.plan = none ∧ s'.Quiet := by
  obtain ⟨s, h1, h2, h3, s', h4, h5, h6⟩ := NewEx.run4
  exact ⟨Trg.NewEx.E0, Trg.Ex.E7, _, _, s, s', Ex.e, Ex.d, Trg.Ex.kf, Trg.NewEx.steady0, Trg.Ex.steady7, by decide, by decide,
    fun q hq => (if_neg hq).symm, h1, h2, h3, by simp [NewEx.op1, NewEx.op3, NoFail], Ex.goodE, by decide, by decide, by decide, h4, h5, h6⟩

end Bsd
end Verif
