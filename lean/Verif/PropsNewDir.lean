/-
The whole program on the BSDs: a directory that appears below a recursive watch (C122).

The tree learns of it by the Create that the watcher reports; the goroutine of that event hands it to the internal goroutine (tree_nonrecursive.go:58-74),
which watches the new directory (80-119).  The watcher reports what is not in its table (watcher_trigger.go:333-348).
-/
import Verif.PropsNewFile2
import Verif.PropsNonRec3

namespace Verif
namespace NonRec

/-- Below a recursive registration the creation of a directory is handed to the internal goroutine.  (Of the channels other than `c` nothing is assumed.) -/
theorem handed_reg {P : Platform} (hP : P.Facts) {ops : List Op} {s : St} (h : Hist P true ops s) {c : Nat} (hops : ∀ op ∈ ops, NoFail c op)
    {q d : Path} {b : Comp} (hq : q <+: d) {ev : Event} (hreg : regOf P ops c q = some (ev, true)) (hd : d ≠ []) (hos : osOf s.world.log d ≠ 0)
    {ei : EventInfo} (hpath : ei.path = d ++ [b]) (hev : ei.event &&& (P.create ||| P.remove) ≠ 0) (hdir : ei.isDir = some true) :
    toInternal P s.root ei = true := by
  have hs := Hist.shape hP h
  have hr := Hist.refines hP h hops
  have hro := hP.rec_omit
  have hfind : ∀ q, watchAt s.root q ≠ [] → s.root.find q ≠ none := by
    intro q hq hn
    exact hq (by simp [watchAt, hn])
  have hrec : (watchAt s.root q).isRecursive P = true := by
    simp only [WP.isRecursive, decide_eq_true_eq]
    rw [Event.ne_zero_iff]
    obtain ⟨i, hi⟩ := Event.ne_zero_iff.1 hP.recursive_ne
    have hoi : BitVec.getLsbD P.omitted i = false := by ebits
    have he : entry s.root c q = enc P (regOf P ops c q) := hr.ent q
    rw [hreg] at he
    simp only [enc, Option.map_some, if_true] at he
    have := ((hs.nr q).inv.total_bit i).2 ⟨hoi, .user c, _, nofun, he, by simp [hi]⟩
    exact ⟨i, by rw [BitVec.getLsbD_and, hi, Bool.and_true]; exact this⟩
  have hne : watchAt s.root q ≠ [] := by
    intro h0
    rw [h0] at hrec
    simp [WP.isRecursive, WP.val] at hrec
  obtain ⟨nq, hnq⟩ := get_of_find_ne (hfind q hne)
  obtain ⟨nd, hnd⟩ := get_of_find_ne (hfind d fun h0 => hos ((C11_os_mirror hP h d).2.2 h0))
  have hwq : nq.watch.isRecursive P = true := by
    have : watchAt s.root q = nq.watch := by simp [watchAt, Node.find, hnq]
    rw [← this]; exact hrec
  unfold toInternal
  rw [hpath, List.dropLast_concat, List.getLastD_concat]
  simp only [Node.walkPath_base _ hd, hnd, Bool.and_eq_true, Bool.or_eq_true, decide_eq_true_eq, beq_iff_eq, List.any_eq_true]
  refine ⟨⟨.inl ?_, hev⟩, hdir⟩
  by_cases hqd : q = d
  · subst hqd
    rw [hnd] at hnq
    obtain rfl := Option.some.inj hnq
    exact .inr hwq
  · have := onPath_of_prefix hq hqd hnq
    simp only [onPath, List.mem_append, Option.mem_toList, Node.walkPath_base _ hd, hnd] at this
    rcases this with h4 | h4
    · exact .inl ⟨nq, h4, hwq⟩
    · right
      have : nd = nq := by simpa using h4
      rw [this]; exact hwq
end NonRec

namespace Trg
open NonRec (GoodPath)

/-- The events that the processing of a notification yields for an entry that is not in the table tell what the entry is. -/
theorem Unseen.dirs {N : Native} {E : Env} {p : Path} {n : Comp} {s : St} (h : Unseen N p n s) (hp : GoodPath p) {q : Path} {ge : Event}
    (hge : ge &&& (N.nRemove ||| N.nRename) = 0) (hL : ∀ l, E.list p = .ok l → ∀ x ∈ l, x.1 = n → x.2 = true) :
    ∀ ev ∈ (Trg.process N E s q ge).2, ev.path = p ++ [n] → ev.isDir = true := by
  have hge' : ge &&& (N.nRename ||| N.nRemove) = 0 := by rw [BitVec.or_comm]; exact hge
  intro ev hev hpath
  unfold Trg.process at hev
  split at hev
  · cases hev
  · rename_i w hw
    simp only at hev
    split at hev
    · cases hev
    · rw [if_neg (by rw [hge]; exact fun h => h rfl)] at hev
      split at hev
      · unfold Trg.dir at hev
        rw [if_neg (by rw [hge']; exact fun h => h rfl)] at hev
        split at hev
        · unfold walk at hev
          split at hev
          · cases hev
          · rename_i l hl
            have key := walkLoop_keep (f := scanKid N E q w)
              (I := fun z : St × List Ev => ∀ ev ∈ z.2, ev.path = p ++ [n] → ev.isDir = true) l (Trg.renew N E s q w ge, [])
              (fun z x hx hz ev hev hpath => by
                rw [scanKid_eq] at hev
                rcases List.mem_append.1 hev with hev | hev
                · exact hz ev hev hpath
                · have hx2 : join q x.1 = p ++ [n] → x.2 = true := by
                    intro hj
                    by_cases hqp : q = p
                    · subst hqp
                      rw [join_entry hp] at hj
                      exact hL l hl x hx (by simpa using hj)
                    · exact absurd hj (join_ne_entry hp hqp x.1)
                  unfold scanEvents at hev
                  split at hev
                  · split at hev
                    · cases List.mem_singleton.1 hev; exact hx2 hpath
                    · cases hev
                  · split at hev
                    · cases List.mem_singleton.1 hev; exact hx2 hpath
                    · cases hev
                  · cases hev) (by simp)
            exact key ev hev hpath
        · cases hev
      · cases List.mem_singleton.1 hev
        simp only at hpath
        subst hpath
        rw [h.new] at hw
        cases hw
end Trg

namespace Bsd
open Trg (kqueue Env Has Unseen Armed Ready Lists Told)
open NonRec (Op regOf NoFail GoodPath)
open Linux (Free sigs)
open Plain (Leaves free_tree)

/-! ### C122 -/

/-- The creation of the directory `x`. -/
def News (x : Path) (ei : EventInfo) : Prop := ei.path = x ∧ ei.event = P.create ∧ ei.isDir = some true

/-- The internal goroutine has the event, or has begun to follow it up. -/
def With (ops : List Op) (s : KSt) (ei : EventInfo) : Prop :=
  ei ∈ s.sys.rq ∨ s.sys.int = .waiting ei ∨ s.sys.int = .locked ei ∨ .internal ei ∈ ops

/-- C122 in full: channel `c` is registered recursively on `q`, the directory `p` is `q` or below it, the OS watches `p` for Create, and nothing is on its
way.  A directory `n` appears in `p`, and the kernel is to report that `p` has changed.  Others call Watch and Stop, `c` does not.  Once nothing is on its way
to the tree any more, the internal goroutine has the creation of `n`, or has followed it up. -/
def C122_bsd : Prop :=
  ∀ (cfg : Sched.Cfg) (E E' : Env) (ops₀ ops : List Op) (calls₀ calls : List (Call × Bool)) (chgs₀ chgs : List (Path × Event))
    (sg₀ sg : List (Key × EventInfo)) (s s' : KSt) (c : Nat) (q p : Path) (n : Comp) (ev : Event),
    Trg.Steady E → Trg.Steady E' → E.stat (p ++ [n]) = none → E'.stat (p ++ [n]) = some true → (∀ q, q ≠ p ++ [n] → E'.stat q = E.stat q) →
    KRun cfg (calm E) KSt.init ops₀ calls₀ chgs₀ sg₀ s → s.plan = none → s.Quiet → (∀ op ∈ ops₀, NoFail c op) → GoodPath p →
    regOf P ops₀ c q = some (ev, true) → q <+: p → P.create ⊑ osOf s.log p →
    KRun cfg (calm E') s ops calls chgs sg s' → (∃ fl, (p, fl) ∈ chgs ∧ kqueue.nWrite ⊑ fl) → (∀ op ∈ ops, Leaves P c (p ++ [n]) op) →
    s'.Quiet → ∃ ei, News (p ++ [n]) ei ∧ With ops s' ei

/-- The event is on its way to the internal goroutine, or there. -/
def OnWay (ops : List Op) (s : KSt) (ei : EventInfo) : Prop :=
  ei ∈ s.out ∨ ei ∈ s.sys.cq ∨ (∃ i d, (i, ei, d) ∈ s.sys.disp) ∨ With ops s ei

/-- The goroutines of the tree lose no event that is for the internal goroutine. -/
theorem kept_go {Y : Sched.Sys} {cfg : Sched.Cfg} {s s' : Sched.State Y} {l : Sched.Lab Y.Req} {ei : EventInfo}
    (htr : Sched.Tr Y cfg s l s') (hl : ∀ r, l ≠ .intEffect r) (hh : Y.hand s.tree ei = true)
    (h : ei ∈ s.cq ∨ (∃ i d, (i, ei, d) ∈ s.disp) ∨ ei ∈ s.rq ∨ s.int = .waiting ei ∨ s.int = .locked ei) :
    ei ∈ s'.cq ∨ (∃ i d, (i, ei, d) ∈ s'.disp) ∨ ei ∈ s'.rq ∨ s'.int = .waiting ei ∨ s'.int = .locked ei := by
  have keep : ∀ (dp : List (Nat × EventInfo × Sched.Disp)) {a b : List (Nat × EventInfo × Sched.Disp)} {y z : Nat × EventInfo × Sched.Disp},
      dp = a ++ y :: b → y.2.1 = z.2.1 → (∃ i d, (i, ei, d) ∈ dp) → ∃ i d, (i, ei, d) ∈ a ++ z :: b := by
    rintro dp a b y z rfl hyz ⟨i, d, hm⟩
    simp only [List.mem_append, List.mem_cons] at hm ⊢
    rcases hm with hm | hm | hm
    · exact ⟨i, d, .inl hm⟩
    · refine ⟨z.1, z.2.2, .inr (.inl ?_)⟩
      rw [← hm] at hyz
      simp only at hyz
      rw [hyz]
    · exact ⟨i, d, .inr (.inr hm)⟩
  have gone : ∀ (dp : List (Nat × EventInfo × Sched.Disp)) {a b : List (Nat × EventInfo × Sched.Disp)} {y : Nat × EventInfo × Sched.Disp},
      dp = a ++ y :: b → (∃ i d, (i, ei, d) ∈ dp) → y.2.1 = ei ∨ ∃ i d, (i, ei, d) ∈ a ++ b := by
    rintro dp a b y rfl ⟨i, d, hm⟩
    simp only [List.mem_append, List.mem_cons] at hm ⊢
    rcases hm with hm | hm | hm
    · exact .inr ⟨i, d, .inl hm⟩
    · exact .inl (by rw [← hm])
    · exact .inr ⟨i, d, .inr hm⟩
  cases htr with
  | intEffect => exact absurd rfl (hl _)
  | push e r ho hc => exact h.imp_left fun h => by simp [h]
  | spawn e q hq =>
    rcases h with h | ⟨i, d, h⟩ | h
    · rw [hq] at h
      rcases List.mem_cons.1 h with rfl | h
      · exact .inr (.inl ⟨_, _, .head _⟩)
      · exact .inl h
    · exact .inr (.inl ⟨i, d, .tail _ h⟩)
    · exact .inr (.inr h)
  | rlock i e a b hd => exact h.imp_right (Or.imp_left (keep _ hd rfl))
  | pick i e d k a b hd => exact h.imp_right (Or.imp_left (keep _ hd rfl))
  | send i e d k a b hd => exact h.imp_right (Or.imp_left (keep _ hd rfl))
  | runlock i e d a b hd => exact h.imp_right (Or.imp_left (keep _ hd rfl))
  | fin i e d a b hd hk hf =>
    refine h.imp_right (Or.imp_left fun h => (gone _ hd h).resolve_left ?_)
    rintro rfl
    simp only at hh
    rw [hf] at hh
    cases hh
  | handed i e a b hd hc =>
    rcases h with h | h | h
    · exact .inl h
    · rcases gone _ hd h with h | h
      · refine .inr (.inr (.inl ?_))
        simp only at h
        simp [h]
      · exact .inr (.inl h)
    · refine .inr (.inr (h.imp_left fun h => ?_))
      simp [h]
  | intRecv e q hq hi =>
    rcases h with h | h | h | h | h
    · exact .inl h
    · exact .inr (.inl h)
    · rw [hq] at h
      rcases List.mem_cons.1 h with rfl | h
      · exact .inr (.inr (.inr (.inl rfl)))
      · exact .inr (.inr (.inl h))
    · rw [hi] at h; cases h
    · rw [hi] at h; cases h
  | intLock e hi =>
    rcases h with h | h | h | h | h
    · exact .inl h
    · exact .inr (.inl h)
    · exact .inr (.inr (.inl h))
    · rw [hi] at h
      cases h
      exact .inr (.inr (.inr (.inr rfl)))
    · rw [hi] at h; cases h
  | intUnlock e hi =>
    rcases h with h | h | h | h | h
    · exact .inl h
    · exact .inr (.inl h)
    · exact .inr (.inr (.inl h))
    · rw [hi] at h; cases h
    · rw [hi] at h; cases h
  | _ => exact h

theorem OnWay.go {cfg : Sched.Cfg} {ops : List Op} {s : KSt} {l : Sched.Lab Sched.Req} {sys' : Sched.State Y} {ei : EventInfo}
    (htr : Sched.Tr Y cfg s.sys l sys') (hl : Free l) (hh : Y.hand s.sys.tree ei = true) (h : OnWay ops s ei) : OnWay ops { s with sys := sys' } ei := by
  have key := kept_go htr (by rintro r rfl; exact hl) hh
  unfold OnWay With at h ⊢
  rcases h with h | h | h | h | h | h | h
  · exact .inl h
  all_goals try exact .inr (.inr (.inr (.inr (.inr (.inr h)))))
  all_goals
    have := key (by simp only [h, true_or, or_true])
    rcases this with h | h | h | h | h
    · exact .inr (.inl h)
    · exact .inr (.inr (.inl h))
    · exact .inr (.inr (.inr (.inl h)))
    · exact .inr (.inr (.inr (.inr (.inl h))))
    · exact .inr (.inr (.inr (.inr (.inr (.inl h)))))

theorem osOf_spares {p : Path} {n : Comp} {c : Call} (h : Spares p n c) (ok : Bool) (l : Log) : osOf ((c, ok) :: l) p = osOf l p := by
  cases c <;> cases ok <;> first | rfl | exact if_neg h.1

/-- Besides `G`: the operation of the internal goroutine that is under way is among the operations; the OS watches `p` for Create. -/
structure H (base ops : List Op) (p : Path) (s : KSt) : Prop where
  g : G base ops s
  plan : ∀ ei t, s.plan = some (.internal ei, t) → .internal ei ∈ ops
  tree : P.create ⊑ osOf s.sys.tree.world.log p
  log : P.create ⊑ osOf s.log p

section
variable {cfg : Sched.Cfg} {E : Env} {base ops o : List Op} {k : List (Call × Bool)} {r : List (Path × Event)} {g : List (Key × EventInfo)}
  {s s' : KSt} {c : Nat} {p : Path} {n : Comp} {fd : Nat} {chd : Prop}

theorem H.step (h : H base ops p s) (hs : KStep cfg (calm E) s o k r g s') (hk : ∀ y ∈ k, Spares p n y.1) : H base (ops ++ o) p s' := by
  have hg := h.g.step hs
  cases hs with
  | go l sys' htr hl =>
    refine ⟨hg, fun ei t he => by simpa using h.plan ei t he, ?_, h.log⟩
    simp only [free_tree (P := P) htr hl]
    exact h.tree
  | change => exact ⟨hg, fun ei t he => by simpa using h.plan ei t he, h.tree, h.log⟩
  | wait => exact ⟨hg, fun ei t he => by simpa using h.plan ei t he, h.tree, h.log⟩
  | process => exact ⟨hg, fun ei t he => by simpa using h.plan ei t he, h.tree, h.log⟩
  | send => exact ⟨hg, fun ei t he => by simpa using h.plan ei t he, h.tree, h.log⟩
  | plan r ops' t new hr hp ht hn =>
    refine ⟨hg, fun ei t' he => ?_, h.tree, h.log⟩
    injection he with he
    injection he with he1 he2
    subst he1
    obtain ⟨_, op, hop, hl | hl⟩ := ht
    · rw [hl, show op = .internal ei from hop]; simp
    · rw [hl, show op = .internal ei from hop]; simp
  | call E' c' ok rest w' hx ht hs =>
    refine ⟨hg, fun ei t he => by simpa using h.plan ei t he, h.tree, ?_⟩
    simp only
    rw [osOf_spares (hk (c', ok) (by simp))]
    exact h.log
  | effect i r a b t hcalls hp ht =>
    refine ⟨hg, (fun _ _ he => by cases he), ?_, h.log⟩
    have := (hg.amid).idle.2.1
    simp only at this ⊢
    rw [← this]
    exact h.log
  | intEffect ei t hi hp ht =>
    refine ⟨hg, (fun _ _ he => by cases he), ?_, h.log⟩
    have := (hg.amid).idle.2.1
    simp only at this ⊢
    rw [← this]
    exact h.log

/-- The directory is not read yet, or the news is on its way. -/
def Due (p : Path) (n : Comp) (fd : Nat) (chd : Prop) (ops : List Op) (s : KSt) : Prop :=
  Waits p n fd chd s ∨ ∃ ei, News (p ++ [n]) ei ∧ OnWay ops s ei

theorem Due.step (hh : H base ops p s) (hE : Trg.Steady E) (hL : Lists E p) (hp : GoodPath p) (hst : E.stat p = some true) (hn : E.stat (p ++ [n]) = some true)
    (hhand : ∀ ei, News (p ++ [n]) ei → Y.hand s.sys.tree ei = true)
    (h : Due p n fd chd ops s) (hs : KStep cfg (calm E) s o k r g s') (hk : ∀ y ∈ k, Spares p n y.1) :
    Due p n fd (chd ∨ ∃ fl, (p, fl) ∈ r ∧ kqueue.nWrite ⊑ fl) (ops ++ o) s' := by
  rcases h with h | ⟨ei, hei, h⟩
  · -- as for the signals of a channel that gets one
    have hg := hh.g
    cases hs with
    | process E' fd' q ge hxe hhd =>
      have hx' : E' = E := hxe
      subst hx'
      have hge := hg.hand _ _ _ hhd
      by_cases hfd : (s.w.lkp.get? q).map (·.fd) = some fd'
      · have hhan : handle E' s.w fd' q ge = Trg.process kqueue E' (Trg.retrieved kqueue s.w q) q ge := by
          unfold handle; rw [if_pos hfd]
        have hr : Ready p n (Trg.retrieved kqueue s.w q) := h.ready
        have hhas : Has p fd (Trg.retrieved kqueue s.w q) := h.has
        have hn' : n ≠ [] := by
          rcases hE.form _ (by rw [hn]; simp) with hh | hh
          · exfalso
            have := congrArg List.length hh
            simp at this
            exact hp.1 this
          · rintro rfl
            exact hh.2 (by simp)
        obtain ⟨l, hl1, _, hl3⟩ := hE.list p hst
        have hLn : ∀ l, E'.list p = .ok l → ∀ x ∈ l, x.1 = n → x.2 = true := by
          intro l' hl' x hx hxn
          rw [hl1] at hl'
          cases hl'
          have := ((hl3 x.1 x.2).1 hx).2
          rw [hxn, Trg.join_entry hp, hn] at this
          exact (Option.some.inj this).symm
        have hdone : Told kqueue p n (Trg.process kqueue E' (Trg.retrieved kqueue s.w q) q ge).2 →
            ∃ ei, News (p ++ [n]) ei ∧ ei ∈ (handle E' s.w fd' q ge).2.map info := by
          rintro ⟨d, ht⟩
          refine ⟨info ⟨p ++ [n], kqueue.P.create, d⟩, ⟨rfl, rfl, ?_⟩, by rw [hhan]; exact List.mem_map_of_mem ht⟩
          have := hr.1.dirs hp (E := E') (q := q) (ge := ge) hge hLn _ ht rfl
          simp only at this
          simp [info, this]
        by_cases hnow : q = p ∧ kqueue.nWrite ⊑ ge
        · obtain ⟨rfl, hwr⟩ := hnow
          right
          obtain ⟨ei, h1, h2⟩ := hdone (by
            refine hr.1.found hp (hE.reg q) hge ?_ hl1 ?_ ?_
            · intro h0
              have h1 := hwr 1 (by decide)
              have := Event.bext.1 h0 1
              rw [BitVec.getLsbD_and] at this
              rw [show BitVec.getLsbD ge 1 = true from h1] at this
              revert this
              decide
            · exact List.mem_map.2 ⟨(n, true), (hl3 n true).2 ⟨hn', by rw [Trg.join_entry hp]; exact hn⟩, rfl⟩
            · rcases hE.opn (q ++ [n]) (by rw [hn]; simp) with h1 | h1
              · exact .inr ⟨h1, hE.reg _⟩
              · exact .inl h1)
          exact ⟨ei, h1, .inl h2⟩
        · have harm := Armed.process hr hL hE.reg hst q hge
          rcases hr.1.process hp (E := E') (q := q) (ge := ge) (fun _ => hE.reg p) (.inl hge) with h1 | h1
          · left
            refine ⟨by simp only [hhan]; exact ⟨h1, harm⟩, by simp only [hhan]; exact (hhas.process hE.reg q hge).1, (fun _ _ he => by cases he), fun hc => ?_⟩
            have hc : chd := by simpa using hc
            left
            simp only [hhan]
            rw [live_armed harm]
            refine (h.chg hc).resolve_right ?_
            rintro ⟨fd'', ge', h2, h3⟩
            rw [hhd] at h2
            cases h2
            exact hnow ⟨rfl, h3⟩
          · obtain ⟨ei, h2, h3⟩ := hdone h1
            exact .inr ⟨ei, h2, .inl h3⟩
      · left
        have hhan : handle E' s.w fd' q ge = (s.w, []) := by unfold handle; rw [if_neg hfd]
        refine ⟨by simp only [hhan]; exact h.ready, by simp only [hhan]; exact h.has, (fun _ _ he => by cases he), fun hc => ?_⟩
        have hc : chd := by simpa using hc
        left
        simp only [hhan]
        rw [live_armed h.ready.2]
        refine (h.chg hc).resolve_right ?_
        rintro ⟨fd'', ge', h2, h3⟩
        have h4 := h.hand _ _ h2
        rw [hhd] at h2
        cases h2
        obtain ⟨w, k1, k2⟩ := h.has
        exact hfd (by rw [k1, h4, ← k2]; rfl)
    | go l sys' htr hl => exact .inl ⟨h.ready, h.has, h.hand, fun hc => h.chg (by simpa using hc)⟩
    | change q fl m hxc hm hf =>
      refine .inl ⟨h.ready, h.has, h.hand, fun hc => ?_⟩
      simp only
      by_cases hq : p = q
      · subst hq
        rw [if_pos rfl]
        rcases hc with hc | ⟨fl', hmem, hfl⟩
        · exact (h.chg hc).imp (fun hh => hh.trans (Event.sub_or_left _ _)) id
        · left
          obtain rfl : fl' = fl := by simpa using hmem
          obtain ⟨m', h1, h2⟩ := h.ready.2
          rw [hm] at h1
          cases h1
          refine Event.Sub.trans ?_ (Event.sub_or_right _ _)
          clear hxc hm hf
          generalize kqueue.nWrite = a at *
          ebits
      · rw [if_neg hq]
        refine h.chg (hc.resolve_right ?_)
        rintro ⟨fl', hmem, _⟩
        simp at hmem
        exact hq hmem.1
    | wait q w hhd ho hpd hw =>
      refine .inl ⟨h.ready, h.has, ?_, fun hc => ?_⟩
      · intro fd' ge he
        cases he
        obtain ⟨w', h1, h2⟩ := h.has
        rw [hw] at h1
        cases h1
        exact h2
      · have hc : chd := by simpa using hc
        have h1 := (h.chg hc).resolve_right (by rintro ⟨_, _, h2, _⟩; rw [hhd] at h2; cases h2)
        simp only
        by_cases hq : p = q
        · subst hq
          exact .inr ⟨_, _, rfl, h1⟩
        · rw [if_neg hq]
          exact .inl h1
    | send ei l ho hc hok => exact .inl ⟨h.ready, h.has, h.hand, fun hc => h.chg (by simpa using hc)⟩
    | plan r ops' t new hr' hp ht' hn => exact .inl ⟨h.ready, h.has, h.hand, fun hc => h.chg (by simpa using hc)⟩
    | call E' c' ok rest w' hxe htodo hs =>
      have hx' : E' = E := hxe
      subst hx'
      have ha : Spares p n c' := hk (c', ok) (by simp)
      have hw : Ready p n w' ∧ Has p fd w' := by
        cases hs with
        | watch q e _ => exact ⟨(Ready.adds hL hp ha.1 ha.2).Watch h.ready e, h.has.Watch q e⟩
        | rewatch q old new _ => exact ⟨(Ready.frame hL hp ha.1 ha.2.1 ha.2.2).Rewatch h.ready new, h.has.Rewatch ha.1 ha.2.2 new⟩
        | unwatch q _ => exact ⟨(Ready.frame hL hp ha.1 ha.2.1 ha.2.2).Unwatch h.ready, h.has.Unwatch ha.1 ha.2.2⟩
      refine .inl ⟨hw.1, hw.2, h.hand, fun hc => ?_⟩
      simp only
      rw [live_armed hw.1.2, if_neg (by rw [cuts_spares ha]; decide)]
      exact h.chg (by simpa using hc)
    | effect i r a b t hcalls hp ht' => exact .inl ⟨h.ready, h.has, h.hand, fun hc => h.chg (by simpa using hc)⟩
    | intEffect ei t hi hp ht' => exact .inl ⟨h.ready, h.has, h.hand, fun hc => h.chg (by simpa using hc)⟩
  · refine .inr ⟨ei, hei, ?_⟩
    have h' : OnWay (ops ++ o) s ei := by
      rcases h with h | h | h | h | h | h | h
      · exact .inl h
      · exact .inr (.inl h)
      · exact .inr (.inr (.inl h))
      · exact .inr (.inr (.inr (.inl h)))
      · exact .inr (.inr (.inr (.inr (.inl h))))
      · exact .inr (.inr (.inr (.inr (.inr (.inl h)))))
      · exact .inr (.inr (.inr (.inr (.inr (.inr (List.mem_append_left _ h))))))
    cases hs with
    | go l sys' htr hl => exact h'.go htr hl (hhand ei hei)
    | process E' fd' q ge hxe hhd =>
      have hout : s.out = [] := hh.g.turn (by rw [hhd]; simp)
      rcases h' with h | h
      · rw [hout] at h; cases h
      · exact .inr h
    | send e l ho hc hok =>
      rcases h' with h | h | h
      · rw [ho] at h
        rcases List.mem_cons.1 h with rfl | h
        · exact .inr (.inl (by simp))
        · exact .inl h
      · exact .inr (.inl (by simp [h]))
      · exact .inr (.inr h)
    | intEffect e t hi hp ht' =>
      rcases h' with h | h | h | h | h | h | h
      · exact .inl h
      · exact .inr (.inl h)
      · exact .inr (.inr (.inl h))
      · exact .inr (.inr (.inr (.inl h)))
      · rw [hi] at h; cases h
      · rw [hi] at h
        cases h
        exact .inr (.inr (.inr (.inr (.inr (.inr (List.mem_append_left _ (hh.plan _ _ hp)))))))
      · exact .inr (.inr (.inr (.inr (.inr (.inr h)))))
    | _ => exact h'
end

theorem KRun.due {cfg : Sched.Cfg} {E : Env} {base ops : List Op} {calls : List (Call × Bool)} {chgs : List (Path × Event)}
    {sgs : List (Key × EventInfo)} {s s' : KSt} {c : Nat} {q p : Path} {n : Comp} {fd : Nat} {ev : Event} (hg : H base [] p s) (hE : Trg.Steady E)
    (hL : Lists E p) (hp : GoodPath p) (hst : E.stat p = some true) (hn : E.stat (p ++ [n]) = some true) (h : KRun cfg (calm E) s ops calls chgs sgs s')
    (hk : ∀ y ∈ calls, Spares p n y.1) (hops : ∀ op ∈ base ++ ops, NoFail c op) (hl : ∀ op ∈ ops, Leaves P c (p ++ [n]) op)
    (hreg : regOf P base c q = some (ev, true)) (hqp : q <+: p) (h0 : Due p n fd False [] s) :
    H base ops p s' ∧ Due p n fd (∃ fl, (p, fl) ∈ chgs ∧ kqueue.nWrite ⊑ fl) ops s' := by
  induction h with
  | refl => exact ⟨hg, h0.imp (fun h => ⟨h.ready, h.has, h.hand, fun ⟨_, h, _⟩ => by cases h⟩) id⟩
  | @step ops calls chgs sgs o k r g s1 s2 h1 hs ih =>
    have hops' : ∀ op ∈ base ++ ops, NoFail c op := fun a ha => hops a (by
      simp only [List.mem_append] at ha ⊢; rcases ha with h | h; exact .inl h; exact .inr (.inl h))
    have hl' : ∀ op ∈ ops, Leaves P c (p ++ [n]) op := fun a ha => hl a (by simp [ha])
    obtain ⟨hg1, hs1⟩ := ih (fun y hy => hk y (by simp [hy])) hops' hl'
    refine ⟨hg1.step hs (n := n) (fun y hy => hk y (by simp [hy])), ?_⟩
    have hhand : ∀ ei, News (p ++ [n]) ei → Y.hand s1.sys.tree ei = true := by
      intro ei hei
      obtain ⟨ops₀, ops₁, hsplit, h2, _⟩ := hg1.g.amid
      refine NonRec.handed_reg factsP h2 (c := c) (ev := ev) (fun o ho => hops' o ?_) hqp ?_ hp.1 ?_ hei.1 ?_ hei.2.2
      · rw [hsplit]
        simp only [List.mem_append] at ho ⊢; rcases ho with h | h; exact .inl h; exact .inr (.inl h)
      · rw [Plain.leaves_reg base (x := p ++ [n]) (fun o ho => hl' o (by rw [hsplit]; simp [ho])) (hqp.trans (List.prefix_append _ _))]
        exact hreg
      · intro h0
        have := hg1.tree
        rw [h0] at this
        exact absurd (this 8 (by decide)) (by decide)
      · rw [hei.2.1]; decide
    have h2 := hs1.step hg1 hE hL hp hst hn hhand hs (fun y hy => hk y (by simp [hy]))
    refine h2.imp (fun h => ⟨h.ready, h.has, h.hand, fun ⟨fl, hm, hf⟩ => h.chg ?_⟩) id
    rcases List.mem_append.1 hm with hm | hm
    · exact .inl ⟨fl, hm, hf⟩
    · exact .inr ⟨fl, hm, hf⟩

/-- **C122 (partial), the whole program on the BSDs.**  As `C122_bsd`, for executions in which, from the moment on, the tree did not call the watcher for `p` or
the new directory, nor end or change a watch of the directory in which `p` is: when nothing is on its way to the tree, the creation of the directory is with
the internal goroutine, or that one has begun to follow it up.  (Following it up calls the watcher for the new directory.)
Missing: with such calls; for the new directory it is false (`C122_refuted`). -/
theorem C122_bsd_partial {cfg : Sched.Cfg} {E E' : Env} (hE : Trg.Steady E) (hE' : Trg.Steady E') {ops₀ : List Op} {calls₀ : List (Call × Bool)}
    {chgs₀ : List (Path × Event)} {sg₀ : List (Key × EventInfo)} {s : KSt} (h0 : KRun cfg (calm E) KSt.init ops₀ calls₀ chgs₀ sg₀ s)
    (hplan : s.plan = none) (hq : s.Quiet) {c : Nat} {q p : Path} {n : Comp} {ev : Event} (hp : GoodPath p) (hst : E.stat p = some true) (hsk : E.opn p ≠ .skip)
    (hold : E.stat (p ++ [n]) = none) (hnew : E'.stat (p ++ [n]) = some true)
    (hL : ∀ q l, E'.list q = .ok l → ∀ x ∈ l, Trg.join q x.1 = p → x.2 = true)
    (hreg : regOf P ops₀ c q = some (ev, true)) (hqp : q <+: p) (hos : P.create ⊑ osOf s.log p) (hfail : ∀ op ∈ ops₀, NoFail c op)
    {ops : List Op} {calls : List (Call × Bool)} {chgs : List (Path × Event)} {sg : List (Key × EventInfo)} {s' : KSt}
    (h : KRun cfg (calm E') s ops calls chgs sg s') {fl : Event} (hfl : (p, fl) ∈ chgs) (hwr : kqueue.nWrite ⊑ fl)
    (hl : ∀ op ∈ ops, Leaves P c (p ++ [n]) op) (hk : ∀ y ∈ calls, Spares p n y.1) (hq' : s'.Quiet) :
    ∃ ei, News (p ++ [n]) ei ∧ With ops s' ei := by
  have hj : J E ops₀ [] s := (h0.j (J.init E)).rebase hplan
  have hr := hj.ready_os hE hst hsk hold hos
  obtain ⟨w, k1, _⟩ := hr.1.dir
  have hn' : n ≠ [] := by
    rcases hE'.form (p ++ [n]) (by rw [hnew]; simp) with hh | hh
    · exfalso
      have := congrArg List.length hh
      simp at this
      exact hp.1 this
    · rintro rfl
      exact hh.2 (by simp)
  have hst' : E'.stat p = some true := hE'.isdir p n hp.1 hn' (by rw [Trg.join_entry hp, hnew]; simp)
  have hops : ∀ op ∈ ops₀ ++ ops, NoFail c op := by
    intro op hop
    rcases List.mem_append.1 hop with h | h
    · exact hfail op h
    · exact (hl op h).noFail
  have htree : s.log = s.sys.tree.world.log := by
    have := hj.amid
    rw [hplan] at this
    exact this.idle.2.1
  have hs0 : Due p n w.fd False [] s := by
    refine .inl ⟨hr, ⟨w, k1, rfl⟩, fun fd' ge he => ?_, False.elim⟩
    rw [hq.2.1] at he; cases he
  obtain ⟨_, hor⟩ := h.due ⟨⟨hj.amid, hj.pend, hj.hand, hj.turn⟩, (fun _ _ he => by rw [hplan] at he; cases he), htree ▸ hos, hos⟩
    hE' hL hp hst' hnew hk hops hl hreg hqp hs0
  rcases hor with h1 | ⟨ei, h1, h2⟩
  · exfalso
    rcases h1.chg ⟨fl, hfl, hwr⟩ with h2 | ⟨_, _, h2, _⟩
    · rw [hq'.1 p] at h2
      exact absurd (h2 1 (by decide)) (by decide)
    · rw [hq'.2.1] at h2; cases h2
  · refine ⟨ei, h1, ?_⟩
    rcases h2 with h2 | h2 | ⟨_, _, h2⟩ | h2
    · rw [hq'.2.2.1] at h2; cases h2
    · rw [hq'.2.2.2.1] at h2; cases h2
    · rw [hq'.2.2.2.2] at h2; cases h2
    · exact h2

namespace NewDirEx
open Ex (cfg d e Wr Re goodE goodD uW uR)
open Trg.Ex (kd ke kf)
open Trg.NewEx (E0 steady0)

/-- Only `/` and `/d` exist. -/
def Em : Env :=
  { E0 with
    stat := fun p => if p = [kd, ke] then none else E0.stat p
    list := fun p => if p = [kd] then .ok [] else E0.list p }

theorem steadyM : Trg.Steady Em := by
  have hs : ∀ q, q ≠ [kd, ke] → Em.stat q = E0.stat q := fun q h => by simp [Em, h]
  have hn : ∀ q, Em.stat q ≠ none → q ≠ [kd, ke] ∧ E0.stat q ≠ none := by
    intro q h
    by_cases hq : q = [kd, ke]
    · exact absurd (by simp [Em, hq]) h
    · exact ⟨hq, hs q hq ▸ h⟩
  constructor
  · exact fun p h => steady0.form p (hn p h).2
  · intro p h
    have hp := (hn p (by rw [h]; simp)).1
    obtain ⟨l, h1, h2, h3⟩ := steady0.list p (hs p hp ▸ h)
    by_cases hpe : p = [kd]
    · subst hpe
      refine ⟨[], rfl, by simp, fun c d => ⟨fun h => by simp at h, ?_⟩⟩
      rintro ⟨hc, hx⟩
      exfalso
      obtain ⟨k1, _⟩ := hn _ (by rw [hx]; simp)
      have k2 := (h3 c d).2 ⟨hc, hs _ k1 ▸ hx⟩
      have : l = [(ke, true)] := by
        have : E0.list [kd] = .ok [(ke, true)] := rfl
        rw [this] at h1
        cases h1
        rfl
      subst this
      cases List.mem_singleton.1 k2
      exact k1 rfl
    · refine ⟨l, by simp [Em, hpe, h1], h2, fun c d => (h3 c d).trans ⟨fun hh => ⟨hh.1, ?_⟩, fun hh => ⟨hh.1, ?_⟩⟩⟩
      · rw [hs _ (Trg.join_ne_entry (p := [kd]) (n := ke) (by simp [GoodPath, kd]) hpe c)]; exact hh.2
      · rw [← hs _ (Trg.join_ne_entry (p := [kd]) (n := ke) (by simp [GoodPath, kd]) hpe c)]; exact hh.2
  · intro p c hp hc h
    have h1 := steady0.isdir p c hp hc (hn _ h).2
    by_cases hpx : p = [kd, ke]
    · subst hpx
      exfalso
      apply (hn _ h).2
      simp only [E0, Trg.Ex.E7, Trg.join]
      simp [kd, ke, kf]
    · rw [hs p hpx]; exact h1
  · exact fun p h => steady0.opn p (hn p h).2
  · exact fun p => steady0.reg p
  · exact fun p => steady0.unreg p

def WC : Event := 0x500
def req1 : Sched.Req := .watch d true 1 Wr
def op1 : Op := .watch d true 1 Wr true
def t1 : St := (NonRec.watchOp P .ok (.dir .nil) NonRec.init d true 1 Wr).1
theorem step1 : NonRec.Step P true NonRec.init op1 t1 :=
  NonRec.Step.watch (O := .ok) (dt := .dir .nil) goodD uW (by simp [DirTree.Named, Entries.Named]) (fun _ _ => rfl)
def w1 : Trg.St := (Trg.Watch kqueue Em {} d WC).1

/-- Channel 1 watches the empty directory `/d` recursively for Write. -/
def s1 : KSt :=
  { sys := { Sched.State.init Y with tree := t1, next := 1 }, w := w1, pend := live w1 (fun _ => 0), log := [(.watch d WC, true)] }

theorem run1 : KRun cfg (calm Em) KSt.init [op1] [(.watch d WC, true)] [] [] s1 := by
  have h := KRun.refl (cfg := cfg) (X := calm Em) (s := KSt.init)
  have h := h.step (.go _ _ (.call (Y := Y) req1 (show GoodPath d ∧ NonRec.UserEvents P Wr from ⟨goodD, uW⟩) trivial) trivial)
  have h := h.step (.go _ _ (.lock 0 req1 [] [] rfl (by rintro ⟨_, _, _, _, h⟩; cases h)
    (by rintro ⟨_, _, h | h⟩ <;> cases h <;> contradiction) (by rintro ⟨_, h | h⟩ <;> cases h)) trivial)
  have h := h.step (.plan req1 [op1] t1 [(.watch d WC, true)] (.inl ⟨0, .head _⟩) rfl ⟨NonRec.Steps.nil.snoc step1, op1, ⟨_, rfl⟩, .inl rfl⟩ rfl)
  have h := h.step (.call Em (.watch d WC) true [] w1 rfl rfl (.watch d WC (by decide)))
  have h := h.step (.effect 0 req1 [] [] t1 rfl rfl rfl)
  have h := h.step (.go _ _ (.unlock 0 req1 [] [] rfl) trivial)
  have h := h.step (.go _ _ (.ret 0 req1 [] [] rfl) trivial)
  exact h

theorem quiet1 : s1.Quiet := by
  refine ⟨fun q => ?_, rfl, rfl, rfl, rfl⟩
  simp only [s1, live]
  split <;> rfl

def ei : EventInfo := { event := P.create, path := e, isDir := some true }

/-- The directory `/d/e` appears.  The internal goroutine gets its creation. -/
theorem run2 : ∃ s', KRun cfg (calm E0) s1 [] [] [(d, 0x2)] [] s' ∧ s'.Quiet := by
  have h := KRun.refl (cfg := cfg) (X := calm E0) (s := s1)
  have h := h.step (.change d 0x2 0x2 (by unfold calm; decide) (by decide) (by decide))
  have h := h.step (.wait d ⟨0, true, WC, 0⟩ rfl rfl (by decide) (by decide))
  have h := h.step (.process E0 0 d 0x2 rfl (by decide))
  have h := h.step (.send ei [] (by decide) (by decide) goodE)
  have h := h.step (.go _ _ (.spawn ei [] rfl) trivial)
  have h := h.step (.go _ _ (.rlock 1 ei [] [] rfl (by rintro ⟨_, _, h | h⟩ <;> cases h)
    (by rintro ⟨_, h | h⟩ <;> cases h)
    (by rintro _ (⟨_, _, h⟩ | ⟨_, h⟩) <;> cases h)) trivial)
  have hs : NonRec.sends P t1.root ei = [] := by decide
  have h := h.step (.go _ _ (.runlock 1 ei [] [] [] rfl (by intro k; exact Nat.le_of_eq (congrArg (List.count k) hs)) (by decide)) trivial)
  have h := h.step (.go _ _ (.handed 1 ei [] [] rfl (by decide)) trivial)
  refine ⟨_, h, fun q => ?_, rfl, rfl, rfl, rfl⟩
  by_cases hq : q = d
  · subst hq; rfl
  · simp only [live, hq, if_false, s1]
    split <;> simp

theorem lists0 : ∀ q l, E0.list q = .ok l → ∀ x ∈ l, Trg.join q x.1 = d → x.2 = true := by
  intro q l h x hx hj
  simp only [E0, Trg.Ex.E7] at h
  split at h
  · cases h; cases hx
  · split at h
    · cases h; cases List.mem_singleton.1 hx; rfl
    · split at h
      · cases h; cases List.mem_singleton.1 hx; rfl
      · cases h

/-- The run meets the hypotheses. -/
example : ∃ s', KRun cfg (calm E0) s1 [] [] [(d, 0x2)] [] s' ∧ ∃ ei, News e ei ∧ With [] s' ei := by
  obtain ⟨s', h, hq⟩ := run2
  exact ⟨s', h, C122_bsd_partial steadyM steady0 run1 rfl quiet1 (c := 1) (q := d) (p := d) (n := ke) (ev := Wr) goodD (by decide) (by decide) (by decide)
    (by decide) lists0 (by decide) List.prefix_rfl (by decide) (by simp [op1, NoFail]) h (fl := 0x2) (by simp) (by decide) (by simp) (by simp) hq⟩

def req2 : Sched.Req := .watch e false 2 Re
def op2 : Op := .watch e false 2 Re true
def t2 : St := (NonRec.watchOp P .ok (.dir .nil) t1 e false 2 Re).1
theorem step2 : NonRec.Step P true t1 op2 t2 :=
  NonRec.Step.watch (O := .ok) goodE uR (by simp [DirTree.Named, Entries.Named]) (fun _ _ => rfl)
def w2 : Trg.St := (Trg.Watch kqueue E0 w1 e Re).1

/-- `/d/e` appears; channel 2 watches it before the notification of `/d` is retrieved. -/
theorem run3 : ∃ s', KRun cfg (calm E0) s1 [op2] [(.watch e Re, true)] [(d, 0x2)] [] s' ∧ s'.plan = none ∧ s'.Quiet ∧ s'.sys.rq = [] ∧
    s'.sys.int = .idle ∧ s'.log = [(.watch e Re, true), (.watch d WC, true)] := by
  have h := KRun.refl (cfg := cfg) (X := calm E0) (s := s1)
  have h := h.step (.change d 0x2 0x2 (by unfold calm; decide) (by decide) (by decide))
  have h := h.step (.go _ _ (.call (Y := Y) req2 (show GoodPath e ∧ NonRec.UserEvents P Re from ⟨goodE, uR⟩) trivial) trivial)
  have h := h.step (.go _ _ (.lock 1 req2 [] [] rfl (by rintro ⟨_, _, _, _, h⟩; cases h)
    (by rintro ⟨_, _, h | h⟩ <;> cases h <;> contradiction) (by rintro ⟨_, h | h⟩ <;> cases h)) trivial)
  have h := h.step (.plan req2 [op2] t2 [(.watch e Re, true)] (.inl ⟨1, .head _⟩) rfl ⟨NonRec.Steps.nil.snoc step2, op2, ⟨_, rfl⟩, .inl rfl⟩ rfl)
  have h := h.step (.call E0 (.watch e Re) true [] w2 rfl rfl (.watch e Re (by decide)))
  have h := h.step (.effect 1 req2 [] [] t2 rfl rfl rfl)
  have h := h.step (.go _ _ (.unlock 1 req2 [] [] rfl) trivial)
  have h := h.step (.go _ _ (.ret 1 req2 [] [] rfl) trivial)
  have h := h.step (.wait d ⟨0, true, WC, 0⟩ rfl rfl (by decide) (by decide))
  have h := h.step (.process E0 0 d 0x2 rfl (by decide))
  refine ⟨_, h, rfl, ⟨fun q => ?_, rfl, by decide, rfl, rfl⟩, rfl, rfl, rfl⟩
  by_cases hq : q = d
  · subst hq; rfl
  · simp only [live, hq, if_false, s1]
    split <;> simp
end NewDirEx

/-- **C122 is false of the code**: channel 1 watches `/d` recursively for Write.  The directory `/d/e` appears, and before the watcher looks at `/d` channel 2
watches `/d/e` for Remove.  The watcher, then reading `/d`, has `/d/e` in its table already and reports nothing (watcher_trigger.go:333-348), so the internal
goroutine never learns of the directory. -/
theorem C122_refuted : ¬ C122_bsd := by
  intro h
  obtain ⟨s', h1, _, h3, h4, h5, _⟩ := NewDirEx.run3
  obtain ⟨ei, _, h6 | h6 | h6 | h6⟩ := h _ _ _ _ _ _ _ _ _ _ _ _ _ 1 Ex.d Ex.d Trg.Ex.ke Ex.Wr NewDirEx.steadyM Trg.NewEx.steady0 (by decide) (by decide)
    (fun q hq => by
      have : q ≠ [Trg.Ex.kd, Trg.Ex.ke] := hq
      simp [NewDirEx.Em, this]) NewDirEx.run1 rfl NewDirEx.quiet1
    (by simp [NewDirEx.op1, NoFail]) Ex.goodD (by decide) List.prefix_rfl (by decide) h1 ⟨0x2, by simp, by decide⟩ (by simp [NewDirEx.op2, Leaves]) h3
  · rw [h4] at h6; cases h6
  · rw [h5] at h6; cases h6
  · rw [h5] at h6; cases h6
  · simp [NewDirEx.op2] at h6

/-- What follows: all is done and nothing is on its way, `/d/e` exists, channel 1 is registered recursively on `/d` for Write, and the OS was not asked to watch
`/d/e` for Write, nor for Create. -/
theorem C122_unwatched : ∃ (ops : List Op) (calls : List (Call × Bool)) (s' : KSt), KRun Ex.cfg (calm Trg.NewEx.E0) NewDirEx.s1 ops calls [(Ex.d, 0x2)] [] s' ∧
    s'.plan = none ∧ s'.Quiet ∧ s'.sys.rq = [] ∧ s'.sys.int = .idle ∧ Trg.NewEx.E0.stat Ex.e = some true ∧
    regOf P ([NewDirEx.op1] ++ ops) 1 Ex.d = some (P.write, true) ∧ osOf s'.log Ex.e &&& (P.write ||| P.create) = 0 := by
  obtain ⟨s', h1, h2, h3, h4, h5, h6⟩ := NewDirEx.run3
  exact ⟨_, _, s', h1, h2, h3, h4, h5, by decide, by decide, by rw [h6]; decide⟩
end Bsd
end Verif
