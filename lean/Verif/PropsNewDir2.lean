/-
The whole program on Solaris and illumos: a directory that appears below a recursive watch (C122).
-/
import Verif.PropsNewDir
import Verif.PropsNewFile3

namespace Verif
namespace Fen
open Trg (fen Env Unseen Told)
open NonRec (Op regOf NoFail GoodPath)
open Linux (Free sigs)
open Plain (Leaves free_tree)

/-- The creation of the directory `x`. -/
def News (x : Path) (ei : EventInfo) : Prop := ei.path = x ∧ ei.event = P.create ∧ ei.isDir = some true

/-- The internal goroutine has the event, or has begun to follow it up. -/
def With (ops : List Op) (s : FSt) (ei : EventInfo) : Prop :=
  ei ∈ s.sys.rq ∨ s.sys.int = .waiting ei ∨ s.sys.int = .locked ei ∨ .internal ei ∈ ops

/-- C122 in full, on Solaris and illumos; as `Bsd.C122_bsd`. -/
def C122_fen : Prop :=
  ∀ (cfg : Sched.Cfg) (E E' : Env) (ops₀ ops : List Op) (calls₀ calls : List (Call × Bool)) (chgs₀ chgs : List (Path × Event))
    (sg₀ sg : List (Key × EventInfo)) (s s' : FSt) (c : Nat) (q p : Path) (n : Comp) (ev : Event),
    Trg.Steady E → Trg.Steady E' → E.stat (p ++ [n]) = none → E'.stat (p ++ [n]) = some true → (∀ q, q ≠ p ++ [n] → E'.stat q = E.stat q) →
    FRun cfg (calm E) FSt.init ops₀ calls₀ chgs₀ sg₀ s → s.plan = none → s.Quiet → (∀ op ∈ ops₀, NoFail c op) → GoodPath p →
    regOf P ops₀ c q = some (ev, true) → q <+: p → P.create ⊑ osOf s.log p →
    FRun cfg (calm E') s ops calls chgs sg s' → (∃ fl, (p, fl) ∈ chgs ∧ fen.nWrite ⊑ fl) → (∀ op ∈ ops, Leaves P c (p ++ [n]) op) →
    s'.Quiet → ∃ ei, News (p ++ [n]) ei ∧ With ops s' ei

/-- The event is on its way to the internal goroutine, or there. -/
def OnWay (ops : List Op) (s : FSt) (ei : EventInfo) : Prop :=
  ei ∈ s.out ∨ ei ∈ s.sys.cq ∨ (∃ i d, (i, ei, d) ∈ s.sys.disp) ∨ With ops s ei

theorem OnWay.go {cfg : Sched.Cfg} {ops : List Op} {s : FSt} {l : Sched.Lab Sched.Req} {sys' : Sched.State Y} {ei : EventInfo}
    (htr : Sched.Tr Y cfg s.sys l sys') (hl : Free l) (hh : Y.hand s.sys.tree ei = true) (h : OnWay ops s ei) : OnWay ops { s with sys := sys' } ei := by
  have key := Bsd.kept_go htr (by rintro r rfl; exact hl) hh
  unfold OnWay With at h ⊢
  rcases h with h | h | h | h | h | h | h
  · exact .inl h
  all_goals try exact .inr (.inr (.inr (.inr (.inr (.inr h)))))
  all_goals
    have := key (by simp only [h, true_or, or_true])
    rcases this with h | h | h | h | h
    · exact .inr (.inl h)
    · exact .inr (.inr (.inl h))
    · exact .inr (.inr (.inr (.inl h)))
    · exact .inr (.inr (.inr (.inr (.inl h))))
    · exact .inr (.inr (.inr (.inr (.inr (.inl h)))))

/-- Besides `G`: the operation of the internal goroutine that is under way is among the operations; the OS watches `p` for Create. -/
structure H (base ops : List Op) (p : Path) (s : FSt) : Prop where
  g : G base ops s
  plan : ∀ ei t, s.plan = some (.internal ei, t) → .internal ei ∈ ops
  tree : P.create ⊑ osOf s.sys.tree.world.log p
  log : P.create ⊑ osOf s.log p

section
variable {cfg : Sched.Cfg} {E : Env} {base ops o : List Op} {k : List (Call × Bool)} {r : List (Path × Event)} {g : List (Key × EventInfo)}
  {s s' : FSt} {c : Nat} {p : Path} {n : Comp} {chd : Prop}

theorem H.step (h : H base ops p s) (hs : FStep cfg (calm E) s o k r g s') (hk : ∀ y ∈ k, Bsd.Spares p n y.1) : H base (ops ++ o) p s' := by
  have hg := h.g.step hs
  cases hs with
  | go l sys' htr hl =>
    refine ⟨hg, fun ei t he => by simpa using h.plan ei t he, ?_, h.log⟩
    simp only [free_tree (P := P) htr hl]
    exact h.tree
  | change => exact ⟨hg, fun ei t he => by simpa using h.plan ei t he, h.tree, h.log⟩
  | wait => exact ⟨hg, fun ei t he => by simpa using h.plan ei t he, h.tree, h.log⟩
  | process => exact ⟨hg, fun ei t he => by simpa using h.plan ei t he, h.tree, h.log⟩
  | send => exact ⟨hg, fun ei t he => by simpa using h.plan ei t he, h.tree, h.log⟩
  | plan r ops' t new hr hp ht hn =>
    refine ⟨hg, fun ei t' he => ?_, h.tree, h.log⟩
    injection he with he
    injection he with he1 he2
    subst he1
    obtain ⟨_, op, hop, hl | hl⟩ := ht
    · rw [hl, show op = .internal ei from hop]; simp
    · rw [hl, show op = .internal ei from hop]; simp
  | call E' c' ok rest w' hx ht hs =>
    refine ⟨hg, fun ei t he => by simpa using h.plan ei t he, h.tree, ?_⟩
    simp only
    rw [Bsd.osOf_spares (hk (c', ok) (by simp))]
    exact h.log
  | effect i r a b t hcalls hp ht =>
    refine ⟨hg, (fun _ _ he => by cases he), ?_, h.log⟩
    have := (hg.amid).idle.2.1
    simp only at this ⊢
    rw [← this]
    exact h.log
  | intEffect ei t hi hp ht =>
    refine ⟨hg, (fun _ _ he => by cases he), ?_, h.log⟩
    have := (hg.amid).idle.2.1
    simp only at this ⊢
    rw [← this]
    exact h.log

/-- The directory is not read yet, or the news is on its way. -/
def Due (p : Path) (n : Comp) (chd : Prop) (ops : List Op) (s : FSt) : Prop :=
  Waits p n chd s ∨ ∃ ei, News (p ++ [n]) ei ∧ OnWay ops s ei

theorem Due.step (hh : H base ops p s) (hE : Trg.Steady E) (hp : GoodPath p) (hst : E.stat p = some true) (hn : E.stat (p ++ [n]) = some true)
    (hhand : ∀ ei, News (p ++ [n]) ei → Y.hand s.sys.tree ei = true)
    (h : Due p n chd ops s) (hs : FStep cfg (calm E) s o k r g s') (hk : ∀ y ∈ k, Bsd.Spares p n y.1) (hr : ∀ fl, (p, fl) ∈ r → fen.nWrite ⊑ fl) :
    Due p n (chd ∨ ∃ fl, (p, fl) ∈ r) (ops ++ o) s' := by
  rcases h with h | ⟨ei, hei, h⟩
  · have hg := hh.g
    cases hs with
    | go l sys' htr hl => exact .inl (h.moved h.unseen rfl (fun _ _ h => h) (fun _ _ h => h) (by simp))
    | change q fl hxc =>
      left
      by_cases hq : q = p
      · subst hq
        have hf : Flying q fen.nWrite { s with kern := s.kern.change q fl } := by
          rcases h.main with ⟨a, m, h1, h2⟩ | h1
          · have hfl := hr fl (by simp)
            rcases change_assoc (p := q) (fl := fl) h1 with ⟨_, _, h3⟩ | ⟨h3, _⟩
            · exact .inl ⟨a, _, h3, and_sub hfl (h2.trans (Event.sub_or_left _ _))⟩
            · exact absurd ⟨rfl, write_ne (h2.trans (Event.sub_or_left _ _)) hfl⟩ h3
          · exact h1.change q fl
        exact ⟨h.unseen, .inr hf, fun _ => hf⟩
      · refine ⟨h.unseen, ?_, fun hc => (h.chg (hc.resolve_right ?_)).change q fl⟩
        · rcases h.main with ⟨a, m, h1, h2⟩ | h1
          · rcases change_assoc (p := q) (fl := fl) h1 with ⟨h3, _⟩ | ⟨_, h3⟩
            · exact absurd h3.symm hq
            · exact .inl ⟨a, m, h3, h2⟩
          · exact .inr (h1.change q fl)
        · rintro ⟨fl', hmem⟩
          simp at hmem
          exact hq hmem.1.symm
    | wait q a fl hhd ho hpq =>
      exact .inl ⟨h.unseen, h.main.imp id (fun h => h.wait hhd), fun hc => (h.chg (by simpa using hc)).wait hhd⟩
    | process E' q ge hxe hhd =>
      have hx' : E' = E := hxe
      subst hx'
      have hge := hg.hand _ _ hhd
      obtain ⟨⟨e1, _⟩, e2⟩ := Sim.process (n₀ := (Trg.retrieved fen s.w q).nat) (s := s.woken q) (t := Trg.retrieved fen s.w q) hE.reg hE.unreg ⟨rfl, rfl⟩ q ge
      have hu : Unseen fen p n (Trg.retrieved fen s.w q) := ⟨h.unseen.dir, h.unseen.new⟩
      have hn' : n ≠ [] := by
        rcases hE.form (p ++ [n]) (by rw [hn]; simp) with hh | hh
        · exfalso
          have := congrArg List.length hh
          simp at this
          exact hp.1 this
        · rintro rfl
          exact hh.2 (by simp)
      obtain ⟨l, hl1, _, hl3⟩ := hE.list p hst
      have hLn : ∀ l, E'.list p = .ok l → ∀ x ∈ l, x.1 = n → x.2 = true := by
        intro l' hl' x hx hxn
        rw [hl1] at hl'
        cases hl'
        have := ((hl3 x.1 x.2).1 hx).2
        rw [hxn, Trg.join_entry hp, hn] at this
        exact (Option.some.inj this).symm
      have hdone : Told fen p n (Trg.process fen E' (Trg.retrieved fen s.w q) q ge).2 →
          ∃ ei, News (p ++ [n]) ei ∧ ei ∈ (process E' (s.woken q) q ge).2.map info := by
        rintro ⟨d, ht⟩
        refine ⟨info ⟨p ++ [n], fen.P.create, d⟩, ⟨rfl, rfl, ?_⟩, by rw [e2]; exact List.mem_map_of_mem ht⟩
        have := hu.dirs hp (E := E') (q := q) (ge := ge) hge hLn _ ht rfl
        simp only at this
        simp [info, this]
      by_cases hnow : q = p ∧ fen.nWrite ⊑ ge
      · obtain ⟨rfl, hwr⟩ := hnow
        right
        obtain ⟨ei, h1, h2⟩ := hdone (by
          refine hu.found hp (hE.reg q) hge (write_ne (fun _ h => h) hwr) hl1 ?_ ?_
          · exact List.mem_map.2 ⟨(n, true), (hl3 n true).2 ⟨hn', by rw [Trg.join_entry hp]; exact hn⟩, rfl⟩
          · rcases hE.opn (q ++ [n]) (by rw [hn]; simp) with h1 | h1
            · exact .inr ⟨h1, hE.reg _⟩
            · exact .inl h1)
        exact ⟨ei, h1, .inl h2⟩
      · rcases hu.process hp (E := E') (q := q) (ge := ge) (fun _ => hE.reg p) (.inl hge) with h1 | h1
        · left
          have hkeep := calls_keep (x := p) (process E' (s.woken q) q ge).1.n (k := s.kern)
            (Keeps.process (s := s.woken q) (fun _ h => by cases h) q hge)
          have hf : Flying p fen.nWrite s → ∃ a fl, (p, a, fl) ∈ s.kern.queue ∧ fen.nWrite ⊑ fl := by
            rintro (hf | ⟨ge', h2, h3⟩)
            · exact hf
            · rw [hhd] at h2
              cases h2
              exact absurd ⟨rfl, h3⟩ hnow
          have hf' : Flying p fen.nWrite s → ∃ a fl, (p, a, fl) ∈ ((process E' (s.woken q) q ge).1.n.foldl Kern.call s.kern).queue ∧ fen.nWrite ⊑ fl :=
            fun h2 => (hf h2).imp fun a h3 => h3.imp fun fl h4 => ⟨(hkeep.2 a fl).2 h4.1, h4.2⟩
          refine ⟨by simp only [e1]; exact h1, ?_, fun hc => .inl (hf' (h.chg (by simpa using hc)))⟩
          exact h.main.imp (fun ⟨a, m, h2, h3⟩ => ⟨a, m, hkeep.1 a m h2, h3⟩) (fun h2 => .inl (hf' h2))
        · obtain ⟨ei, h2, h3⟩ := hdone h1
          exact .inr ⟨ei, h2, .inl h3⟩
    | send ei l ho hc hok => exact .inl (h.moved h.unseen rfl (fun _ _ h => h) (fun _ _ h => h) (by simp))
    | plan r ops' t new hr' hp ht' hn => exact .inl (h.moved h.unseen rfl (fun _ _ h => h) (fun _ _ h => h) (by simp))
    | call E' c' ok rest w' hxe htodo hs =>
      have hx' : E' = E := hxe
      subst hx'
      have ha : Bsd.Spares p n c' := hk (c', ok) (by simp)
      have hkeep := calls_keep (x := p) w'.n (k := s.kern) (Keeps.spared (z := ⟨s.w, []⟩) (fun _ h => by cases h) ha hs)
      exact .inl (h.moved (unseen_serves hE hp h.unseen ha hs) rfl hkeep.1 (fun a m => (hkeep.2 a m).2) (by simp))
    | effect i r a b t hcalls hp ht' => exact .inl (h.moved h.unseen rfl (fun _ _ h => h) (fun _ _ h => h) (by simp))
    | intEffect ei t hi hp ht' => exact .inl (h.moved h.unseen rfl (fun _ _ h => h) (fun _ _ h => h) (by simp))
  · refine .inr ⟨ei, hei, ?_⟩
    have h' : OnWay (ops ++ o) s ei := by
      rcases h with h | h | h | h | h | h | h
      · exact .inl h
      · exact .inr (.inl h)
      · exact .inr (.inr (.inl h))
      · exact .inr (.inr (.inr (.inl h)))
      · exact .inr (.inr (.inr (.inr (.inl h))))
      · exact .inr (.inr (.inr (.inr (.inr (.inl h)))))
      · exact .inr (.inr (.inr (.inr (.inr (.inr (List.mem_append_left _ h))))))
    cases hs with
    | go l sys' htr hl => exact h'.go htr hl (hhand ei hei)
    | process E' q ge hxe hhd =>
      have hout : s.out = [] := hh.g.turn (by rw [hhd]; simp)
      rcases h' with h | h
      · rw [hout] at h; cases h
      · exact .inr h
    | send e l ho hc hok =>
      rcases h' with h | h | h
      · rw [ho] at h
        rcases List.mem_cons.1 h with rfl | h
        · exact .inr (.inl (by simp))
        · exact .inl h
      · exact .inr (.inl (by simp [h]))
      · exact .inr (.inr h)
    | intEffect e t hi hp ht' =>
      rcases h' with h | h | h | h | h | h | h
      · exact .inl h
      · exact .inr (.inl h)
      · exact .inr (.inr (.inl h))
      · exact .inr (.inr (.inr (.inl h)))
      · rw [hi] at h; cases h
      · rw [hi] at h
        cases h
        exact .inr (.inr (.inr (.inr (.inr (.inr (List.mem_append_left _ (hh.plan _ _ hp)))))))
      · exact .inr (.inr (.inr (.inr (.inr (.inr h)))))
    | _ => exact h'
end

theorem FRun.due {cfg : Sched.Cfg} {E : Env} {base ops : List Op} {calls : List (Call × Bool)} {chgs : List (Path × Event)}
    {sgs : List (Key × EventInfo)} {s s' : FSt} {c : Nat} {q p : Path} {n : Comp} {ev : Event} (hg : H base [] p s) (hE : Trg.Steady E)
    (hp : GoodPath p) (hst : E.stat p = some true) (hn : E.stat (p ++ [n]) = some true) (h : FRun cfg (calm E) s ops calls chgs sgs s')
    (hk : ∀ y ∈ calls, Bsd.Spares p n y.1) (hr : ∀ fl, (p, fl) ∈ chgs → fen.nWrite ⊑ fl) (hops : ∀ op ∈ base ++ ops, NoFail c op) (hl : ∀ op ∈ ops, Leaves P c (p ++ [n]) op)
    (hreg : regOf P base c q = some (ev, true)) (hqp : q <+: p) (h0 : Due p n False [] s) :
    H base ops p s' ∧ Due p n (∃ fl, (p, fl) ∈ chgs) ops s' := by
  induction h with
  | refl => exact ⟨hg, h0.imp (fun h => ⟨h.unseen, h.main, fun ⟨_, h⟩ => by cases h⟩) id⟩
  | @step ops calls chgs sgs o k r g s1 s2 h1 hs ih =>
    have hops' : ∀ op ∈ base ++ ops, NoFail c op := fun a ha => hops a (by
      simp only [List.mem_append] at ha ⊢; rcases ha with h | h; exact .inl h; exact .inr (.inl h))
    have hl' : ∀ op ∈ ops, Leaves P c (p ++ [n]) op := fun a ha => hl a (by simp [ha])
    obtain ⟨hg1, hs1⟩ := ih (fun y hy => hk y (by simp [hy])) (fun fl hfl => hr fl (by simp [hfl])) hops' hl'
    refine ⟨hg1.step hs (n := n) (fun y hy => hk y (by simp [hy])), ?_⟩
    have hhand : ∀ ei, News (p ++ [n]) ei → Y.hand s1.sys.tree ei = true := by
      intro ei hei
      obtain ⟨ops₀, ops₁, hsplit, h2, _⟩ := hg1.g.amid
      refine NonRec.handed_reg factsP h2 (c := c) (ev := ev) (fun o ho => hops' o ?_) hqp ?_ hp.1 ?_ hei.1 ?_ hei.2.2
      · rw [hsplit]
        simp only [List.mem_append] at ho ⊢; rcases ho with h | h; exact .inl h; exact .inr (.inl h)
      · rw [Plain.leaves_reg base (x := p ++ [n]) (fun o ho => hl' o (by rw [hsplit]; simp [ho])) (hqp.trans (List.prefix_append _ _))]
        exact hreg
      · intro h0
        have := hg1.tree
        rw [h0] at this
        exact absurd (this 8 (by decide)) (by decide)
      · rw [hei.2.1]; decide
    have h2 := hs1.step hg1 hE hp hst hn hhand hs (fun y hy => hk y (by simp [hy])) (fun fl hfl => hr fl (by simp [hfl]))
    refine h2.imp (fun h => ⟨h.unseen, h.main, fun ⟨fl, hm⟩ => h.chg ?_⟩) id
    rcases List.mem_append.1 hm with hm | hm
    · exact .inl ⟨fl, hm⟩
    · exact .inr ⟨fl, hm⟩

/-- **C122 (partial), the whole program on Solaris and illumos.**  As `Bsd.C122_bsd_partial`; in addition, whatever happens to the directory `p` while the
new directory is not known is a change of its contents, at least once.
Missing: calls for `p`, the new directory and the directory in which `p` is; other changes of `p`.  It is false without (`C122_fen_refuted`, `C121_fen_refuted`). -/
theorem C122_fen_partial {cfg : Sched.Cfg} {E E' : Env} (hE : Trg.Steady E) (hE' : Trg.Steady E') {ops₀ : List Op} {calls₀ : List (Call × Bool)}
    {chgs₀ : List (Path × Event)} {sg₀ : List (Key × EventInfo)} {s : FSt} (h0 : FRun cfg (calm E) FSt.init ops₀ calls₀ chgs₀ sg₀ s)
    (hplan : s.plan = none) (hq : s.Quiet) {c : Nat} {q p : Path} {n : Comp} {ev : Event} (hp : GoodPath p) (hst : E.stat p = some true) (hsk : E.opn p ≠ .skip)
    (hold : E.stat (p ++ [n]) = none) (hnew : E'.stat (p ++ [n]) = some true)
    (hreg : regOf P ops₀ c q = some (ev, true)) (hqp : q <+: p) (hos : P.create ⊑ osOf s.log p) (hfail : ∀ op ∈ ops₀, NoFail c op)
    {ops : List Op} {calls : List (Call × Bool)} {chgs : List (Path × Event)} {sg : List (Key × EventInfo)} {s' : FSt}
    (h : FRun cfg (calm E') s ops calls chgs sg s') {fl : Event} (hfl : (p, fl) ∈ chgs) (hwr : ∀ fl, (p, fl) ∈ chgs → fen.nWrite ⊑ fl)
    (hl : ∀ op ∈ ops, Leaves P c (p ++ [n]) op) (hk : ∀ y ∈ calls, Bsd.Spares p n y.1) (hq' : s'.Quiet) :
    ∃ ei, News (p ++ [n]) ei ∧ With ops s' ei := by
  have hj : J E ops₀ [] s := (h0.j hE (J.init E)).rebase hplan
  have hn' : n ≠ [] := by
    rcases hE'.form (p ++ [n]) (by rw [hnew]; simp) with hh | hh
    · exfalso
      have := congrArg List.length hh
      simp at this
      exact hp.1 this
    · rintro rfl
      exact hh.2 (by simp)
  have hst' : E'.stat p = some true := hE'.isdir p n hp.1 hn' (by rw [Trg.join_entry hp, hnew]; simp)
  have hops : ∀ op ∈ ops₀ ++ ops, NoFail c op := by
    intro op hop
    rcases List.mem_append.1 hop with h | h
    · exact hfail op h
    · exact (hl op h).noFail
  have htree : s.log = s.sys.tree.world.log := by
    have := hj.amid
    rw [hplan] at this
    exact this.idle.2.1
  obtain ⟨_, hor⟩ := h.due ⟨⟨hj.amid, hj.queue, hj.since, hj.hand, hj.turn⟩, (fun _ _ he => by rw [hplan] at he; cases he), htree ▸ hos, hos⟩
    hE' hp hst' hnew hk hwr hops hl hreg hqp (.inl (hj.waits_os hE hq hst hsk hold hos))
  rcases hor with h1 | ⟨ei, h1, h2⟩
  · exfalso
    rcases h1.chg ⟨fl, hfl⟩ with ⟨_, _, h2, _⟩ | ⟨_, h2, _⟩
    · rw [hq'.1] at h2; cases h2
    · rw [hq'.2.1] at h2; cases h2
  · refine ⟨ei, h1, ?_⟩
    rcases h2 with h2 | h2 | ⟨_, _, h2⟩ | h2
    · rw [hq'.2.2.1] at h2; cases h2
    · rw [hq'.2.2.2.1] at h2; cases h2
    · rw [hq'.2.2.2.2] at h2; cases h2
    · exact h2

namespace NewDirEx
open Ex (cfg d e Re goodE goodD uR)
open Trg.Ex (kd ke kf)
open Trg.NewEx (E0 steady0)
open Bsd.NewDirEx (Em steadyM)

def Wr : Event := P.write
theorem uW : NonRec.UserEvents P Wr := by unfold NonRec.UserEvents; decide
def WC : Event := 0x500
def req1 : Sched.Req := .watch d true 1 Wr
def op1 : Op := .watch d true 1 Wr true
def t1 : St := (NonRec.watchOp P .ok (.dir .nil) NonRec.init d true 1 Wr).1
theorem step1 : NonRec.Step P true NonRec.init op1 t1 :=
  NonRec.Step.watch (O := .ok) (dt := .dir .nil) goodD uW (by simp [DirTree.Named, Entries.Named]) (fun _ _ => rfl)

/-- Channel 1 watches the empty directory `/d` recursively for Write. -/
def s1 : FSt :=
  { sys := { Sched.State.init Y with tree := t1, next := 1 }, w := (Watch Em ⟨{}, []⟩ d WC).1.t, kern := (Watch Em ⟨{}, []⟩ d WC).1.n.foldl Kern.call {}
    log := [(.watch d WC, true)] }

theorem run1 : FRun cfg (calm Em) FSt.init [op1] [(.watch d WC, true)] [] [] s1 := by
  have h := FRun.refl (cfg := cfg) (X := calm Em) (s := FSt.init)
  have h := h.step (.go _ _ (.call (Y := Y) req1 (show GoodPath d ∧ NonRec.UserEvents P Wr from ⟨goodD, uW⟩) trivial) trivial)
  have h := h.step (.go _ _ (.lock 0 req1 [] [] rfl (by rintro ⟨_, _, _, _, h⟩; cases h)
    (by rintro ⟨_, _, h | h⟩ <;> cases h <;> contradiction) (by rintro ⟨_, h | h⟩ <;> cases h)) trivial)
  have h := h.step (.plan req1 [op1] t1 [(.watch d WC, true)] (.inl ⟨0, .head _⟩) rfl ⟨NonRec.Steps.nil.snoc step1, op1, ⟨_, rfl⟩, .inl rfl⟩ rfl)
  have h := h.step (.call Em (.watch d WC) true [] _ rfl rfl (.watch d WC (by decide)))
  have h := h.step (.effect 0 req1 [] [] t1 rfl rfl rfl)
  have h := h.step (.go _ _ (.unlock 0 req1 [] [] rfl) trivial)
  have h := h.step (.go _ _ (.ret 0 req1 [] [] rfl) trivial)
  exact h

theorem quiet1 : s1.Quiet := ⟨rfl, rfl, rfl, rfl, rfl⟩

def ei : EventInfo := { event := P.create, path := e, isDir := some true }

/-- The directory `/d/e` appears.  The internal goroutine gets its creation. -/
theorem run2 : ∃ s', FRun cfg (calm E0) s1 [] [] [(d, 0x2)] [] s' ∧ s'.Quiet := by
  have h := FRun.refl (cfg := cfg) (X := calm E0) (s := s1)
  have h := h.step (.change d 0x2 (by unfold calm; decide))
  have h := h.step (.wait d 0 0x2 rfl rfl (by decide))
  have h := h.step (.process E0 d 0x2 rfl (by decide))
  have h := h.step (.send ei [] (by decide) (by decide) goodE)
  have h := h.step (.go _ _ (.spawn ei [] rfl) trivial)
  have h := h.step (.go _ _ (.rlock 1 ei [] [] rfl (by rintro ⟨_, _, h | h⟩ <;> cases h)
    (by rintro ⟨_, h | h⟩ <;> cases h)
    (by rintro _ (⟨_, _, h⟩ | ⟨_, h⟩) <;> cases h)) trivial)
  have hs : NonRec.sends P t1.root ei = [] := by decide
  have h := h.step (.go _ _ (.runlock 1 ei [] [] [] rfl (by intro k; exact Nat.le_of_eq (congrArg (List.count k) hs)) (by decide)) trivial)
  have h := h.step (.go _ _ (.handed 1 ei [] [] rfl (by decide)) trivial)
  exact ⟨_, h, by decide, rfl, rfl, rfl, rfl⟩

/-- The run meets the hypotheses. -/
example : ∃ s', FRun cfg (calm E0) s1 [] [] [(d, 0x2)] [] s' ∧ ∃ ei, News e ei ∧ With [] s' ei := by
  obtain ⟨s', h, hq⟩ := run2
  exact ⟨s', h, C122_fen_partial steadyM steady0 run1 rfl quiet1 (c := 1) (q := d) (p := d) (n := ke) (ev := Wr) goodD (by decide) (by decide) (by decide)
    (by decide) (by decide) List.prefix_rfl (by decide) (by simp [op1, NoFail]) h (fl := 0x2) (by simp) (by simp; decide) (by simp) (by simp) hq⟩

def req2 : Sched.Req := .watch e false 2 Re
def op2 : Op := .watch e false 2 Re true
def t2 : St := (NonRec.watchOp P .ok (.dir .nil) t1 e false 2 Re).1
theorem step2 : NonRec.Step P true t1 op2 t2 :=
  NonRec.Step.watch (O := .ok) goodE uR (by simp [DirTree.Named, Entries.Named]) (fun _ _ => rfl)

/-- `/d/e` appears; channel 2 watches it before the notification of `/d` is retrieved. -/
theorem run3 : ∃ s', FRun cfg (calm E0) s1 [op2] [(.watch e Re, true)] [(d, 0x2)] [] s' ∧ s'.plan = none ∧ s'.Quiet ∧ s'.sys.rq = [] ∧
    s'.sys.int = .idle ∧ s'.log = [(.watch e Re, true), (.watch d WC, true)] := by
  have h := FRun.refl (cfg := cfg) (X := calm E0) (s := s1)
  have h := h.step (.change d 0x2 (by unfold calm; decide))
  have h := h.step (.go _ _ (.call (Y := Y) req2 (show GoodPath e ∧ NonRec.UserEvents P Re from ⟨goodE, uR⟩) trivial) trivial)
  have h := h.step (.go _ _ (.lock 1 req2 [] [] rfl (by rintro ⟨_, _, _, _, h⟩; cases h)
    (by rintro ⟨_, _, h | h⟩ <;> cases h <;> contradiction) (by rintro ⟨_, h | h⟩ <;> cases h)) trivial)
  have h := h.step (.plan req2 [op2] t2 [(.watch e Re, true)] (.inl ⟨1, .head _⟩) rfl ⟨NonRec.Steps.nil.snoc step2, op2, ⟨_, rfl⟩, .inl rfl⟩ rfl)
  have h := h.step (.call E0 (.watch e Re) true [] _ rfl rfl (.watch e Re (by decide)))
  have h := h.step (.effect 1 req2 [] [] t2 rfl rfl rfl)
  have h := h.step (.go _ _ (.unlock 1 req2 [] [] rfl) trivial)
  have h := h.step (.go _ _ (.ret 1 req2 [] [] rfl) trivial)
  have h := h.step (.wait d 0 0x2 rfl rfl (by decide))
  have h := h.step (.process E0 d 0x2 rfl (by decide))
  exact ⟨_, h, rfl, ⟨by decide, rfl, by decide, rfl, rfl⟩, rfl, rfl, rfl⟩
end NewDirEx

/-- **C122 is false of the code on Solaris and illumos as well**, with the calls of `Bsd.C122_refuted`. -/
theorem C122_fen_refuted : ¬ C122_fen := by
  intro h
  obtain ⟨s', h1, _, h3, h4, h5, _⟩ := NewDirEx.run3
  obtain ⟨ei, _, h6 | h6 | h6 | h6⟩ := h _ _ _ _ _ _ _ _ _ _ _ _ _ 1 Ex.d Ex.d Trg.Ex.ke NewDirEx.Wr Bsd.NewDirEx.steadyM Trg.NewEx.steady0 (by decide)
    (by decide)
    (fun q hq => by
      have : q ≠ [Trg.Ex.kd, Trg.Ex.ke] := hq
      simp [Bsd.NewDirEx.Em, this]) NewDirEx.run1 rfl NewDirEx.quiet1
    (by simp [NewDirEx.op1, NoFail]) Ex.goodD (by decide) List.prefix_rfl (by decide) h1 ⟨0x2, by simp, by decide⟩ (by simp [NewDirEx.op2, Leaves]) h3
  · rw [h4] at h6; cases h6
  · rw [h5] at h6; cases h6
  · rw [h5] at h6; cases h6
  · simp [NewDirEx.op2] at h6
end Fen
end Verif
