/-
C114 on Windows: nothing is signalled that was not asked for, and nothing that the OS did not report.
-/
import Verif.PropsSound
import Verif.PropsLiveWin
import Verif.PropsWin2

namespace Verif
namespace Sched
open Spec (Reg)

/-- The channel asked for something, for the path or for a directory above it. -/
def AskedNear (r : Reg) (c : Nat) (ei : EventInfo) : Prop := ∃ q ev f, r c q = some (ev, f) ∧ q <+: ei.path

theorem Within.near {P : Platform} {root : Node} {r : Reg} (h : Within P root r) (hnd : ∀ q, [] ∉ q → (NonRec.watchAt root q).Nodup)
    {ei : EventInfo} (hpath : [] ∉ ei.path) {c : Nat} (hk : Key.user c ∈ NonRec.sends P root ei) : AskedNear r c ei := by
  obtain ⟨_, q, nd, v, hg, hv, h2⟩ := NonRec.mem_sends hk
  have hp : q <+: ei.path := by
    rcases h2 with ⟨h2, _⟩ | ⟨h2 | h2, _⟩
    · exact h2.trans (List.dropLast_prefix _)
    · rw [h2]; exact List.dropLast_prefix _
    · rw [h2]; exact List.prefix_refl _
  have hq : [] ∉ q := fun hc => hpath (hp.subset hc)
  have hw : NonRec.watchAt root q = nd.watch := by unfold NonRec.watchAt Node.find; rw [hg]; rfl
  have hn := hnd q hq
  have he : NonRec.entry root c q = some v := by
    unfold NonRec.entry
    rw [hw] at hn ⊢
    exact GoMap.get?_of_mem hn hv
  obtain ⟨ev, f, h3, _⟩ := h.ent c q v hq he
  exact ⟨q, ev, f, h3, hp⟩

theorem Tied.near_rec {P : Platform} {cfg : Cfg} (hP : P.Facts) {ops : List Rec.ROp} {s s' : State (recTree P)} {plan : Option (Req × St)} {i c : Nat}
    {ei : EventInfo} (h : Tied (Y := recTree P) (Rec.RHist P false) ops s plan) (hi : Inv (recLaws P hP) s)
    (ht : Tr (recTree P) cfg s (.send i (.user c) ei) s') : AskedNear (rwanted P ops) c ei := by
  obtain ⟨h1, h2, h3⟩ := h.sent hi ht
  exact (within_rhist hP h1).near (fun q _ => (Rec.ROK.watchAt (Rec.RHist.rok hP h1) (Rec.RW.nil P) q).nodup) h3.2 h2

/-- **C114 is false of the code for FileAction events**: channel 2 watches `/a/...` and channel 1 watches `/a`, both for FileNotifyChangeSize; a change of `/a/b/f` is
signalled to channel 1. -/
theorem C114_windows_refuted : ∃ (cfg : Cfg) (t₁ : List (Lab Req)) (s : State (recTree Platform.readdcw)) (ei : EventInfo),
    Exec (recTree Platform.readdcw) cfg (t₁ ++ [.send 2 (.user 1) ei]) s ∧ effects t₁ = [.watch [Rec.Ex.a] true 2 0x8, .watch [Rec.Ex.a] false 1 0x8] ∧
      ei.path = [Rec.Ex.a, Rec.Ex.b, Rec.Ex.f] ∧
      ∀ q ev f, asked Platform.readdcw (effects t₁) 1 q = some (ev, f) → f = false ∧ q ≠ ei.path ∧ q ≠ ei.path.dropLast := by
  have h : Exec (recTree Platform.readdcw) ⟨2, 2, true, false⟩ [] _ := .nil
  have h := h.snoc (.call (Y := recTree Platform.readdcw) (.watch [Rec.Ex.a] true 2 0x8) ⟨Rec.Ex.good_a, Rec.ExW.uSize⟩ trivial)
  have h := h.snoc (.lock 0 _ [] [] rfl (by rintro ⟨_, _, _, _, h⟩; cases h) (by rintro ⟨_, _, h | h⟩ <;> cases h <;> contradiction) (by rintro ⟨_, h | h⟩ <;> cases h))
  have h := h.snoc (.effect 0 _ [] [] Rec.ExW.s1 rfl ⟨_, .inl rfl, _, Rec.RStep.watch (O := .ok) Rec.Ex.good_a Rec.ExW.uSize⟩ (fun _ => rfl))
  have h := h.snoc (.unlock 0 _ [] [] rfl)
  have h := h.snoc (.ret 0 _ [] [] rfl)
  have h := h.snoc (.call (Y := recTree Platform.readdcw) (.watch [Rec.Ex.a] false 1 0x8) ⟨Rec.Ex.good_a, Rec.ExW.uSize⟩ trivial)
  have h := h.snoc (.lock 1 _ [] [] rfl (by rintro ⟨_, _, _, _, h⟩; cases h) (by rintro ⟨_, _, h | h⟩ <;> cases h <;> contradiction) (by rintro ⟨_, h | h⟩ <;> cases h))
  have h := h.snoc (.effect 1 _ [] [] Rec.ExW.s2 rfl ⟨_, .inl rfl, _, Rec.RStep.watch (O := .ok) Rec.Ex.good_a Rec.ExW.uSize⟩ (fun _ => rfl))
  have h := h.snoc (.unlock 1 _ [] [] rfl)
  have h := h.snoc (.ret 1 _ [] [] rfl)
  have h := h.snoc (.report [Rec.ExW.ei] (by intro ei he; rw [List.mem_singleton.1 he]; exact ⟨by decide, by decide⟩) rfl)
  have h := h.snoc (.push Rec.ExW.ei [] rfl (by decide))
  have h := h.snoc (.spawn Rec.ExW.ei [] rfl)
  have h := h.snoc (.rlock 2 Rec.ExW.ei [] [] rfl (by rintro ⟨_, _, h | h⟩ <;> cases h) (by rintro ⟨_, h | h⟩ <;> cases h) (by rintro _ (⟨_, _, h⟩ | ⟨_, h⟩) <;> cases h))
  have h := h.snoc (.pick 2 Rec.ExW.ei [] (.user 1) [] [] rfl (by decide))
  have h := h.snoc (.send 2 Rec.ExW.ei [] (.user 1) [] [] rfl)
  refine ⟨_, _, _, _, h, rfl, rfl, ?_⟩
  intro q ev f h1
  have h4 : q = [Rec.Ex.a] := by
    refine Decidable.byContradiction fun hq => ?_
    simp [effects, asked, askStep, Reg.watch, Reg.empty, hq] at h1
  subst h4
  have h5 : some (ev, f) = some ((0x8 : Event), false) := h1.symm.trans (by decide)
  cases h5
  exact ⟨rfl, by decide, by decide⟩

end Sched

namespace Win
open Rec (ROp)
open Linux (Free sigs)

/-- What the action of a record is called in the API (event_readdcw.go:42-57, watcher_readdcw.go:579-595). -/
def names : List (Dcw.Action × Event) :=
  [(.added, 0x100000), (.added, 0x1000), (.removed, 0x200000), (.removed, 0x2000), (.modified, 0x400000), (.modified, 0xC000),
   (.renamedOld, 0x800000), (.renamedOld, 0x20000), (.renamedNew, 0x800000), (.renamedNew, 0x50000)]

/-- The kernel reported the path with an action that the event is a name of. -/
def Reported (reps : List Note) (ei : EventInfo) : Prop :=
  ∃ dir l y, (dir, l) ∈ reps ∧ y ∈ l ∧ ei.path = dir ++ y.name ∧ (y.act, ei.event) ∈ names

theorem gensys_or (f ge se : Event) : ((Dcw.gensys f ge se).1 = ge ∨ (Dcw.gensys f ge se).1 = 0) ∧ ((Dcw.gensys f ge se).2 = se ∨ (Dcw.gensys f ge se).2 = 0) := by
  unfold Dcw.gensys
  simp only
  constructor
  · split <;> simp
  · split <;> simp

theorem send_names {f : Event} {a : Dcw.Action} {p : Path} {o : EventInfo} (h : o ∈ Dcw.send f a p) : (a, o.event) ∈ names := by
  have key : ∀ x, (x = (Dcw.decode f a).1 ∨ x = (Dcw.decode f a).2) → x ≠ 0 → (a, x) ∈ names := by
    intro x hx h0
    cases a with
    | other => simp [Dcw.decode] at hx; exact absurd hx h0
    | _ =>
      have := gensys_or f
      unfold Dcw.decode at hx
      rcases hx with rfl | rfl
      · rcases (this _ _).1 with h | h
        · rw [h]; decide
        · exact absurd h h0
      · rcases (this _ _).2 with h | h
        · rw [h]; decide
        · exact absurd h h0
  unfold Dcw.send at h
  simp only at h
  split at h
  · cases h
  · next h0 =>
    split at h
    · next h1 =>
      rw [List.mem_singleton.1 h]
      exact key _ (.inr rfl) fun h2 => h0 ⟨h1, h2⟩
    · next h1 =>
      split at h
      · next h2 =>
        rcases List.mem_cons.1 h with h | h
        · rw [h]; exact key _ (.inr rfl) h2
        · rw [List.mem_singleton.1 h]; exact key _ (.inl rfl) h1
      · rw [List.mem_singleton.1 h]; exact key _ (.inl rfl) h1

/-- What is on its way. -/
structure SInv (reps : List Note) (s : WSt) : Prop where
  live : Live s
  pk : ∀ x ∈ s.pk, x.2 ≠ [] → ((s.w.grips x.1).path, x.2) ∈ reps
  out : ∀ o ∈ s.out, Reported reps o
  carries : Sched.Carries (Reported reps) s.sys

theorem Reported.mono {reps l : List Note} {ei : EventInfo} (h : Reported reps ei) : Reported (reps ++ l) ei := by
  obtain ⟨k, b, r, h1, h2⟩ := h
  exact ⟨k, b, r, List.mem_append_left _ h1, h2⟩

theorem SInv.init : SInv [] WSt.init :=
  ⟨.init, (by intro x h; cases h), (by intro x h; cases h), ⟨(by intro _ h; cases h), (by intro _ h; cases h)⟩⟩

theorem SInv.step {cfg : Sched.Cfg} {rel : Bool} {reps : List Note} {s s' : WSt} {o wo r g} (h : SInv reps s) (hs : WStep cfg rel s o wo r g s') :
    SInv (reps ++ r) s' ∧ ∀ x ∈ g, Reported reps x.2 := by
  have hl := h.live.step hs
  have none' : ∀ x ∈ ([] : List (Key × EventInfo)), Reported reps x.2 := by intro x hx; cases hx
  have pks : ∀ {w' : Dcw.St}, Dcw.Stable s.w w' → ∀ x ∈ s.pk ++ more s.w w', x.2 ≠ [] → ((w'.grips x.1).path, x.2) ∈ reps := by
    intro w' hst x hx hne
    rcases List.mem_append.1 hx with hx | hx
    · obtain ⟨y, hy⟩ := List.exists_mem_of_ne_nil _ hne
      rw [(hst.2 _ (h.live.pk x hx y hy).1).1]
      exact h.pk x hx hne
    · exact absurd (mem_more hx) hne
  cases hs with
  | go l sys' htr hfree =>
    have hc := h.carries.tr htr (by rintro ei rfl; exact hfree)
    rw [List.append_nil]
    refine ⟨⟨hl, h.pk, h.out, hc.1⟩, fun x hx => ?_⟩
    cases l with
    | send i k ei => rw [List.mem_singleton.1 hx]; exact hc.2 i k ei rfl
    | _ => cases hx
  | complete rd l hr hok =>
    refine ⟨⟨hl, fun x hx hne => ?_, fun o ho => (h.out o ho).mono, h.carries.mono fun _ he => he.mono⟩, none'⟩
    rcases List.mem_append.1 hx with hx | hx
    · exact List.mem_append_left _ (h.pk x hx hne)
    · rw [List.mem_singleton.1 hx]
      exact List.mem_append_right _ (List.mem_singleton.2 rfl)
  | take g l pk' hw hp ho =>
    rw [List.append_nil]
    obtain ⟨e1, e2, e3, e4⟩ := Dcw.take_same s.w
    refine ⟨⟨hl, fun x hx hne => ?_, fun o ho' => ?_, h.carries⟩, none'⟩
    · show (((Dcw.take s.w).grips x.1).path, x.2) ∈ reps
      rw [e1]
      exact h.pk x (by rw [hp]; exact List.mem_cons_of_mem _ hx) hne
    · have ho' : o ∈ (if (s.w.grips g).linked then events (s.w.grips g) l else []) := ho'
      split at ho'
      · obtain ⟨y, hy, hoy⟩ := List.mem_flatMap.1 ho'
        exact ⟨_, l, y, h.pk (g, l) (by rw [hp]; simp) (List.ne_nil_of_mem hy), hy, send_path hoy, send_names hoy⟩
      · cases ho'
  | send o l ho hq =>
    rw [List.append_nil]
    refine ⟨⟨hl, h.pk, fun y hy => h.out y (by rw [ho]; exact List.mem_cons_of_mem _ hy), ⟨fun ei hei => ?_, h.carries.disp⟩⟩, none'⟩
    rcases List.mem_append.1 hei with hei | hei
    · exact h.carries.cq ei hei
    · rw [List.mem_singleton.1 hei]; exact h.out o (by rw [ho]; simp)
  | again g ok hw ho =>
    rw [List.append_nil]
    refine ⟨⟨hl, fun x hx hne => ?_, h.out, h.carries⟩, none'⟩
    exact pks (Dcw.again_ext s.w ok).1 x (List.mem_append_left _ hx) hne
  | state g a0 a1 w' hw he => rw [List.append_nil]; exact ⟨⟨hl, pks (Dcw.loopstate_ext he).1, h.out, h.carries⟩, none'⟩
  | plan r ops' t' new i hr hp ht hn => rw [List.append_nil]; exact ⟨⟨hl, h.pk, h.out, h.carries⟩, none'⟩
  | watch c p e f a0 a1 rest ho hc ht => rw [List.append_nil]; exact ⟨⟨hl, pks (Dcw.watch_ext ..).1, h.out, h.carries⟩, none'⟩
  | unwatch c p gone rest ho hc ht => rw [List.append_nil]; exact ⟨⟨hl, pks (Dcw.unwatch_ext ..).1, h.out, h.carries⟩, none'⟩
  | rewatch c p old new f w' ok rest ho hc he ht => rw [List.append_nil]; exact ⟨⟨hl, pks (Dcw.rewatch_ext he).1, h.out, h.carries⟩, none'⟩
  | leave p p' old new gone ok rest hp hc ht hu' => rw [List.append_nil]; exact ⟨⟨hl, pks (Dcw.unwatch_ext ..).1, h.out, h.carries⟩, none'⟩
  | arrive p e a0 a1 hc => rw [List.append_nil]; exact ⟨⟨hl, pks (Dcw.watch_ext ..).1, h.out, h.carries⟩, none'⟩
  | refuse p p' old new rest hp hc ht hu' => rw [List.append_nil]; exact ⟨⟨hl, h.pk, h.out, h.carries⟩, none'⟩
  | effect i r a b t' hcalls hp ht hc => rw [List.append_nil]; exact ⟨⟨hl, h.pk, h.out, ⟨h.carries.cq, h.carries.disp⟩⟩, none'⟩

theorem WRun.sinv {cfg : Sched.Cfg} {safe : Bool} {pre ops : List ROp} {wpre wops reps sg} {s : WSt} (h : WRun cfg safe pre wpre WSt.init ops wops reps sg s) :
    SInv reps s := by
  induction h with
  | refl => exact SInv.init
  | step _ hs _ ih => exact (ih.step hs).1

theorem WRun.tied {cfg : Sched.Cfg} {safe : Bool} {pre ops : List ROp} {wpre wops reps sg} {s : WSt} (h : WRun cfg safe pre wpre WSt.init ops wops reps sg s) :
    Sched.Tied (Y := Y) (Rec.RHist R false) ops s.sys s.plan := by
  induction h with
  | refl => exact .inl ⟨rfl, .nil⟩
  | step _ hs _ ih =>
    cases hs with
    | go l sys' htr hfree => simpa using ih.tr htr (Linux.free_effect hfree).1 (Linux.free_effect hfree).2
    | plan r ops' t' new i hr hp ht hn => exact ih.begin hp (.inl ⟨i, hr⟩) fun h => Sched.rhist_steps h ht.1
    | effect i r a b t' hcalls hp ht hc => simpa using ih.finish hp rfl
    | _ => rw [List.append_nil]; exact ih.same rfl rfl rfl

/-- **C114, Windows.**  In every execution of the whole program, under every schedule, with all races and failures: an event that is now signalled to a channel is
one that the kernel reported for this path, by its name; one of Create, Remove, Write and Rename was asked for with Watches of that channel that began before and that no Stop
of it took back since.  For `FileAction*` events only the following is true: the channel watched something for the path or a directory above it. -/
theorem C114_windows_partial {cfg : Sched.Cfg} {safe : Bool} {ops : List ROp} {wops reps sg} {s s' : WSt} (h : WRun cfg safe [] [] WSt.init ops wops reps sg s)
    {o wo r g} (hs : WStep cfg safe s o wo r g s') {c : Nat} {ei : EventInfo} (hm : (Key.user c, ei) ∈ g) :
    Reported reps ei ∧ Sched.AskedNear (Sched.rwanted R ops) c ei ∧
      (ei.event ∈ [R.create, R.remove, R.write, R.rename] → Sched.AskedFor (Sched.rwanted R ops) c ei) := by
  refine ⟨((WRun.sinv h).step hs).2 _ hm, ?_⟩
  cases hs with
  | go l sys' htr hfree =>
    cases l with
    | send i k ei' =>
      cases List.mem_singleton.1 hm
      have hi := (WRun.sinv h).live.inv
      refine ⟨(WRun.tied h).near_rec factsR hi htr, fun he => ?_⟩
      have key : ∀ x ∈ [R.create, R.remove, R.write, R.rename], NonRec.PlainEvent R x ∧ x &&& R.internal = 0 := by
        intro x hx
        simp only [List.mem_cons, List.not_mem_nil, or_false] at hx
        rcases hx with rfl | rfl | rfl | rfl <;> exact ⟨fun _ => by decide, by decide⟩
      exact (WRun.tied h).asked_rec factsR hi htr (key _ he).1 (key _ he).2
    | _ => cases hm
  | _ => cases hm

/-- Every signal is made in some step. -/
theorem WRun.moment {cfg : Sched.Cfg} {b : Bool} {pre ops : List ROp} {wpre wops} {s₀ s : WSt} {reps sg} (h : WRun cfg b pre wpre s₀ ops wops reps sg s)
    {x : Key × EventInfo} (hx : x ∈ sg) :
    ∃ ops₁ wops₁ reps₁ sg₁ s₁ o wo r g s₂, WRun cfg b pre wpre s₀ ops₁ wops₁ reps₁ sg₁ s₁ ∧ WStep cfg b s₁ o wo r g s₂ ∧ x ∈ g ∧ ops₁ <+: ops ∧ reps₁ <+: reps := by
  induction h with
  | refl => cases hx
  | step h0 hs _ ih =>
    rcases List.mem_append.1 hx with hx | hx
    · obtain ⟨a, b, c, d, e, f, g, k, l, m, h1, h2, h3, h4, h5⟩ := ih hx
      exact ⟨a, b, c, d, e, f, g, k, l, m, h1, h2, h3, h4.trans (List.prefix_append _ _), h5.trans (List.prefix_append _ _)⟩
    · exact ⟨_, _, _, _, _, _, _, _, _, _, h0, hs, hx, List.prefix_append _ _, List.prefix_append _ _⟩

/-- Channel 1 watches `/d` for Create; `/d/f` is created: a signal is made, it was asked for and reported. -/
example : ∃ ops₁ wops₁ reps₁ sg₁ s₁ o wo r g s₂, WRun Ex.cfg true [] [] WSt.init ops₁ wops₁ reps₁ sg₁ s₁ ∧ WStep Ex.cfg true s₁ o wo r g s₂ ∧
    (Key.user 1, Ex.ei) ∈ g ∧ Reported reps₁ Ex.ei ∧ Sched.AskedFor (Sched.rwanted R ops₁) 1 Ex.ei := by
  obtain ⟨s', h2, _⟩ := Ex.run2
  have h := Ex.run1.trans (o2 := [Ex.op2]) h2
  obtain ⟨ops₁, wops₁, reps₁, sg₁, s₁, o, wo, r, g, s₂, h3, h4, h5, _⟩ := h.moment (x := (.user 1, Ex.ei)) (by simp)
  have h6 := C114_windows_partial h3 h4 h5
  exact ⟨_, _, _, _, _, _, _, _, _, _, h3, h4, h5, h6.1, h6.2.2 (by decide)⟩

end Win
end Verif
