/-
C95: the whole program on Linux; no directory below a recursive watch is missed.
-/
import Verif.PropsLinux4

namespace Verif
namespace Linux
open Inotify (PSt PStep Raw Out Consumer PInv Held FromKernel outs at_)
open NonRec (Op Steps Hist NoFail regOf UserEvents GoodPath Conn Stat Dyn recAt Apart Good picked mkEvent)
open Spec (wantsBelow copies)

section
variable {cfg : Sched.Cfg} {s₀ : LSt} {D : Path → Prop} {c : Nat} {p : Path} {e : Event} {ops : List Op} {raws : List Raw}
  {sg : List (Key × EventInfo)} {d : DSt}

/-- Executions with directories are executions. -/
theorem DRun.run (h : DRun cfg s₀ D c p e ops raws sg d) : LRun cfg true (fun _ => True) s₀ ops raws sg d.l := by
  induction h with
  | watch dt h _ _ _ _ => exact LRun.one h
  | step h hs ih =>
    cases hs with
    | run h1 _ => exact ih.trans (LRun.one h1)
    | appear q b bit raws D k' hq hnew hmade hsub hD htree hgood hbit hraws htold hfs hk => exact ih.trans (appear_run hraws hfs hk)
    | other h1 _ _ _ => exact ih.trans (LRun.one h1)
    | skip dt h1 _ _ _ _ _ => exact ih.trans (LRun.one h1)
    | scan dt h1 _ _ _ _ _ _ _ _ => exact ih.trans (LRun.one h1)
    | read => simpa using ih
    | done h1 _ _ _ => exact ih.trans (LRun.one h1)

theorem DRun.inv {base : List Op} (hj : J base [] s₀) (hx : Sched.Excl s₀.sys) (hgp : GoodPath p) (he : UserEvents I e)
    (htop : ∀ a, a <+: p ∨ p <+: a → recAt s₀.sys.tree.root a = none) (hD : DirsOk p D) (hp : s₀.plan = none)
    (h : DRun cfg s₀ D c p e ops raws sg d) : DInv base ops c p e d := by
  induction h with
  | watch dt h hl hd hne hp' => exact DInv.start hj hx hgp he htop hD h hp hl hd hne hp'
  | step _ hs ih => exact ih.step he hs

end

/-- **C95.**  Channel `c` asks for everything below the directory `p`, after any execution in which no recursive Watch concerned `p` or a
path above or below it.  From the moment when this Watch has the lock, directories appear below `p` at any time, with others below
them or not, and the kernel tells the watcher about each of them if and only if its parent has a kernel watch at that time; the scans
of this Watch and of the internal goroutine read directories in between; other channels watch and stop anything, `p` and paths below
it included, except that recursive Watches are elsewhere; Watches that are not recursive may fail, but not those of `c`; events pass
through kernel, watcher and tree at any pace.  Then at every moment when all events have been handled and no operation runs, for every
directory `q` that is there at or below `p` and every kind of event `E` that was asked for:
* the kernel watches `q` for `E`, and `E` will be signalled, as C93 says. -/
theorem C95_linux_no_directory_missed {cfg : Sched.Cfg} {f : Path → Option Nat} (hf : Inotify.NoLinks f) {n₀ : Nat} {ops₀ : List Op}
    {raws₀ : List Raw} {sg₀ : List (Key × EventInfo)} {s₀ : LSt}
    (h0 : LRun cfg true (fun _ => True) (LSt.init f n₀) ops₀ raws₀ sg₀ s₀) (hplan₀ : s₀.plan = none)
    {c : Nat} {p : Path} {e : Event} (hgp : GoodPath p) (he : UserEvents I e)
    (hops : ∀ q i v res, Op.watch q true i v res ∈ ops₀ → ¬ q <+: p ∧ ¬ p <+: q) {D : Path → Prop} (hD : DirsOk p D)
    {ops₁ : List Op} {raws₁ : List Raw} {sg₁ : List (Key × EventInfo)} {d : DSt} (h1 : DRun cfg s₀ D c p e ops₁ raws₁ sg₁ d)
    (hfail : ∀ op ∈ ops₀ ++ ops₁, NoFail c op)
    (hplan : d.l.plan = none) (hq : d.l.Quiet) (hrq : d.l.sys.rq = []) (hint : ∀ ei, d.l.sys.int ≠ .waiting ei ∧ d.l.sys.int ≠ .locked ei)
    {q : Path} (hdq : d.dirs q) {E : Event} (hE : ∃ b, (E, b) ∈ Spec.Inotify.means) (hEe : E ⊑ e) :
    ∃ wd, ∀ (ops : List Op) (raws : List Raw) (sg : List (Key × EventInfo)) (s' : LSt),
      (LRun cfg true (fun _ => True) d.l ops raws sg s' → (∀ op ∈ ops, Leaves c q op) →
        ∃ kw, s'.pipe.k.watches.get? wd = some kw ∧ s'.pipe.k.inode q = some kw.inode ∧ ∀ b, (E, b) ∈ Spec.Inotify.means → b ⊑ kw.mask) ∧
      ∀ n : Comp, 2 ≤ (at_ q n).length → (∀ op ∈ ops, Leaves c (at_ q n) op) → s'.Quiet →
        1 ≤ copies (regOf I (ops₀ ++ ops₁)) c E (at_ q n) ∧
        (LRun cfg true (fun _ => True) d.l ops raws sg s' →
          copies (regOf I (ops₀ ++ ops₁)) c E (at_ q n) * raws.countP (Inotify.«says» wd E n) ≤ sg.countP (Gets c E (at_ q n))) ∧
        (LRun cfg true (Sole q n) d.l ops raws sg s' →
          sg.countP (Gets c E (at_ q n)) = copies (regOf I (ops₀ ++ ops₁)) c E (at_ q n) * raws.countP (Inotify.«says» wd E n)) := by
  have hj : J ops₀ [] s₀ := (h0.j (J.init hf n₀)).rebase hplan₀
  have hh : Hist I true ops₀ s₀.sys.tree := by
    obtain ⟨_, _, h2, hh, _⟩ := hj.tree
    obtain ⟨rfl, rfl⟩ := List.append_eq_nil_iff.1 h2.symm
    simpa using hh
  have htop : ∀ a, a <+: p ∨ p <+: a → recAt s₀.sys.tree.root a = none := by
    intro a ha
    by_contra hc
    obtain ⟨q, i, v, res, h1, h2⟩ := hh.rec_origin factsI hc
    have := hops q i v res h1
    rcases ha with ha | ha
    · exact this.1 (h2.trans ha)
    · rcases List.prefix_or_prefix_of_prefix h2 ha with h3 | h3
      · exact this.1 h3
      · exact this.2 h3
  have hi := h1.inv hj (excl_run Sched.Excl.init h0) hgp he htop hD hplan₀
  obtain ⟨hst, _⟩ := hi.calm hplan
  -- nothing is on its way
  have hno : ∀ x, ¬ Pend d.l x := by
    obtain ⟨⟨h2, h3, h4⟩, h5, h6⟩ := hq
    rintro x ⟨q', b, rfl, h7 | h7⟩
    · obtain ⟨wd, r, _, h8, _⟩ := h7
      simp only [PSt.pending, h2, h3, List.mem_append, mem_recs, Option.getD_none, List.not_mem_nil, false_or] at h8
      obtain ⟨es, h9, _⟩ := h8
      cases h4 _ h9
    · rcases h7 with ⟨l, o, h8, _⟩ | h8 | ⟨i, x, h8⟩ | h8 | h8 | h8
      · cases h4 _ h8
      · rw [h5] at h8; cases h8
      · rw [h6] at h8; cases h8
      · rw [hrq] at h8; cases h8
      · exact (hint _).1 h8
      · exact (hint _).2 h8
  have hpq := (hi.dirs.good q hdq).1
  have hconn : Conn d.l.sys.tree.root p q :=
    hi.dyn.conn (by obtain ⟨v, hv, _⟩ := hst.base; rw [hv]; simp) hno hpq (.inr hdq)
  have hreg : wantsBelow (regOf I (ops₀ ++ ops₁)) c E p = true := by
    obtain ⟨v, hv, hsub⟩ := hst.user
    obtain ⟨_, _, h2, hh', _⟩ := (hi.j.rebase hplan).tree
    obtain ⟨rfl, rfl⟩ := List.append_eq_nil_iff.1 h2.symm
    have hr := NonRec.Hist.refines factsI (by simpa using hh') hfail
    have h3 := hr.ent p
    rw [hv] at h3
    rcases hx : regOf I (ops₀ ++ ops₁) c p with _ | ⟨ev, fl⟩
    · rw [hx] at h3; cases h3
    · rw [hx] at h3
      have h4 := Option.some.inj h3
      have h5 := hr.clean _ _ _ hx
      have h6 := (means_user hE).2
      unfold wantsBelow
      rw [hx]
      simp only [Bool.and_eq_true, decide_eq_true_eq]
      subst h4
      have h7 : ∀ ev : Event, ev &&& I.internal = 0 → ¬ I.recursive ⊑ ev := by
        intro ev h8 h9
        have h10 : I.recursive ⊑ ev &&& I.internal := by
          have : I.recursive ⊑ I.internal := by decide
          clear h8
          ebits
        rw [h8] at h10
        exact absurd (Event.sub_zero h10) (by decide)
      have h8 : fl = true := by
        cases fl with
        | true => rfl
        | false =>
          exfalso
          refine h7 ev h5 ?_
          have h9 := (Event.sub_or_right e I.recursive).trans hsub
          simpa using h9
      refine ⟨h8, ?_⟩
      subst h8
      have hsub : e ||| I.recursive ⊑ ev ||| I.recursive := hsub
      have h9 : E ⊑ ev ||| I.recursive := hEe.trans ((Event.sub_or_left _ _).trans hsub)
      have h10 : I.internal = I.recursive ||| I.omitted := by decide
      rw [h10] at h6
      generalize I.recursive = a at *
      generalize I.omitted = b at *
      clear h7 hsub h5 h10
      ebits
  refine C93_linux_recursive hf (h0.trans h1.run) hplan hq (hi.dirs.good q hdq).2 hpq hE hreg hfail fun a h2 h3 => ?_
  obtain ⟨v, hv, h4⟩ := hst.set (hconn.up h2 h3)
  exact ⟨v, hv, hEe.trans h4⟩

/-! ### The premises can be met -/

namespace Ex4
open Inotify (Raw inCreate inModify inIsdir FromKernel)
open Ex2 (d ds cfg W A goodD goodS uW req1 op1)

/-- Before and after `mkdir /d/s`. -/
def fs0 : Path → Option Nat := fun p => if p = d then some 1 else none
def fs1 : Path → Option Nat := Ex2.fs
def D0 (q : Path) : Prop := q = d
def D1 (q : Path) : Prop := q = d ∨ q = ds
def r0 : Raw := { wd := 1, mask := inCreate ||| inIsdir, name := ['s'] }
def none1 : DirTree := .dir .nil
def t1 : St := (NonRec.watchOp I .ok none1 NonRec.init d true 1 W).1
def ei : EventInfo := mkEvent I ds
def t2 : St := NonRec.internal I .ok none1 t1 ei

theorem noLinks0 : Inotify.NoLinks fs0 := by
  intro p q n hp hq
  unfold fs0 at hp hq
  split at hp
  · next h =>
    split at hq
    · next h' => rw [h, h']
    · cases hq
  · cases hp

theorem named : none1.Named := by simp [none1, DirTree.Named, Entries.Named]
theorem noErr : none1.NoErr := by simp [none1, DirTree.NoErr, Entries.NoErr]

theorem step1 : NonRec.Step I true NonRec.init op1 t1 := NonRec.Step.watch (O := .ok) (dt := none1) goodD uW named (fun _ _ => rfl)
theorem step2 : NonRec.Step I true t1 (.internal ei) t2 := NonRec.Step.internal (O := .ok) (dt := none1) goodS named (fun _ => rfl)

/-- The Watch has the lock. -/
def s0 : LSt := { LSt.init fs0 2 with sys := { Sched.State.init Y with calls := [(0, req1, .locked)], next := 1 } }

theorem run0 : LRun cfg true (fun _ => True) (LSt.init fs0 2) [] [] [] s0 := by
  have h := LRun.refl (cfg := cfg) (stable := true) (I := fun _ => True) (s := LSt.init fs0 2) trivial
  have h := h.step (.go _ _ (.call (Y := Y) req1 (show GoodPath d ∧ UserEvents I W from ⟨goodD, uW⟩) trivial) trivial) trivial
  have h := h.step (.go _ _ (.lock 0 req1 [] [] rfl (by rintro ⟨_, _, _, _, h⟩; cases h)
    (by rintro ⟨_, _, h | h⟩ <;> cases h <;> contradiction) (by rintro ⟨_, h | h⟩ <;> cases h)) trivial) trivial
  exact h

theorem dirs0 : DirsOk d D0 := by
  refine ⟨rfl, fun y b h hy => ?_, fun y h => ?_⟩
  · have h1 : y ++ [b] = [] ++ [['d']] := h
    have h3 : y = [] := (List.append_inj' h1 rfl).1
    rw [h3] at hy
    exact absurd (List.prefix_nil.1 hy) (by decide)
  · rw [show y = d from h]; exact ⟨List.prefix_rfl, goodD⟩

def k1 : Inotify.St := (Inotify.watch false { inode := fs0 } d A).1
def keep (n : Nat) : Bool := n == 1 || n == 2
def k2 : Inotify.St := { k1 with inode := fs1, watches := k1.watches.filter (fun p => keep p.2.inode) }
def k3 : Inotify.St := (Inotify.watch false k2 ds A).1

theorem same {a b : Inotify.PSt} (h1 : Inotify.NoLinks a.k.inode) (h2 : b.k.inode = a.k.inode) : Keeps a b :=
  ⟨by rw [h2]; exact h1, fun _ _ _ => by rw [h2]⟩

/-- The scan of `/d` has read it. -/
def dA : DSt where
  l := { sys := s0.sys, pipe := { Inotify.PSt.init fs0 2 with k := k1 }, plan := some (req1, t1), log := [(.watch d A, true)] }
  dirs := D0
  scan := some (d, none1, [[]])

theorem runA : DRun cfg s0 D0 1 d W [op1] [] [] dA := by
  have h : DRun cfg s0 D0 1 d W _ _ _ _ := DRun.watch (tree' := NonRec.init) none1 (.plan req1 [op1] t1 [(.watch d A, true)] (.inl ⟨0, .head _⟩) rfl
    ⟨NonRec.Steps.nil.snoc step1, op1, ⟨_, rfl⟩, .inl rfl⟩ rfl) (.inl rfl) named noErr rfl
  have h := h.step (.run (.add (.watch d A) d A [] 1 _ rfl (.inl rfl) rfl (by decide) rfl) rfl)
  have h := h.step (.run (.table 1 d A rfl) rfl)
  have h := h.step (.read [] rfl (by decide) rfl rfl (by intro y hy; cases hy) (by
    intro b
    constructor
    · intro hb; simp [none1, DirTree.dirs, Entries.dirs] at hb
    · intro hb
      have := congrArg List.length (show d ++ [] ++ [b] = d from hb)
      simp at this))
  exact h

/-- `/d/s` is made, before the Watch returns. -/
def dB : DSt where
  l := { sys := s0.sys, pipe := { Inotify.PSt.init fs1 2 with k := k2, queue := [r0] }, plan := some (req1, t1), log := [(.watch d A, true)] }
  dirs := D1
  scan := some (d, none1, [[]])

theorem keeps : Keeps dA.l.pipe { dA.l.pipe with k := k2 } := by
  refine ⟨Ex2.noLinks, fun wd w hw => ?_⟩
  have h1 : ∀ x ∈ k1.m, k2.inode x.2.path = k1.inode x.2.path := by decide
  exact h1 _ (GoMap.mem_of_get? hw)

theorem runB : DRun cfg s0 D0 1 d W [op1] [r0] [] dB := by
  have f0 : FromKernel r0 := ⟨8, true, by decide, by decide⟩
  have h := runA.step (DStep.appear (s := dA) d ['s'] inCreate [r0] D1 k2 rfl (by intro hb; cases hb) (.inr rfl) (fun _ hy => .inl hy)
    (by rintro y (rfl | rfl); exact .inl rfl; exact .inr List.prefix_rfl)
    (by
      rintro y x (hy | hy) hp
      · exact .inl (dirs0.tree y x hy hp)
      · exact .inl (List.append_inj' (show y ++ [x] = d ++ [['s']] from hy) rfl).1)
    (by rintro y (rfl | rfl); exact goodD; exact goodS) (.inl rfl) (by simpa using f0)
    (by
      intro wd kw h1 _ _
      have h2 : ∀ x ∈ k1.watches, x.1 = 1 := by decide
      have h3 : wd = 1 := h2 _ (GoMap.mem_of_get? h1)
      exact ⟨r0, by simp, h3.symm, rfl, rfl⟩)
    (.mk _ fs1 keep (by
      intro n
      constructor
      · intro hn
        simp only [keep, Bool.or_eq_true, beq_iff_eq] at hn
        rcases hn with rfl | rfl
        · exact ⟨d, rfl⟩
        · exact ⟨ds, rfl⟩
      · rintro ⟨q, hq⟩
        unfold fs1 Ex2.fs at hq
        split at hq
        · cases hq; rfl
        · split at hq
          · cases hq; rfl
          · cases hq)) keeps)
  exact h

/-- The event is about to be handled. -/
def dC : DSt where
  l := { sys := { Sched.State.init Y with tree := t1, int := .locked ei, next := 2 },
         pipe := { Inotify.PSt.init fs1 2 with k := k2, out := [⟨r0, ei⟩] }, log := [(.watch d A, true)] }
  dirs := D1

theorem runC : DRun cfg s0 D0 1 d W [op1] [r0] [] dC := by
  have h := runB.step (.done (.effect 0 req1 [] [] t1 rfl rfl rfl rfl) (by simp [dB]) rfl (by
    rintro x dt lst hs a ha
    cases hs
    simpa [none1, DirTree.dirs, Entries.dirs] using ha))
  have h := h.step (.run (.go _ _ (.unlock 0 req1 [] [] rfl) trivial) rfl)
  have h := h.step (.run (.go _ _ (.ret 0 req1 [] [] rfl) trivial) rfl)
  have h := h.step (.run (.pipe _ _ (.read 1 rfl) rfl rfl (fun _ => same Ex2.noLinks rfl)) rfl)
  have h := h.step (.run (.pipe _ _ (.hand 0 [r0] rfl rfl) rfl rfl (fun _ => same Ex2.noLinks rfl)) rfl)
  have h := h.step (.run (.pipe _ _ (.transform 0 [r0] rfl) rfl rfl (fun _ => same Ex2.noLinks rfl)) rfl)
  have h := h.step (.run (.send 0 ⟨r0, ei⟩ [] (by decide) (by decide) goodS) rfl)
  have h := h.step (.run (.pipe _ _ (.next 0 rfl) rfl rfl (fun _ => same Ex2.noLinks rfl)) rfl)
  have h := h.step (.run (.go _ _ (.spawn ei [] rfl) trivial) rfl)
  have h := h.step (.run (.go _ _ (.rlock 1 ei [] [] rfl (by rintro ⟨_, _, h | h⟩ <;> cases h)
    (by rintro ⟨_, h | h⟩ <;> cases h)
    (by rintro _ (⟨_, _, h⟩ | ⟨_, h⟩) <;> cases h)) trivial) rfl)
  have hs : NonRec.sends I t1.root ei = [] := by decide
  have h := h.step (.run (.go _ _ (.runlock 1 ei [] [] [] rfl (by intro k; exact Nat.le_of_eq (congrArg (List.count k) hs)) (by decide)) trivial) rfl)
  have h := h.step (.run (.go _ _ (.handed 1 ei [] [] rfl (by decide)) trivial) rfl)
  have h := h.step (.run (.go _ _ (.intRecv ei [] rfl rfl) trivial) rfl)
  have h := h.step (.run (.go _ _ (.intLock ei rfl (by rintro ⟨_, _, _, _, h⟩; cases h) (by rintro ⟨_, _, h | h⟩ <;> cases h)) trivial) rfl)
  exact h

/-- `/d/s` has been scanned. -/
def dD : DSt where
  l := { sys := { Sched.State.init Y with tree := t2, next := 2 },
         pipe := { Inotify.PSt.init fs1 2 with k := k3, out := [⟨r0, ei⟩] }, log := [(.watch ds A, true), (.watch d A, true)] }
  dirs := D1

theorem runD : DRun cfg s0 D0 1 d W [op1, .internal ei] [r0] [] dD := by
  have h := runC.step (.scan (tree' := t1) none1 (.plan (.internal ei) [.internal ei] t2 [(.watch ds A, true)] (.inr ⟨ei, rfl, rfl⟩) rfl
    ⟨NonRec.Steps.nil.snoc step2, .internal ei, rfl, .inl rfl⟩ rfl) rfl (.inl rfl) (by decide) (by decide) (.inr ⟨⟨[['s']], rfl⟩, .inr rfl⟩)
    named noErr rfl)
  have h := h.step (.run (.add (.watch ds A) ds A [] 2 _ rfl (.inl rfl) rfl (by decide) rfl) rfl)
  have h := h.step (.run (.table 2 ds A rfl) rfl)
  have h := h.step (.read [] rfl (by decide) (.inr rfl) rfl (by intro y hy; cases hy) (by
    intro b
    constructor
    · intro hb; simp [none1, DirTree.dirs, Entries.dirs] at hb
    · rintro (hb | hb) <;> cases hb))
  have h := h.step (.done (.intEffect ei t2 rfl rfl rfl rfl) (by simp) rfl (by
    rintro x dt lst hs a ha
    cases hs
    simpa [none1, DirTree.dirs, Entries.dirs] using ha))
  have h := h.step (.run (.go _ _ (.intUnlock ei rfl) trivial) rfl)
  exact h

/-- The theorem says that the kernel watches the new directory, and that what is written there is signalled. -/
example : ∃ wd kw, dD.l.pipe.k.watches.get? wd = some kw ∧ dD.l.pipe.k.inode ds = some kw.inode ∧ inModify ⊑ kw.mask := by
  obtain ⟨wd, h⟩ := C95_linux_no_directory_missed noLinks0 run0 rfl goodD uW (by intro q i v res h; cases h) dirs0 runD
    (by simp [op1, NoFail]) rfl ⟨⟨rfl, rfl, by decide⟩, rfl, rfl⟩ rfl (fun _ => ⟨by simp [dD, Sched.State.init], by simp [dD, Sched.State.init]⟩) (q := ds) (.inr rfl) (E := W)
    ⟨inModify, by decide⟩ (Event.Sub.refl _)
  obtain ⟨kw, h1, h2, h3⟩ := (h [] [] [] dD.l).1 (.refl trivial) (by intro _ h; cases h)
  exact ⟨wd, kw, h1, h2, h3 inModify (by decide)⟩

end Ex4

end Linux
end Verif
