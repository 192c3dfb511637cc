/-
C112: the whole program on Linux; directories that appear below a recursive watch, and the Create events for them.
-/
import Verif.PropsLinux5

namespace Verif
namespace Linux
open Inotify (PSt PStep Raw Out Consumer PInv Held FromKernel outs at_)
open NonRec (Op Steps Hist NoFail regOf UserEvents GoodPath Conn Stat Dyn recAt Apart Good picked mkEvent)
open Spec (wantsBelow copies)

/-- Executions with directories, from any state. -/
inductive DMore (cfg : Sched.Cfg) (c : Nat) (p : Path) (s : DSt) : List Op → List Raw → List (Key × EventInfo) → DSt → Prop
  | refl : DMore cfg c p s [] [] [] s
  | step {ops raws sg o r g t t'} : DMore cfg c p s ops raws sg t → DStep cfg c p t o r g t' →
      DMore cfg c p s (ops ++ o) (raws ++ r) (sg ++ g) t'

/-- Nothing is on its way, and no operation runs. -/
structure Rests (d : DSt) : Prop where
  plan : d.l.plan = none
  quiet : d.l.Quiet
  rq : d.l.sys.rq = []
  int : ∀ ei, d.l.sys.int ≠ .waiting ei ∧ d.l.sys.int ≠ .locked ei

section
variable {cfg : Sched.Cfg} {c : Nat} {p : Path} {d d' : DSt} {ops : List Op} {raws : List Raw} {sg : List (Key × EventInfo)}

theorem DMore.after {s₀ : LSt} {D : Path → Prop} {e : Event} {ops₀ : List Op} {raws₀ : List Raw} {sg₀ : List (Key × EventInfo)}
    (h0 : DRun cfg s₀ D c p e ops₀ raws₀ sg₀ d) (h : DMore cfg c p d ops raws sg d') :
    DRun cfg s₀ D c p e (ops₀ ++ ops) (raws₀ ++ raws) (sg₀ ++ sg) d' := by
  induction h with
  | refl => simpa using h0
  | step _ hs ih => simpa [List.append_assoc] using ih.step hs

theorem DMore.run (h : DMore cfg c p d ops raws sg d') : LRun cfg true (fun _ => True) d.l ops raws sg d'.l := by
  induction h with
  | refl => exact .refl trivial
  | step h hs ih =>
    cases hs with
    | run h1 _ => exact ih.trans (LRun.one h1)
    | appear q b bit raws D k' hq hnew hmade hsub hD htree hgood hbit hraws htold hfs hk => exact ih.trans (appear_run hraws hfs hk)
    | other h1 _ _ _ => exact ih.trans (LRun.one h1)
    | skip dt h1 _ _ _ _ _ => exact ih.trans (LRun.one h1)
    | scan dt h1 _ _ _ _ _ _ _ _ => exact ih.trans (LRun.one h1)
    | read => simpa using ih
    | done h1 _ _ _ => exact ih.trans (LRun.one h1)

/-- The step in which a directory appears in one that is there, and what the kernel watches then. -/
theorem DMore.told {e : Event} {ops₀ base : List Op}
    (hinv : ∀ {ops raws sg d'}, DMore cfg c p d ops raws sg d' → DInv base (ops₀ ++ ops) c p e d')
    (h : DMore cfg c p d ops raws sg d') {q : Path} {b : Comp} (hq : d.dirs q) (hb : d'.dirs (q ++ [b])) (hnb : ¬ d.dirs (q ++ [b]))
    (hl : ∀ op ∈ ops, Leaves c q op) {wd : Nat}
    (hwd : ∀ ops raws sg s', LRun cfg true (fun _ => True) d.l ops raws sg s' → (∀ op ∈ ops, Leaves c q op) →
      ∃ kw, s'.pipe.k.watches.get? wd = some kw ∧ s'.pipe.k.inode q = some kw.inode ∧
        ∀ b, (I.create, b) ∈ Spec.Inotify.means → b ⊑ kw.mask) :
    ∃ r ∈ raws, r.wd = wd ∧ r.name = b ∧ ∃ bit, (bit = Inotify.inCreate ∨ bit = Inotify.inMovedTo) ∧ r.mask = bit ||| Inotify.inIsdir := by
  induction h with
  | refl => exact absurd hb hnb
  | @step ops' raws' sg' o r g t t' h hs ih =>
    by_cases hbt : t.dirs (q ++ [b])
    · obtain ⟨r', h1, h2⟩ := ih hbt (fun op hop => hl op (by simp [hop]))
      exact ⟨r', by simp [h1], h2⟩
    · have hqt : t.dirs q := by
        have : ∀ {ops raws sg t}, DMore cfg c p d ops raws sg t → t.dirs q := by
          intro ops raws sg t h
          induction h with
          | refl => exact hq
          | step _ hs ih =>
            cases hs with
            | appear q b bit raws D k' hq hnew hmade hsub hD htree hgood hbit hraws htold hfs hk => exact hsub _ ih
            | _ => exact ih
        exact this h
      cases hs with
      | appear q' b' bit raws D k' hq' hnew hmade hsub hD htree hgood hbit hraws htold hfs hk =>
        rcases hD _ hb with h1 | h1
        · exact absurd h1 hbt
        · have heq : q' ++ [b'] = q ++ [b] := by
            rcases List.prefix_concat_iff.1 h1 with h2 | h2
            · exact h2
            · exfalso
              have hpq' : p <+: q' := ((hinv h).dirs.good _ hq').1
              obtain ⟨z, hz⟩ := h2
              have : t.dirs (q' ++ [b'] ++ z) := by rw [hz]; exact hqt
              exact hnew ((hinv h).dirs.up (hpq'.trans (List.prefix_append _ _)) this)
          obtain ⟨h2, h3⟩ := List.append_inj' heq rfl
          cases h3
          subst h2
          obtain ⟨kw, h3, h4, h5⟩ := hwd _ _ _ _ h.run (fun op hop => hl op (by simp [hop]))
          obtain ⟨r', h6, h7, h8, h9⟩ := htold wd kw h3 h4 (h5 bit (by rcases hbit with rfl | rfl <;> decide))
          exact ⟨r', by simp [h6], h7, h8, bit, hbit, h9⟩
      | _ => exact absurd hb hbt

end

/-- **C112, in part.**  Channel `c` asks for everything below the directory `p`, Create included, with the premises of C95.  Consider two
moments at which all events have been handled and no operation runs, without a Watch or Stop for `c` in between.  Then every directory that
appeared in between in a directory which was there at the first moment has been signalled to `c` as Create. -/
theorem C112_linux_created_partial {cfg : Sched.Cfg} {f : Path → Option Nat} (hf : Inotify.NoLinks f) {n₀ : Nat} {ops₀ : List Op}
    {raws₀ : List Raw} {sg₀ : List (Key × EventInfo)} {s₀ : LSt}
    (h0 : LRun cfg true (fun _ => True) (LSt.init f n₀) ops₀ raws₀ sg₀ s₀) (hplan₀ : s₀.plan = none)
    {c : Nat} {p : Path} {e : Event} (hgp : GoodPath p) (he : UserEvents I e)
    (hops : ∀ q i v res, Op.watch q true i v res ∈ ops₀ → ¬ q <+: p ∧ ¬ p <+: q) {D : Path → Prop} (hD : DirsOk p D)
    {ops₁ : List Op} {raws₁ : List Raw} {sg₁ : List (Key × EventInfo)} {d₁ : DSt} (h1 : DRun cfg s₀ D c p e ops₁ raws₁ sg₁ d₁)
    (hfail : ∀ op ∈ ops₀ ++ ops₁, NoFail c op) (hr₁ : Rests d₁) (hc : I.create ⊑ e)
    {ops₂ : List Op} {raws₂ : List Raw} {sg₂ : List (Key × EventInfo)} {d₂ : DSt} (h2 : DMore cfg c p d₁ ops₂ raws₂ sg₂ d₂) (hr₂ : Rests d₂)
    {q : Path} {b : Comp} (hq : d₁.dirs q) (hnb : ¬ d₁.dirs (q ++ [b])) (hb : d₂.dirs (q ++ [b]))
    (hl : ∀ op ∈ ops₂, Leaves c (q ++ [b]) op) : 1 ≤ sg₂.countP (Gets c I.create (q ++ [b])) := by
  obtain ⟨wd, hw⟩ := C95_linux_no_directory_missed hf h0 hplan₀ hgp he hops hD h1 hfail hr₁.plan hr₁.quiet hr₁.rq hr₁.int hq
    (E := I.create) ⟨Inotify.inCreate, by decide⟩ hc
  have hj : J ops₀ [] s₀ := (h0.j (J.init hf n₀)).rebase hplan₀
  have hh : Hist I true ops₀ s₀.sys.tree := by
    obtain ⟨_, _, h2, hh, _⟩ := hj.tree
    obtain ⟨rfl, rfl⟩ := List.append_eq_nil_iff.1 h2.symm
    simpa using hh
  have htop : ∀ a, a <+: p ∨ p <+: a → recAt s₀.sys.tree.root a = none := by
    intro a ha
    by_contra hc
    obtain ⟨q, i, v, res, h1, h2⟩ := hh.rec_origin factsI hc
    have := hops q i v res h1
    rcases ha with ha | ha
    · exact this.1 (h2.trans ha)
    · rcases List.prefix_or_prefix_of_prefix h2 ha with h3 | h3
      · exact this.1 h3
      · exact this.2 h3
  have hinv : ∀ {ops raws sg d'}, DMore cfg c p d₁ ops raws sg d' → DInv ops₀ (ops₁ ++ ops) c p e d' := fun h =>
    (h.after h1).inv hj (excl_run Sched.Excl.init h0) hgp he htop hD hplan₀
  obtain ⟨r, h3, h4, h5, bit, hbit, h6⟩ := h2.told (wd := wd) hinv hq hb hnb (fun op hop => (hl op hop).up (List.prefix_append _ _))
    (fun ops raws sg s' => (hw ops raws sg s').1)
  have hgood : GoodPath (q ++ [b]) := ((hinv h2).dirs.good _ hb).2
  have hgq : GoodPath q := ((hinv .refl).dirs.good _ hq).2
  have hat : at_ q b = q ++ [b] := by
    rw [at_good hgq, if_neg (fun hb => hgood.2 (by simp [hb]))]
  obtain ⟨h7, h8, _⟩ := (hw ops₂ raws₂ sg₂ d₂.l).2 b
    (by rw [hat, List.length_append]; exact Nat.succ_le_succ (List.length_pos_iff.2 hgq.1)) (by rw [hat]; exact hl) hr₂.quiet
  have h9 := h8 h2.run
  rw [hat] at h7 h9
  have h10 : 1 ≤ raws₂.countP (Inotify.«says» wd I.create b) := by
    refine List.countP_pos_iff.2 ⟨r, h3, ?_⟩
    simp only [Inotify.«says», h4, h5, h6, decide_true, Bool.true_and, decide_eq_true_eq]
    rcases hbit with rfl | rfl <;> decide
  exact Nat.le_trans (Nat.mul_le_mul h7 h10) h9

/-! ### Not all of it: `mkdir /d/s; mkdir /d/s/t` -/

namespace LostEx
open Inotify (Raw inCreate inModify inIsdir FromKernel)
open Ex2 (d ds cfg goodD goodS)
open Ex4 (fs0 fs1 D0 D1 r0 none1 ei noLinks0 named noErr dirs0 same)

def dst : Path := [['d'], ['s'], ['t']]
def D2 (q : Path) : Prop := q = d ∨ q = ds ∨ q = dst
def fs2 : Path → Option Nat := fun p => if p = dst then some 3 else fs1 p
def C : Event := I.create
def list : DirTree := .dir (.cons ['t'] true (.dir .nil) .nil)
def t1 : St := (NonRec.watchOp I .ok none1 NonRec.init d true 1 C).1
def t2 : St := NonRec.internal I .ok list t1 ei
def req1 : Sched.Req := .watch d true 1 C
def op1 : Op := .watch d true 1 C true

theorem uC : UserEvents I C := by unfold UserEvents; decide
theorem goodT : GoodPath dst := by simp [dst, GoodPath]
theorem namedL : list.Named := by simp [list, DirTree.Named, Entries.Named]
theorem noErrL : list.NoErr := by simp [list, DirTree.NoErr, Entries.NoErr]
theorem noLinks2 : Inotify.NoLinks fs2 := by
  have h3 : ∀ q, fs1 q ≠ some 3 := by
    intro q hq
    unfold fs1 Ex2.fs at hq
    split at hq
    · cases hq
    · split at hq <;> cases hq
  intro p q n hp hq
  unfold fs2 at hp hq
  split at hp
  · next h =>
    split at hq
    · next h' => rw [h, h']
    · cases hp; exact absurd hq (h3 q)
  · split at hq
    · cases hq; exact absurd hp (h3 p)
    · exact Ex2.noLinks p q n hp hq

theorem step1 : NonRec.Step I true NonRec.init op1 t1 := NonRec.Step.watch (O := .ok) (dt := none1) goodD uC named (fun _ _ => rfl)
theorem step2 : NonRec.Step I true t1 (.internal ei) t2 := NonRec.Step.internal (O := .ok) (dt := list) goodS namedL (fun _ => rfl)

/-- The Watch has the lock. -/
def s0 : LSt := { LSt.init fs0 2 with sys := { Sched.State.init Y with calls := [(0, req1, .locked)], next := 1 } }

theorem run0 : LRun cfg true (fun _ => True) (LSt.init fs0 2) [] [] [] s0 := by
  have h := LRun.refl (cfg := cfg) (stable := true) (I := fun _ => True) (s := LSt.init fs0 2) trivial
  have h := h.step (.go _ _ (.call (Y := Y) req1 (show GoodPath d ∧ UserEvents I C from ⟨goodD, uC⟩) trivial) trivial) trivial
  have h := h.step (.go _ _ (.lock 0 req1 [] [] rfl (by rintro ⟨_, _, _, _, h⟩; cases h)
    (by rintro ⟨_, _, h | h⟩ <;> cases h <;> contradiction) (by rintro ⟨_, h | h⟩ <;> cases h)) trivial) trivial
  exact h

def k1 : Inotify.St := (Inotify.watch false { inode := fs0 } d C).1
def keep (n : Nat) : Bool := n == 1 || n == 2
def keep' (n : Nat) : Bool := n == 1 || n == 2 || n == 3
def k2 : Inotify.St := { k1 with inode := fs1, watches := k1.watches.filter (fun p => keep p.2.inode) }
def k3 : Inotify.St := { k2 with inode := fs2, watches := k2.watches.filter (fun p => keep' p.2.inode) }
def k4 : Inotify.St := (Inotify.watch false (Inotify.watch false k3 ds C).1 dst C).1

/-- The Watch has returned. -/
def dA : DSt where
  l := { sys := { Sched.State.init Y with tree := t1, next := 1 }, pipe := { Inotify.PSt.init fs0 2 with k := k1 }, log := [(.watch d C, true)] }
  dirs := D0

theorem runA : DRun cfg s0 D0 1 d C [op1] [] [] dA := by
  have h : DRun cfg s0 D0 1 d C _ _ _ _ := DRun.watch (tree' := NonRec.init) none1 (.plan req1 [op1] t1 [(.watch d C, true)] (.inl ⟨0, .head _⟩) rfl
    ⟨NonRec.Steps.nil.snoc step1, op1, ⟨_, rfl⟩, .inl rfl⟩ rfl) (.inl rfl) named noErr rfl
  have h := h.step (.run (.add (.watch d C) d C [] 1 _ rfl (.inl rfl) rfl (by decide) rfl) rfl)
  have h := h.step (.run (.table 1 d C rfl) rfl)
  have h := h.step (.read [] rfl (by decide) rfl rfl (by intro y hy; cases hy) (by
    intro b
    constructor
    · intro hb; simp [none1, DirTree.dirs, Entries.dirs] at hb
    · intro hb
      have := congrArg List.length (show d ++ [] ++ [b] = d from hb)
      simp at this))
  have h := h.step (.done (.effect 0 req1 [] [] t1 rfl rfl rfl rfl) (by simp) rfl (by
    rintro x dt lst hs a ha
    cases hs
    simpa [none1, DirTree.dirs, Entries.dirs] using ha))
  have h := h.step (.run (.go _ _ (.unlock 0 req1 [] [] rfl) trivial) rfl)
  have h := h.step (.run (.go _ _ (.ret 0 req1 [] [] rfl) trivial) rfl)
  exact h

/-- `/d/s` is made. -/
def dB : DSt where
  l := { dA.l with pipe := { Inotify.PSt.init fs1 2 with k := k2, queue := [r0] } }
  dirs := D1

theorem keepsB : Keeps dA.l.pipe { dA.l.pipe with k := k2 } := by
  refine ⟨Ex2.noLinks, fun wd w hw => ?_⟩
  have h1 : ∀ x ∈ k1.m, k2.inode x.2.path = k1.inode x.2.path := by decide
  exact h1 _ (GoMap.mem_of_get? hw)

theorem runB : DMore cfg 1 d dA [] [r0] [] dB := by
  have f0 : FromKernel r0 := ⟨8, true, by decide, by decide⟩
  have h := (DMore.refl (cfg := cfg) (c := 1) (p := d) (s := dA)).step
    (DStep.appear (s := dA) d ['s'] inCreate [r0] D1 k2 rfl (by intro hb; cases hb) (.inr rfl) (fun _ hy => .inl hy)
    (by rintro y (rfl | rfl); exact .inl rfl; exact .inr List.prefix_rfl)
    (by
      rintro y x (hy | hy) hp
      · exact .inl (dirs0.tree y x hy hp)
      · exact .inl (List.append_inj' (show y ++ [x] = d ++ [['s']] from hy) rfl).1)
    (by rintro y (rfl | rfl); exact goodD; exact goodS) (.inl rfl) (by simpa using f0)
    (by
      intro wd kw h1 _ _
      have h2 : ∀ x ∈ k1.watches, x.1 = 1 := by decide
      have h3 : wd = 1 := h2 _ (GoMap.mem_of_get? h1)
      exact ⟨r0, by simp, h3.symm, rfl, rfl⟩)
    (.mk _ fs1 keep (by
      intro n
      constructor
      · intro hn
        simp only [keep, Bool.or_eq_true, beq_iff_eq] at hn
        rcases hn with rfl | rfl
        · exact ⟨d, rfl⟩
        · exact ⟨ds, rfl⟩
      · rintro ⟨q, hq⟩
        unfold fs1 Ex2.fs at hq
        split at hq
        · cases hq; rfl
        · split at hq
          · cases hq; rfl
          · cases hq)) keepsB)
  exact h

/-- `/d/s/t` is made; the kernel has nobody to tell. -/
def dC : DSt where
  l := { dA.l with pipe := { Inotify.PSt.init fs2 2 with k := k3, queue := [r0] } }
  dirs := D2

theorem keepsC : Keeps dB.l.pipe { dB.l.pipe with k := k3 } := by
  refine ⟨noLinks2, fun wd w hw => ?_⟩
  have h1 : ∀ x ∈ k2.m, k3.inode x.2.path = k2.inode x.2.path := by decide
  exact h1 _ (GoMap.mem_of_get? hw)

theorem runC : DMore cfg 1 d dA [] [r0] [] dC := by
  have h := runB.step
    (DStep.appear (s := dB) ds ['t'] inCreate [] D2 k3 (.inr rfl) (by rintro (hb | hb) <;> cases hb) (.inr (.inr rfl))
    (by rintro y (h | h); exact .inl h; exact .inr (.inl h))
    (by rintro y (rfl | rfl | rfl); exact .inl (.inl rfl); exact .inl (.inr rfl); exact .inr List.prefix_rfl)
    (by
      rintro y x (hy | hy | hy) hp
      · exact .inl (dirs0.tree y x hy hp)
      · exact .inl (List.append_inj' (show y ++ [x] = d ++ [['s']] from hy) rfl).1
      · exact .inr (.inl (List.append_inj' (show y ++ [x] = ds ++ [['t']] from hy) rfl).1))
    (by rintro y (rfl | rfl | rfl); exact goodD; exact goodS; exact goodT) (.inl rfl) (by simp)
    (by
      intro wd kw h1 h2 _
      have h3 : ∀ x ∈ k2.watches, x.2.inode = 1 := by decide
      have h4 : kw.inode = 1 := h3 _ (GoMap.mem_of_get? h1)
      rw [h4] at h2
      exact absurd h2 (by decide))
    (.mk _ fs2 keep' (by
      intro n
      constructor
      · intro hn
        simp only [keep', Bool.or_eq_true, beq_iff_eq] at hn
        rcases hn with (rfl | rfl) | rfl
        · exact ⟨d, rfl⟩
        · exact ⟨ds, rfl⟩
        · exact ⟨dst, rfl⟩
      · rintro ⟨q, hq⟩
        unfold fs2 at hq
        split at hq
        · cases hq; rfl
        · unfold fs1 Ex2.fs at hq
          split at hq
          · cases hq; rfl
          · split at hq
            · cases hq; rfl
            · cases hq)) keepsC)
  exact h

/-- The event of `/d/s` has been signalled, and is about to be handled. -/
def dD : DSt where
  l := { sys := { Sched.State.init Y with tree := t1, int := .locked ei, next := 2 },
         pipe := { Inotify.PSt.init fs2 2 with k := k3, out := [⟨r0, ei⟩] }, log := [(.watch d C, true)] }
  dirs := D2

theorem runD : DMore cfg 1 d dA [] [r0] [(.user 1, ei)] dD := by
  have h := runC.step (.run (.pipe _ _ (.read 1 rfl) rfl rfl (fun _ => same noLinks2 rfl)) rfl)
  have h := h.step (.run (.pipe _ _ (.hand 0 [r0] rfl rfl) rfl rfl (fun _ => same noLinks2 rfl)) rfl)
  have h := h.step (.run (.pipe _ _ (.transform 0 [r0] rfl) rfl rfl (fun _ => same noLinks2 rfl)) rfl)
  have h := h.step (.run (.send 0 ⟨r0, ei⟩ [] (by decide) (by decide) goodS) rfl)
  have h := h.step (.run (.pipe _ _ (.next 0 rfl) rfl rfl (fun _ => same noLinks2 rfl)) rfl)
  have h := h.step (.run (.go _ _ (.spawn ei [] rfl) trivial) rfl)
  have h := h.step (.run (.go _ _ (.rlock 1 ei [] [] rfl (by rintro ⟨_, _, h | h⟩ <;> cases h)
    (by rintro ⟨_, h | h⟩ <;> cases h)
    (by rintro _ (⟨_, _, h⟩ | ⟨_, h⟩) <;> cases h)) trivial) rfl)
  have hs : NonRec.sends I t1.root ei = [.user 1] := by decide
  have h := h.step (.run (.go _ _ (.pick 1 ei [] (.user 1) [] [] rfl (by decide)) trivial) rfl)
  have h := h.step (.run (.go _ _ (.send 1 ei [] (.user 1) [] [] rfl) trivial) rfl)
  have h := h.step (.run (.go _ _ (.runlock 1 ei [.user 1] [] [] rfl (by intro k; exact Nat.le_of_eq (congrArg (List.count k) hs)) (by decide)) trivial) rfl)
  have h := h.step (.run (.go _ _ (.handed 1 ei [] [] rfl (by decide)) trivial) rfl)
  have h := h.step (.run (.go _ _ (.intRecv ei [] rfl rfl) trivial) rfl)
  have h := h.step (.run (.go _ _ (.intLock ei rfl (by rintro ⟨_, _, _, _, h⟩; cases h) (by rintro ⟨_, _, h | h⟩ <;> cases h)) trivial) rfl)
  exact h

/-- `/d/s` and `/d/s/t` have been found by the scan. -/
def dE : DSt where
  l := { sys := { Sched.State.init Y with tree := t2, next := 2 },
         pipe := { Inotify.PSt.init fs2 2 with k := k4, out := [⟨r0, ei⟩] },
         log := [(.watch dst C, true), (.watch ds C, true), (.watch d C, true)] }
  dirs := D2

theorem runE : DMore cfg 1 d dA [.internal ei] [r0] [(.user 1, ei)] dE := by
  have h := runD.step (.scan (tree' := t1) list (.plan (.internal ei) [.internal ei] t2 [(.watch dst C, true), (.watch ds C, true)]
    (.inr ⟨ei, rfl, rfl⟩) rfl
    ⟨NonRec.Steps.nil.snoc step2, .internal ei, rfl, .inl rfl⟩ rfl) rfl (.inl rfl) (by decide) (by decide)
    (.inr ⟨⟨[['s']], rfl⟩, .inr (.inl rfl)⟩) namedL noErrL rfl)
  have h := h.step (.run (.add (.watch ds C) ds C _ 2 _ rfl (.inl rfl) rfl (by decide) rfl) rfl)
  have h := h.step (.run (.table 2 ds C rfl) rfl)
  have h := h.step (.read [] rfl (by decide) (.inr (.inl rfl)) rfl (by decide) (by
    intro b
    constructor
    · intro hb
      have h1 : [] ++ [b] = ([] : Path) ∨ [] ++ [b] = [['t']] := by simpa [list, DirTree.dirs, Entries.dirs] using hb
      rcases h1 with h1 | h1
      · cases h1
      · cases h1; exact .inr (.inr rfl)
    · rintro (hb | hb | hb)
      · cases hb
      · cases hb
      · cases hb; decide))
  have h := h.step (.run (.add (.watch dst C) dst C [] 3 _ rfl (.inl rfl) rfl (by decide) rfl) rfl)
  have h := h.step (.run (.table 3 dst C rfl) rfl)
  have h := h.step (.read [['t']] rfl (by decide) (.inr (.inr rfl)) rfl (by intro y hy; cases hy) (by
    intro b
    constructor
    · intro hb
      have h1 : [['t']] ++ [b] = ([] : Path) ∨ [['t']] ++ [b] = [['t']] := by simpa [list, DirTree.dirs, Entries.dirs] using hb
      rcases h1 with h1 | h1 <;> cases h1
    · rintro (hb | hb | hb) <;> cases hb))
  have h := h.step (.done (.intEffect ei t2 rfl rfl rfl rfl) (by simp) rfl (by
    rintro x dt lst hs a ha
    cases hs
    have h1 : a = ([] : Path) ∨ a = [['t']] := by simpa [list, DirTree.dirs, Entries.dirs] using ha
    rcases h1 with rfl | rfl <;> simp))
  have h := h.step (.run (.go _ _ (.intUnlock ei rfl) trivial) rfl)
  exact h

theorem restsA : Rests dA := ⟨rfl, ⟨⟨rfl, rfl, by decide⟩, rfl, rfl⟩, rfl, fun _ => ⟨by simp [dA, Sched.State.init], by simp [dA, Sched.State.init]⟩⟩
theorem restsE : Rests dE := ⟨rfl, ⟨⟨rfl, rfl, by decide⟩, rfl, rfl⟩, rfl, fun _ => ⟨by simp [dE, Sched.State.init], by simp [dE, Sched.State.init]⟩⟩

/-- The theorem gives the signal for `/d/s`. -/
example : 1 ≤ [(Key.user 1, ei)].countP (Gets 1 I.create ds) :=
  C112_linux_created_partial noLinks0 run0 rfl goodD uC (by intro q i v res h; cases h) dirs0 runA (by simp [op1, NoFail]) restsA
    (Event.Sub.refl _) runE restsE (q := d) (b := ['s']) rfl (by intro h; cases h) (.inr (.inl rfl))
    (by intro op hop; rw [List.mem_singleton.1 hop]; exact fun h => absurd h (by decide))

end LostEx

/-- **C112, refuted for Linux.**  As `C112_linux_created_partial`, but for every directory that appeared, not only those whose parent was
there at the first moment: `mkdir /d/s; mkdir /d/s/t` gives no Create for `/d/s/t` if the second call comes before the program has
handled the event of the first. -/
theorem C112_linux_created_refuted : ¬ ∀ (cfg : Sched.Cfg) (f : Path → Option Nat), Inotify.NoLinks f → ∀ (n₀ : Nat) (ops₀ : List Op)
    (raws₀ : List Raw) (sg₀ : List (Key × EventInfo)) (s₀ : LSt),
    LRun cfg true (fun _ => True) (LSt.init f n₀) ops₀ raws₀ sg₀ s₀ → s₀.plan = none →
    ∀ (c : Nat) (p : Path) (e : Event), GoodPath p → UserEvents I e →
    (∀ q i v res, Op.watch q true i v res ∈ ops₀ → ¬ q <+: p ∧ ¬ p <+: q) → ∀ (D : Path → Prop), DirsOk p D →
    ∀ (ops₁ : List Op) (raws₁ : List Raw) (sg₁ : List (Key × EventInfo)) (d₁ : DSt), DRun cfg s₀ D c p e ops₁ raws₁ sg₁ d₁ →
    (∀ op ∈ ops₀ ++ ops₁, NoFail c op) → Rests d₁ → I.create ⊑ e →
    ∀ (ops₂ : List Op) (raws₂ : List Raw) (sg₂ : List (Key × EventInfo)) (d₂ : DSt), DMore cfg c p d₁ ops₂ raws₂ sg₂ d₂ → Rests d₂ →
    ∀ (x : Path), ¬ d₁.dirs x → d₂.dirs x → (∀ op ∈ ops₂, Leaves c x op) → 1 ≤ sg₂.countP (Gets c I.create x) := by
  intro h
  have h1 := h Ex2.cfg _ Ex4.noLinks0 _ _ _ _ _ LostEx.run0 rfl 1 _ _ Ex2.goodD LostEx.uC (by intro q i v res h; cases h) _ Ex4.dirs0 _ _ _ _
    LostEx.runA (by simp [LostEx.op1, NoFail]) LostEx.restsA (Event.Sub.refl _) _ _ _ _ LostEx.runE LostEx.restsE LostEx.dst
    (by intro h; cases h) (.inr (.inr rfl)) (by intro op hop; rw [List.mem_singleton.1 hop]; exact fun h => absurd h (by decide))
  revert h1
  decide

end Linux
end Verif
