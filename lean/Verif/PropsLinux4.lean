/-
For C95: the invariant of directories, scans and events on Linux.
-/
import Verif.PropsLinux3

namespace Verif
namespace Linux
open Inotify (PSt PStep Raw Out Consumer PInv Held FromKernel outs at_)
open NonRec (Op Steps Hist NoFail regOf UserEvents GoodPath Conn Stat Dyn Kept recAt Apart Good picked mkEvent Attached Hears)
open Spec (wantsBelow copies)

/-! ### What an operation does to the sets below `p` -/

section
variable {c : Nat} {p : Path} {e : Event}

theorem Kept.refl {s : St} (h : Stat I c p e s) : Kept I c p e s s := ⟨h, fun _ _ h => h, fun _ h => h, fun _ _ _ h => h⟩

theorem Kept.trans {s s' s'' : St} (h : Kept I c p e s s') (h' : Kept I c p e s' s'') : Kept I c p e s s'' := by
  refine ⟨h'.1, fun q h1 h2 => h.2.1 q h1 (h'.2.1 q h1 h2), fun q hq => h'.2.2.1 q (h.2.2.1 q hq), fun q b hq hr => ?_⟩
  exact h'.2.2.2 q b hq (h.2.2.2 q b ⟨hq.1, fun a h1 h2 => h'.2.1 a h1 (hq.2 a h1 h2)⟩ hr)

theorem kept_steps {s t : St} {ops : List Op} (he : UserEvents I e) (h : Stat I c p e s) (hs : Steps I true s ops t)
    (ha : ∀ op ∈ ops, Apart c p op) : Kept I c p e s t := by
  induction hs with
  | nil => exact Kept.refl h
  | snoc _ h2 ih =>
    have h3 := ih fun o ho => ha o (by simp [ho])
    exact Kept.trans h3 (h3.1.other factsI he h2 (ha _ (by simp)))

theorem kept_like {s s' : St} (he : UserEvents I e) (h : Stat I c p e s) (hl : Like s s') : Kept I c p e s s' := by
  rcases hl with rfl | hl
  · exact Kept.refl h
  · exact h.other factsI he hl trivial

end

theorem Like.rec {s s' : St} (h : Like s s') (q : Path) : recAt s'.root q = recAt s.root q := by
  rcases h with rfl | h
  · rfl
  · cases h with
    | shuffle hsh => exact hsh.get q _

theorem Like.log {s s' : St} (h : Like s s') : s'.world.log = s.world.log := by
  rcases h with rfl | h
  · rfl
  · cases h with
    | shuffle hsh => rfl

theorem Like.conn {s s' : St} (h : Like s s') {p q : Path} (hq : Conn s.root p q) : Conn s'.root p q :=
  ⟨hq.1, fun a h1 h2 => by rw [h.rec]; exact hq.2 a h1 h2⟩

/-- While the operation is under way, an OS watch has what it has before and after. -/
theorem amid_plan {ops base : List Op} {s t : St} {r : Sched.Req} (h : Hist I true base s) (h' : Plans true s r ops t) {q : Path} {E : Event}
    (h1 : E ⊑ osOf s.world.log q) (h2 : E ⊑ osOf t.world.log q) {l : Log} (hl : Amid s.world.log t.world.log l) : E ⊑ osOf l q := by
  have one : ∀ {s : St} {op : Op}, Good I s → E ⊑ osOf s.world.log q → NonRec.Step I true s op t → Amid s.world.log t.world.log l → E ⊑ osOf l q := by
    intro s op hg h1 hst hl
    refine Event.Sub.trans ?_ ((NonRec.Step.steady factsI hg hst).2 l hl q).1
    generalize osOf s.world.log q = a at *
    generalize osOf t.world.log q = b at *
    clear hst hg hl h h'
    ebits
  obtain ⟨hs, op, _, hops⟩ := h'
  rcases hops with rfl | rfl
  · obtain ⟨s₁, h3, h4⟩ := steps_snoc (ops := []) hs
    rw [steps_nil h3] at h4
    exact one (NonRec.Hist.good factsI h) h1 h4 hl
  · obtain ⟨s₁, h3, h4⟩ := steps_snoc (ops := [.shuffle]) hs
    obtain ⟨s₂, h5, h6⟩ := steps_snoc (ops := []) h3
    rw [steps_nil h5] at h6
    have hlog : s₁.world.log = s.world.log := Like.log (.inr h6)
    rw [← hlog] at h1 hl
    exact one (NonRec.Hist.good factsI (hist_append h h3)) h1 h4 hl

/-! ### The operation under way -/

/-- What the scan found, when it is done: the directories that have sets below, and for each directory the entries that are there or
on their way. -/
structure Covers (p x : Path) (dt : DirTree) (tree : St) (fs pend : Path → Prop) : Prop where
  hold : ∀ r, p <+: x ++ r → recAt tree.root (x ++ r) ≠ none → r ∈ dt.dirs
  inside : ∀ r ∈ dt.dirs, ∀ b, fs (x ++ r ++ [b]) → r ++ [b] ∈ dt.dirs ∨ pend (x ++ r ++ [b])
  real : ∀ r ∈ dt.dirs, fs (x ++ r)

/-- The operation `r`, which leads from `tree` to `t`; `sc` is its scan, if it concerns `p`. -/
structure Mid (c : Nat) (p : Path) (e : Event) (r : Sched.Req) (t tree : St) (sc : Option (Path × DirTree)) : Prop where
  os : ∀ q, Conn tree.root p q → ∀ l, Amid tree.world.log t.world.log l → I.create ⊑ osOf l q
  new : ∀ x dt, sc = some (x, dt) → p <+: x ∧ ∀ a ∈ dt.dirs, I.create ⊑ osOf t.world.log (x ++ a)
  self : ∀ x dt ei, sc = some (x, dt) → r = .internal ei → ei.path = x
  next : ∀ fs pend pend' : Path → Prop, Dyn p tree.root fs pend → (∀ x dt, sc = some (x, dt) → Covers p x dt tree fs pend') →
    (∀ q b, pend (q ++ [b]) → (∃ ei, r = .internal ei ∧ ei.path = q ++ [b]) ∨ pend' (q ++ [b])) →
    Stat I c p e t ∧ Dyn p t.root fs pend'

section
variable {c : Nat} {p : Path} {e : Event} {r : Sched.Req} {t tree : St} {base ops : List Op}

theorem Mid.other (he : UserEvents I e) (hh : Hist I true base tree) (hst : Stat I c p e tree) (hp : Plans true tree r ops t)
    (ha : ∀ op ∈ ops, Apart c p op) : Mid c p e r t tree none := by
  obtain ⟨hk1, hback, hconn, hkeep⟩ := kept_steps he hst hp.1 ha
  refine ⟨fun q hq l hl => ?_, (by intro _ _ h; cases h), (by intro _ _ _ h; cases h), fun fs pend pend' hd _ hpend => ⟨hk1, ?_⟩⟩
  · exact amid_plan hh hp (hst.good.hears factsI hq.rec) (hk1.good.hears factsI (hconn q hq).rec) hl
  · refine hd.other hback hkeep fun q b hpq h1 => ?_
    refine (hpend q b h1).resolve_left ?_
    rintro ⟨ei, rfl, hei⟩
    obtain ⟨_, op, hf, hops⟩ := hp
    have hop : op ∈ ops := by rcases hops with rfl | rfl <;> simp
    have := ha op hop
    rw [show op = .internal ei from hf] at this
    exact this.2 (hei ▸ hpq.trans (List.prefix_append _ _))

theorem Mid.skip (he : UserEvents I e) (hh : Hist I true base tree) (hst : Stat I c p e tree) {ei : EventInfo} {tree' : St} {dt : DirTree}
    (hp : Plans true tree (.internal ei) ops (NonRec.internal I .ok dt tree' ei)) (hl : Like tree tree') (hei : ei.event ≠ I.remove)
    (hpick : picked I tree'.root ei.path = I.internal) : Mid c p e (.internal ei) (NonRec.internal I .ok dt tree' ei) tree none := by
  rw [NonRec.internal_skip hei hpick] at hp ⊢
  have hk := kept_like he hst hl
  refine ⟨fun q hq l hla => ?_, (by intro _ _ h; cases h), (by intro _ _ _ h; cases h), fun fs pend pend' hd _ hpend => ⟨hk.1, ?_⟩⟩
  · exact amid_plan hh hp (hst.good.hears factsI hq.rec) (hk.1.good.hears factsI (hl.conn hq).rec) hla
  · have hd' := hd.other (pend' := pend) hk.2.1 hk.2.2.2 fun _ _ _ h => h
    refine ⟨fun q b hq hf => (hd'.edge q b hq hf).imp_right fun h1 => ?_, hd'.real, hd'.tree⟩
    refine (hpend q b h1).resolve_left ?_
    rintro ⟨ei', hr, hei'⟩
    cases hr
    exact (hk.1.pick factsI (.inr ⟨q, b, hq, hei'⟩)).1 hpick

theorem Mid.scan (he : UserEvents I e) (hh : Hist I true base tree) (hst : Stat I c p e tree) {ei : EventInfo} {tree' : St} {dt : DirTree}
    (hp : Plans true tree (.internal ei) ops (NonRec.internal I .ok dt tree' ei)) (hl : Like tree tree') (hei : ei.event ≠ I.remove)
    (hpick : picked I tree'.root ei.path ≠ I.internal) (hx : ei.path <+: p ∨ p <+: ei.path) (hd : dt.Named) (hne : dt.NoErr) :
    Mid c p e (.internal ei) (NonRec.internal I .ok dt tree' ei) tree (some (ei.path, dt)) := by
  have hk := kept_like he hst hl
  have hgp : GoodPath ei.path := by
    obtain ⟨hs, op, hf, hops⟩ := hp
    have : ∀ {s : St} {op : Op} {t : St}, op = .internal ei → NonRec.Step I true s op t → GoodPath ei.path := by
      rintro s op t rfl hst
      cases hst with
      | internal h1 _ _ => exact h1
    rcases hops with rfl | rfl
    · obtain ⟨s₁, _, h4⟩ := steps_snoc (ops := []) hs
      exact this hf h4
    · obtain ⟨s₁, _, h4⟩ := steps_snoc (ops := [.shuffle]) hs
      exact this hf h4
  have hgood : Good I (NonRec.internal I .ok dt tree' ei) := hk.1.good.internal factsI hgp hd
  obtain ⟨hin, hout⟩ := NonRec.internal_region (P := I) .ok hk.1.good.shape (ei := ei) hei hgp hd hne hpick
  have hmono : ∀ q, recAt tree'.root q ≠ none → recAt (NonRec.internal I .ok dt tree' ei).root q ≠ none := by
    intro q hq
    by_cases hT : ∃ r ∈ dt.dirs, q = ei.path ++ r
    · rw [hin q hT]; simp
    · rw [hout q hT]; exact hq
  refine ⟨fun q hq l hla => ?_, ?_, ?_, fun fs pend pend' hdy hcov hpend => ?_⟩
  · exact amid_plan hh hp (hst.good.hears factsI hq.rec) (hgood.hears factsI (hmono q (hl.conn hq).rec)) hla
  · rintro x dt' h
    cases h
    constructor
    · rcases hx with hx | hx
      · by_cases hxp : ei.path = p
        · rw [hxp]; exact List.prefix_rfl
        · exact absurd (hk.1.pick_above hx hxp) hpick
      · exact hx
    · exact fun a ha => hgood.hears factsI (by rw [hin _ ⟨a, ha, rfl⟩]; simp)
  · rintro x dt' ei' h h'
    cases h
    cases h'
    rfl
  · have hcov := hcov _ _ rfl
    have hd' := hdy.other (pend' := pend) hk.2.1 hk.2.2.2 fun _ _ _ h => h
    refine hk.1.scan factsI hd' hei rfl hgp hpick hd hne (fun r h1 h2 => hcov.hold r h1 (by rw [← hl.rec]; exact h2)) hcov.inside
      (fun r hr _ => hcov.real r hr) fun q b h1 => ?_
    rcases hpend q b h1 with ⟨ei', hr, hei'⟩ | h2
    · cases hr
      exact .inl hei'.symm
    · exact .inr h2

theorem Mid.start (he : UserEvents I e) (hh : Hist I true base tree) (hgp : GoodPath p)
    (htop : ∀ a, a <+: p ∨ p <+: a → recAt tree.root a = none) {tree' : St} {dt : DirTree} (hl : Like tree tree')
    (hd : dt.Named) (hne : dt.NoErr) :
    Mid c p e (.watch p true c e) (NonRec.watchOp I .ok dt tree' p true c e).1 tree (some (p, dt)) := by
  have htop' : ∀ a, a <+: p ∨ p <+: a → recAt tree'.root a = none := fun a ha => by rw [hl.rec]; exact htop a ha
  have hg' : Good I tree' := by
    rcases hl with rfl | hl
    · exact NonRec.Hist.good factsI hh
    · exact NonRec.Step.good factsI (NonRec.Hist.good factsI hh) hl
  have hstart := fun fs pend => Stat.start (P := I) (c := c) factsI hg' hgp he htop' hd hne (fs := fs) (pend := pend)
  refine ⟨fun q hq => absurd (htop p (.inl List.prefix_rfl)) (hq.2 p List.prefix_rfl hq.1), ?_, (by intro _ _ _ _ h; cases h), ?_⟩
  · rintro x dt' h
    cases h
    obtain ⟨h1, _, h2⟩ := hstart (fun _ => True) (fun _ => True) (fun _ _ _ _ => .inr trivial) (fun _ _ => trivial) (fun _ _ h => h)
    exact ⟨List.prefix_rfl, fun a ha => h1.good.hears factsI (h2 a ha)⟩
  · intro fs pend pend' hdy hcov _
    have hcov := hcov _ _ rfl
    obtain ⟨h1, h2, _⟩ := hstart fs pend' hcov.inside hcov.real hdy.tree
    exact ⟨h1, h2⟩

end

/-! ### OS watches that are there all the time -/

/-- `q` has an OS watch with Create, and if the watcher is executing a call, had one before. -/
def Safe (s : LSt) (q : Path) : Prop :=
  I.create ⊑ osOf s.log q ∧ (s.pipe.caller ≠ .idle → ∀ x l, s.log = x :: l → I.create ⊑ osOf l q)

theorem create_ne : I.create ≠ 0 := by decide

theorem create_means {bit : Event} (h : bit = Inotify.inCreate ∨ bit = Inotify.inMovedTo) : (I.create, bit) ∈ Spec.Inotify.means := by
  rcases h with rfl | rfl <;> decide

/-- The watcher's table and the kernel have it. -/
theorem Safe.held {base ops : List Op} {s : LSt} (hj : J base ops s) {q : Path} (h : Safe s q) : ∃ wd, Held wd q I.create s.pipe := by
  by_cases hc : s.pipe.caller = .idle
  · exact hj.held hc create_ne h.1
  · obtain ⟨x, l, h1, _, h3, _⟩ := hj.busy hc
    have h4 := h.2 hc x l h1
    have h0 : osOf l q ≠ 0 := by
      intro h0
      rw [h0] at h4
      exact create_ne (Event.sub_zero h4)
    obtain ⟨wd, hw⟩ := h3.1 q h0
    exact ⟨wd, _, hw, rfl, h4⟩

/-- The history of the calls from `L` on. -/
def Since (L : Log) (s : LSt) : Prop := L <:+ s.log ∧ (s.pipe.caller ≠ .idle → L ≠ s.log)

theorem Since.cons {L : Log} {s s' : LSt} {x : Call × Bool} (h : Since L s) (hl : s'.log = x :: s.log) : Since L s' := by
  refine ⟨by rw [hl]; exact h.1.trans (List.suffix_cons _ _), fun _ he => ?_⟩
  have := h.1.length_le
  rw [he, hl, List.length_cons] at this
  omega

theorem Since.step {cfg : Sched.Cfg} {st : Bool} {s s' : LSt} {o r g} (hs : LStep cfg st s o r g s') {L : Log} (h : Since L s) : Since L s' := by
  cases hs with
  | pipe raws p' hst hc ho hk => exact ⟨h.1, fun hb => h.2 (by rw [← hc]; exact hb)⟩
  | add => exact h.cons rfl
  | rm => exact h.cons rfl
  | refuse => exact h.cons rfl
  | table => exact ⟨h.1, fun hb => absurd rfl hb⟩
  | forget => exact ⟨h.1, fun hb => absurd rfl hb⟩
  | _ => exact h

theorem Since.safe {base ops : List Op} {s : LSt} (hj : J base ops s) {r : Sched.Req} {t : St} (hp : s.plan = some (r, t)) {L : Log}
    (h : Since L s) {q : Path} (hq : ∀ l, Amid L t.world.log l → I.create ⊑ osOf l q) : Safe s q := by
  obtain ⟨_, _, _, _, h3 | ⟨r', t', h3, _, _, h4⟩⟩ := hj.tree
  · rw [hp] at h3; cases h3.1
  · rw [hp] at h3
    cases h3
    have hlog : s.log <:+ t.world.log := ⟨_, h4⟩
    refine ⟨hq _ ⟨h.1, hlog⟩, fun hb x l hl => ?_⟩
    have h5 : L <:+ l := by
      rcases List.suffix_cons_iff.1 (hl ▸ h.1) with h5 | h5
      · exact absurd (h5.trans hl.symm) (h.2 hb)
      · exact h5
    exact hq _ ⟨h5, (List.suffix_cons x l).trans (hl ▸ hlog)⟩

/-- Calls for other paths. -/
theorem osOf_apart {q : Path} {l : Log} : ∀ {z : Log}, (∀ y ∈ z, target y.1 ≠ q) → osOf (z ++ l) q = osOf l q
  | [], _ => rfl
  | (c, ok) :: z, h => by
    have h1 := h (c, ok) (by simp)
    have h2 := osOf_apart (z := z) (l := l) fun y hy => h y (by simp [hy])
    cases c <;> cases ok <;> simp only [List.cons_append, osOf] <;> first | exact h2 | (dsimp only [target] at h1; rw [if_neg h1]; exact h2)

theorem amid_apart {a todo : Log} {q : Path} (h : ∀ y ∈ todo, target y.1 ≠ q) {l : Log} (hl : Amid a (todo.reverse ++ a) l) :
    osOf l q = osOf (todo.reverse ++ a) q := by
  obtain ⟨z, rfl⟩ := hl.1
  obtain ⟨y, hy⟩ := hl.2
  rw [← List.append_assoc] at hy
  have hy := List.append_cancel_right hy
  rw [osOf_apart (z := z), osOf_apart]
  · intro x hx; exact h x (List.mem_reverse.1 hx)
  · intro x hx; exact h x (List.mem_reverse.1 (by rw [← hy]; simp [hx]))

/-! ### The invariant -/

/-- The directories for `Dyn`: with those above `p`, so that they are closed under parents. -/
def fsOf (p : Path) (D : Path → Prop) (q : Path) : Prop := q <+: p ∨ D q

theorem fsOf_below {p q : Path} {D : Path → Prop} {b : Comp} (hpq : p <+: q) : fsOf p D (q ++ [b]) ↔ D (q ++ [b]) := by
  constructor
  · rintro (h | h)
    · have := (h.trans hpq).length_le
      rw [List.length_append, List.length_singleton] at this
      omega
    · exact h
  · exact .inr

theorem fsOf_at {p q : Path} {D : Path → Prop} (h : DirsOk p D) (hpq : p <+: q) : fsOf p D q ↔ D q := by
  constructor
  · rintro (h1 | h1)
    · rw [h1.eq_of_length (Nat.le_antisymm h1.length_le hpq.length_le)]; exact h.top
    · exact h1
  · exact .inr

theorem fsOf_tree {p : Path} {D : Path → Prop} (h : DirsOk p D) (q : Path) (b : Comp) (hq : fsOf p D (q ++ [b])) : fsOf p D q := by
  rcases hq with hq | hq
  · exact .inl ((List.prefix_append _ _).trans hq)
  · rcases List.prefix_concat_iff.1 (h.good _ hq).1 with h1 | h1
    · rw [h1]; exact .inl (List.prefix_append _ _)
    · exact .inr (h.tree _ _ hq h1)

theorem DirsOk.up {p : Path} {D : Path → Prop} (h : DirsOk p D) {q : Path} (hpq : p <+: q) : ∀ {z : Path}, D (q ++ z) → D q := by
  intro z
  induction z using List.reverseRecOn with
  | nil => intro hz; simpa using hz
  | append_singleton z b ih =>
    intro hz
    rw [← List.append_assoc] at hz
    exact ih (h.tree _ _ hz (hpq.trans (List.prefix_append _ _)))

/-- What is known about a directory that the scan of `x` has read. -/
structure Listed (s : LSt) (D : Path → Prop) (x : Path) (dt : DirTree) (t : St) (a : Path) : Prop where
  mem : a ∈ dt.dirs
  dir : D (x ++ a)
  safe : ∃ L, Since L s ∧ ∀ l, Amid L t.world.log l → I.create ⊑ osOf l (x ++ a)
  there : ∀ b, D (x ++ a ++ [b]) → a ++ [b] ∈ dt.dirs ∨ Pd s (x ++ a) b
  old : ∀ b z, recAt s.sys.tree.root (x ++ a ++ [b] ++ z) ≠ none → a ++ [b] ∈ dt.dirs

structure DInv (base ops : List Op) (c : Nat) (p : Path) (e : Event) (d : DSt) : Prop where
  j : J base ops d.l
  excl : Sched.Excl d.l.sys
  dirs : DirsOk p d.dirs
  dyn : Dyn p d.l.sys.tree.root (fsOf p d.dirs) (Pend d.l)
  calm : d.l.plan = none → Stat I c p e d.l.sys.tree ∧ d.scan = none
  busy : ∀ r t, d.l.plan = some (r, t) → d.l.Holds r ∧ Mid c p e r t d.l.sys.tree (d.scan.map fun x => (x.1, x.2.1))
  read : ∀ x dt lst r t, d.scan = some (x, dt, lst) → d.l.plan = some (r, t) → ∀ a ∈ lst, Listed d.l d.dirs x dt t a

section
variable {base ops : List Op} {c : Nat} {p : Path} {e : Event} {d : DSt}

theorem DInv.dir (h : DInv base ops c p e d) {q : Path} (hq : Conn d.l.sys.tree.root p q) : d.dirs q :=
  (fsOf_at h.dirs hq.1).1 (h.dyn.real q hq.1 hq.rec)

/-- Connected directories have OS watches. -/
theorem DInv.conn (h : DInv base ops c p e d) {q : Path} (hq : Conn d.l.sys.tree.root p q) : Safe d.l q := by
  obtain ⟨ops₀, ops₁, h1, h2, h3 | ⟨r, t, h3, h4, h5, h6⟩⟩ := h.j.tree
  · have := (h.calm h3.1).1.good.hears factsI hq.rec
    exact ⟨by rw [h3.2.2.1]; exact this, fun hb => absurd h3.2.2.2.1 hb⟩
  · have hm := (h.busy r t h3).2.os q hq
    refine ⟨hm _ ⟨h5, _, h6⟩, fun hb x l hl => ?_⟩
    obtain ⟨x', l', g1, g2, _⟩ := h.j.busy hb
    rw [hl] at g1
    cases g1
    exact hm _ ⟨g2, (List.suffix_cons x l).trans (hl ▸ ⟨_, h6⟩)⟩

/-- The event of a directory that appears in a connected one will go to the internal goroutine. -/
theorem DInv.hand (h : DInv base ops c p e d) {q : Path} (hq : Conn d.l.sys.tree.root p q) (b : Comp) :
    d.l.sys.nR = 0 ∨ NonRec.toInternal I d.l.sys.tree.root (mkEvent I (q ++ [b])) = true := by
  rcases hp : d.l.plan with _ | ⟨r, t⟩
  · exact .inr (NonRec.handed_of factsI (h.calm hp).1.good.shape hq.rec)
  · exact .inl (noReader h.excl (h.busy r t hp).1)

theorem DInv.names (h : DInv base ops c p e d) {q : Path} {b : Comp} (hq : d.dirs (q ++ [b])) : b ≠ [] := by
  rintro rfl
  exact (h.dirs.good _ hq).2.2 (by simp)

/-- Steps within an operation and between operations. -/
theorem DInv.run {cfg : Sched.Cfg} (h : DInv base ops c p e d) {raws : List Raw} {sg : List (Key × EventInfo)} {l' : LSt}
    (hs : LStep cfg true d.l [] raws sg l') (hp : l'.plan = d.l.plan) : DInv base ops c p e { d with l := l' } := by
  have htree : l'.sys.tree = d.l.sys.tree := by
    cases hs with
    | go l sys' htr hl => exact free_tree htr hl
    | effect i r a b t _ hp' _ _ => rw [hp'] at hp; cases hp
    | intEffect ei t _ hp' _ _ => rw [hp'] at hp; cases hp
    | _ => rfl
  refine ⟨by simpa using h.j.step hs, excl_step h.excl hs, h.dirs, ?_, ?_, ?_, ?_⟩
  · simp only [htree]
    refine ⟨fun q b hq hf => (h.dyn.edge q b hq hf).imp_right fun h1 => ?_, h.dyn.real, h.dyn.tree⟩
    rw [pend_iff] at h1 ⊢
    exact h1.step h.j hs (.inl hp) (h.dirs.good _ (h.dir hq)).2 (h.names ((fsOf_below hq.1).1 hf)) (h.conn hq).1 (h.hand hq b)
  · intro hn
    simp only [htree]
    exact h.calm (by rw [← hp]; exact hn)
  · intro r t ht
    simp only at ht
    rw [hp] at ht
    obtain ⟨h1, h2⟩ := h.busy r t ht
    exact ⟨holds_step hs hp ht h1, by simp only [htree]; exact h2⟩
  · intro x dt lst r t hsc ht a ha
    simp only at ht hsc
    rw [hp] at ht
    have h1 := h.read x dt lst r t hsc ht a ha
    obtain ⟨L, h2, h3⟩ := h1.safe
    have hsafe := h2.safe h.j ht h3
    refine ⟨h1.mem, h1.dir, ⟨L, h2.step hs, h3⟩, fun b hb => (h1.there b hb).imp_right fun h4 => ?_, by simp only [htree]; exact h1.old⟩
    exact h4.step h.j hs (.inl hp) (h.dirs.good _ h1.dir).2 (h.names hb) hsafe.1 (.inl (noReader h.excl (h.busy r t ht).1))

end

section
variable {base ops : List Op} {c : Nat} {p : Path} {e : Event} {d : DSt}

/-- A directory appears. -/
theorem DInv.appear {cfg : Sched.Cfg} (h : DInv base ops c p e d) {q : Path} {b : Comp} {bit : Event} {raws : List Raw} {D : Path → Prop}
    {k' : Inotify.St} (hq : d.dirs q) (hnew : ¬ d.dirs (q ++ [b])) (hsub : ∀ y, d.dirs y → D y)
    (hD : ∀ y, D y → d.dirs y ∨ q ++ [b] <+: y) (htree : ∀ y x, D (y ++ [x]) → p <+: y → D y) (hgood : ∀ y, D y → GoodPath y)
    (hbit : bit = Inotify.inCreate ∨ bit = Inotify.inMovedTo)
    (htold : ∀ wd kw, d.l.pipe.k.watches.get? wd = some kw → d.l.pipe.k.inode q = some kw.inode → bit ⊑ kw.mask →
      ∃ r ∈ raws, r.wd = wd ∧ r.name = b ∧ r.mask = bit ||| Inotify.inIsdir)
    (hfs : Inotify.FsStep d.l.pipe.k k')
    (hrun : LRun cfg true (fun _ => True) d.l [] raws [] { d.l with pipe := { d.l.pipe with k := k', queue := d.l.pipe.queue ++ raws } }) :
    DInv base ops c p e
      { d with l := { d.l with pipe := { d.l.pipe with k := k', queue := d.l.pipe.queue ++ raws } }, dirs := D } := by
  have hm : k'.m = d.l.pipe.k.m := by cases hfs; rfl
  have keep : ∀ {q' b'}, Pd d.l q' b' → Pd { d.l with pipe := { d.l.pipe with k := k', queue := d.l.pipe.queue ++ raws } } q' b' := by
    rintro q' b' (⟨wd, r, h1, h2, h3⟩ | h1)
    · refine .inl ⟨wd, r, ?_, ?_, h3⟩
      · unfold Held at h1 ⊢; simp only [hm]; exact h1
      · simp only [PSt.pending, List.mem_append] at h2 ⊢
        tauto
    · exact .inr h1
  -- the kernel tells
  have told : Safe d.l q → Pd { d.l with pipe := { d.l.pipe with k := k', queue := d.l.pipe.queue ++ raws } } q b := by
    intro hs
    obtain ⟨wd, hw⟩ := hs.held h.j
    obtain ⟨kw, h1, h2, h3⟩ := h.j.kernel create_ne hs.1 hw
    obtain ⟨r, h4, h5, h6, h7⟩ := htold wd kw h1 h2 (h3 _ (create_means hbit))
    refine .inl ⟨wd, r, ?_, ?_, h5, h6, bit, hbit, h7⟩
    · unfold Held at hw ⊢; simp only [hm]; exact hw
    · simp only [PSt.pending, List.mem_append]
      exact .inl (.inl (.inr h4))
  have hpq := (h.dirs.good _ hq).1
  have fresh : ∀ {q' b'}, d.dirs q' → D (q' ++ [b']) → ¬ d.dirs (q' ++ [b']) → q' = q ∧ b' = b := by
    intro q' b' h1 h2 h3
    rcases List.prefix_concat_iff.1 ((hD _ h2).resolve_left h3) with h4 | h4
    · obtain ⟨rfl, h5⟩ := List.append_inj' h4 rfl
      cases h5
      exact ⟨rfl, rfl⟩
    · obtain ⟨z, rfl⟩ := h4
      exact absurd (h.dirs.up (hpq.trans (List.prefix_append _ _)) h1) hnew
  have hok : DirsOk p D := by
    refine ⟨hsub _ h.dirs.top, htree, fun y hy => ⟨?_, hgood y hy⟩⟩
    rcases hD y hy with h1 | h1
    · exact (h.dirs.good y h1).1
    · exact hpq.trans ((List.prefix_append _ _).trans h1)
  refine ⟨by simpa using h.j.run hrun, excl_run h.excl hrun, hok, ?_, h.calm, fun r t ht => h.busy r t ht, ?_⟩
  · refine ⟨fun q' b' hq' hf => ?_, fun q' h1 h2 => (h.dyn.real q' h1 h2).imp_right (hsub _), fsOf_tree hok⟩
    have hf' := (fsOf_below hq'.1).1 hf
    by_cases hold : d.dirs (q' ++ [b'])
    · refine (h.dyn.edge q' b' hq' (.inr hold)).imp_right fun h1 => ?_
      rw [pend_iff] at h1 ⊢
      exact keep h1
    · obtain ⟨rfl, rfl⟩ := fresh (h.dir hq') hf' hold
      exact .inr (pend_iff.2 (told (h.conn hq')))
  · intro x dt lst r t hsc ht a ha
    have h1 := h.read x dt lst r t hsc ht a ha
    obtain ⟨L, h2, h3⟩ := h1.safe
    refine ⟨h1.mem, hsub _ h1.dir, ⟨L, h2, h3⟩, fun b' hb => ?_, h1.old⟩
    by_cases hold : d.dirs (x ++ a ++ [b'])
    · exact (h1.there b' hold).imp_right keep
    · obtain ⟨rfl, rfl⟩ := fresh h1.dir hb hold
      exact .inr (told (h2.safe h.j ht h3))

/-- An operation begins. -/
theorem plan_step {cfg : Sched.Cfg} {s l' : LSt} {o : List Op} {raws sg} (hs : LStep cfg true s o raws sg l') (hp : s.plan = none)
    (hp' : l'.plan ≠ none) : ∃ r t, s.Holds r ∧ Plans true s.sys.tree r o t ∧ l'.plan = some (r, t) ∧ l'.sys = s.sys ∧ l'.pipe = s.pipe := by
  cases hs with
  | plan r ops t new hr _ ht hn => exact ⟨r, t, hr, ht, rfl, rfl, rfl⟩
  | effect => exact absurd rfl hp'
  | intEffect => exact absurd rfl hp'
  | _ => exact absurd hp hp'

theorem DInv.plan {cfg : Sched.Cfg} (h : DInv base ops c p e d) {o : List Op} {raws : List Raw} {sg : List (Key × EventInfo)} {l' : LSt}
    (hs : LStep cfg true d.l o raws sg l') {r : Sched.Req} {t : St} (hr : d.l.Holds r) (hp : l'.plan = some (r, t))
    (hsys : l'.sys = d.l.sys) (hpipe : l'.pipe = d.l.pipe) {sc : Option (Path × DirTree)} (hm : Mid c p e r t d.l.sys.tree sc) :
    DInv base (ops ++ o) c p e { d with l := l', scan := sc.map fun x => (x.1, x.2, []) } := by
  have hpd : Pend l' = Pend d.l := by
    unfold Pend Pd Flight
    rw [hsys, hpipe]
  refine ⟨h.j.step hs, excl_step h.excl hs, h.dirs, by simp only [hsys, hpd]; exact h.dyn, fun hn => ?_, fun r' t' ht => ?_, ?_⟩
  · simp only at hn
    rw [hp] at hn; cases hn
  · simp only at ht
    rw [hp] at ht
    cases ht
    refine ⟨?_, ?_⟩
    · unfold LSt.Holds at hr ⊢; rw [hsys]; exact hr
    · simp only [hsys, Option.map_map]
      have : ((fun x : Path × DirTree × List Path => (x.1, x.2.1)) ∘ fun x : Path × DirTree => (x.1, x.2, [])) = id := rfl
      rw [this, Option.map_id]
      exact hm
  · intro x dt lst r' t' hsc _ a ha
    simp only at hsc
    rcases sc with _ | ⟨x', dt'⟩
    · cases hsc
    · simp only [Option.map_some, Option.some.injEq, Prod.mk.injEq] at hsc
      obtain ⟨_, _, rfl⟩ := hsc
      cases ha

/-- The scan reads a directory. -/
theorem DInv.list (h : DInv base ops c p e d) {x : Path} {dt : DirTree} {lst : List Path} {a : Path} (hs : d.scan = some (x, dt, lst))
    (ha : a ∈ dt.dirs) (hq : d.dirs (x ++ a)) (hc : d.l.pipe.caller = .idle) (ht : ∀ y ∈ d.l.todo, target y.1 ≠ x ++ a)
    (hl : ∀ b, a ++ [b] ∈ dt.dirs ↔ d.dirs (x ++ a ++ [b])) : DInv base ops c p e { d with scan := some (x, dt, a :: lst) } := by
  refine ⟨h.j, h.excl, h.dirs, h.dyn, fun hn => ?_, fun r t hp => ?_, ?_⟩
  · have := (h.calm hn).2
    rw [hs] at this; cases this
  · have := h.busy r t hp
    rw [hs] at this
    exact this
  · intro x' dt' lst' r t hsc hp a' ha'
    simp only [Option.some.injEq, Prod.mk.injEq] at hsc
    obtain ⟨rfl, rfl, rfl⟩ := hsc
    rcases List.mem_cons.1 ha' with rfl | ha'
    · have hm := (h.busy r t hp).2
      obtain ⟨hpx, hn⟩ := hm.new x dt (by rw [hs]; rfl)
      refine ⟨ha, hq, ⟨d.l.log, ⟨List.suffix_rfl, fun hb => absurd hc hb⟩, fun l hla => ?_⟩, fun b hb => .inl ((hl b).2 hb), fun b z hz => ?_⟩
      · obtain ⟨_, _, _, _, h3 | ⟨r', t', h3, _, _, h4⟩⟩ := h.j.tree
        · rw [hp] at h3; cases h3.1
        · rw [hp] at h3
          cases h3
          rw [← h4] at hla hn
          rw [amid_apart ht hla]
          exact hn _ ha
      · refine (hl b).2 ?_
        have h1 : p <+: x ++ a' ++ [b] := by
          rw [List.append_assoc]; exact hpx.trans (List.prefix_append _ _)
        exact h.dirs.up h1 ((fsOf_at h.dirs (h1.trans (List.prefix_append _ _))).1 (h.dyn.real _ (h1.trans (List.prefix_append _ _)) hz))
    · exact h.read x dt lst r t hs hp a' ha'

/-- The tree becomes `t`, and at most the event that was handled is gone. -/
theorem done_step {cfg : Sched.Cfg} {s l' : LSt} {o : List Op} {raws sg} (hs : LStep cfg true s o raws sg l') {r : Sched.Req} {t : St}
    (hrt : s.plan = some (r, t)) (hp' : l'.plan = none) :
    l'.sys.tree = t ∧ ∀ q b, Pd s q b → (∃ ei, r = .internal ei ∧ ei.path = q ++ [b]) ∨ Pd l' q b := by
  cases hs with
  | effect i r' a b t' _ h1 _ _ =>
    rw [hrt] at h1
    cases h1
    exact ⟨rfl, fun q b h2 => .inr h2⟩
  | intEffect ei t' hi h1 _ _ =>
    rw [hrt] at h1
    cases h1
    refine ⟨rfl, ?_⟩
    rintro q b (h2 | h2 | h2 | h2 | h2 | h2 | h2)
    · exact .inr (.inl h2)
    · exact .inr (.inr (.inl h2))
    · exact .inr (.inr (.inr (.inl h2)))
    · exact .inr (.inr (.inr (.inr (.inl h2))))
    · exact .inr (.inr (.inr (.inr (.inr (.inl h2)))))
    · rw [hi] at h2; cases h2
    · rw [hi] at h2
      cases h2
      exact .inl ⟨_, rfl, rfl⟩
  | plan => cases hp'
  | _ => exact absurd hp' (by simp only [hrt]; simp)

/-- The operation ends. -/
theorem DInv.done {cfg : Sched.Cfg} (h : DInv base ops c p e d) {l' : LSt} (hs : LStep cfg true d.l [] [] [] l')
    (hp : d.l.plan ≠ none) (hp' : l'.plan = none) (hall : ∀ x dt lst, d.scan = some (x, dt, lst) → ∀ a ∈ dt.dirs, a ∈ lst) :
    DInv base ops c p e { d with l := l', scan := none } := by
  obtain ⟨⟨r, t⟩, hrt⟩ := Option.ne_none_iff_exists'.1 hp
  obtain ⟨htree, hpd⟩ := done_step hs hrt hp'
  obtain ⟨hh, hm⟩ := h.busy r t hrt
  have hcov : ∀ x dt, d.scan.map (fun x => (x.1, x.2.1)) = some (x, dt) → Covers p x dt d.l.sys.tree (fsOf p d.dirs) (Pend l') := by
    intro x dt hsc
    obtain ⟨⟨x', dt', lst⟩, h3, h4⟩ := Option.map_eq_some_iff.1 hsc
    cases h4
    have hl := fun a ha => h.read x' dt' lst r t h3 hrt a (hall x' dt' lst h3 a ha)
    have hpx := (hm.new x' dt' hsc).1
    refine ⟨fun z h5 h6 => ?_, fun z hz b hb => ?_, fun z hz => .inr (hl z hz).dir⟩
    · have go : ∀ n z', z'.length = n → z' <+: z → z' ∈ dt'.dirs := by
        intro n
        induction n with
        | zero => intro z' hz' _; rw [List.length_eq_zero_iff.1 hz']; exact dt'.nil_mem_dirs
        | succ n ih =>
          intro z' hz' hpre
          rcases NonRec.path_cases z' with rfl | ⟨y, b, rfl⟩
          · simp at hz'
          · obtain ⟨w, rfl⟩ := hpre
            have h7 := ih y (by simpa using hz') ((List.prefix_append y [b]).trans (List.prefix_append _ w))
            exact (hl y h7).old b w (by simpa [List.append_assoc] using h6)
      exact go _ z rfl List.prefix_rfl
    · have h7 := (fsOf_below (hpx.trans (List.prefix_append _ z))).1 hb
      refine ((hl z hz).there b h7).imp_right fun h8 => pend_iff.2 ?_
      refine (hpd _ _ h8).resolve_left ?_
      rintro ⟨ei, rfl, hei⟩
      have := hm.self x' dt' ei hsc rfl
      rw [this, List.append_assoc] at hei
      have := congrArg List.length hei
      simp at this
  obtain ⟨h1, h2⟩ := hm.next (fsOf p d.dirs) (Pend d.l) (Pend l') h.dyn hcov (by
    intro q b h3
    rw [pend_iff] at h3 ⊢
    exact hpd q b h3)
  refine ⟨by simpa using h.j.step hs, excl_step h.excl hs, h.dirs, by simp only [htree]; exact h2,
    fun _ => ⟨by simp only [htree]; exact h1, rfl⟩, fun r' t' ht => ?_, by intro _ _ _ _ _ hsc; cases hsc⟩
  simp only at ht
  rw [hp'] at ht; cases ht

theorem appear_run {cfg : Sched.Cfg} {s : LSt} {raws : List Raw} {k' : Inotify.St} (hraws : ∀ r ∈ raws, FromKernel r)
    (hfs : Inotify.FsStep s.pipe.k k') (hk : Keeps s.pipe { s.pipe with k := k' }) :
    LRun cfg true (fun _ => True) s [] raws [] { s with pipe := { s.pipe with k := k', queue := s.pipe.queue ++ raws } } := by
  have h1 : LStep cfg true s [] [] [] { s with pipe := { s.pipe with k := k' } } := .pipe [] _ (.fs k' hfs) rfl rfl (fun _ => hk)
  exact (LRun.one h1).trans (queue_run raws hraws hk.1)

theorem DInv.step {cfg : Sched.Cfg} (he : UserEvents I e) (h : DInv base ops c p e d) {o : List Op} {raws : List Raw}
    {sg : List (Key × EventInfo)} {d' : DSt} (hs : DStep cfg c p d o raws sg d') : DInv base (ops ++ o) c p e d' := by
  cases hs with
  | run h1 h2 => simpa using h.run h1 h2
  | appear q b bit raws D k' hq hnew hmade hsub hD htree hgood hbit hraws htold hfs hk =>
    simpa using h.appear hq hnew hsub hD htree hgood hbit htold hfs (appear_run (cfg := cfg) hraws hfs hk)
  | other h1 hp hp' ha =>
    obtain ⟨r, t, hr, hpl, h2, h3, h4⟩ := plan_step h1 hp hp'
    obtain ⟨_, _, _, hh, _⟩ := h.j.tree
    obtain ⟨hst, hsc⟩ := h.calm hp
    have := h.plan h1 hr h2 h3 h4 (Mid.other he hh hst hpl ha)
    simpa [hsc] using this
  | @skip _ l' ei tree' dt h1 hp hl hei hpick hp' =>
    obtain ⟨r, t, hr, hpl, h2, h3, h4⟩ := plan_step h1 hp (by rw [hp']; simp)
    obtain ⟨_, _, _, hh, _⟩ := h.j.tree
    obtain ⟨hst, hsc⟩ := h.calm hp
    rw [hp'] at h2
    cases h2
    have := h.plan h1 hr hp' h3 h4 (Mid.skip he hh hst hpl hl hei hpick)
    simpa [hsc] using this
  | @scan _ l' ei tree' dt h1 hp hl hei hpick hx hd hne hp' =>
    obtain ⟨r, t, hr, hpl, h2, h3, h4⟩ := plan_step h1 hp (by rw [hp']; simp)
    obtain ⟨_, _, _, hh, _⟩ := h.j.tree
    obtain ⟨hst, hsc⟩ := h.calm hp
    rw [hp'] at h2
    cases h2
    exact h.plan h1 hr hp' h3 h4 (Mid.scan he hh hst hpl hl hei hpick (hx.imp_right And.left) hd hne)
  | read a hs ha hq hc ht hl => simpa using h.list hs ha hq hc ht hl
  | done h1 hp hp' hall => simpa using h.done h1 hp hp' hall

theorem DInv.start {cfg : Sched.Cfg} {s₀ : LSt} (hj : J base [] s₀) (hx : Sched.Excl s₀.sys) (hgp : GoodPath p) (he : UserEvents I e)
    (htop : ∀ a, a <+: p ∨ p <+: a → recAt s₀.sys.tree.root a = none) {D : Path → Prop} (hD : DirsOk p D) {o : List Op}
    {l' : LSt} {tree' : St} {dt : DirTree} (h : LStep cfg true s₀ o [] [] l') (hp : s₀.plan = none) (hl : Like s₀.sys.tree tree')
    (hd : dt.Named) (hne : dt.NoErr) (hp' : l'.plan = some (.watch p true c e, (NonRec.watchOp I .ok dt tree' p true c e).1)) :
    DInv base o c p e { l := l', dirs := D, scan := some (p, dt, []) } := by
  obtain ⟨r, t, hr, hpl, h2, h3, h4⟩ := plan_step h hp (by rw [hp']; simp)
  rw [hp'] at h2
  cases h2
  obtain ⟨_, _, _, hh, _⟩ := hj.tree
  have hm := Mid.start (c := c) he hh hgp htop hl hd hne
  refine ⟨by simpa using hj.step h, excl_step hx h, hD, ⟨fun q b hq _ => ?_, fun q h5 h6 => ?_, fsOf_tree hD⟩, fun hn => ?_, fun r t ht => ?_, ?_⟩
  · simp only [h3] at hq
    exact absurd (htop p (.inl List.prefix_rfl)) (hq.2 p List.prefix_rfl hq.1)
  · simp only [h3] at h6
    exact absurd (htop q (.inr h5)) h6
  · simp only at hn
    rw [hp'] at hn; cases hn
  · simp only at ht
    rw [hp'] at ht
    cases ht
    refine ⟨?_, by simp only [h3]; exact hm⟩
    unfold LSt.Holds at hr ⊢; rw [h3]; exact hr
  · intro x dt' lst r t hsc _ a ha
    simp only [Option.some.injEq, Prod.mk.injEq] at hsc
    obtain ⟨_, _, rfl⟩ := hsc
    cases ha

end

end Linux
end Verif
