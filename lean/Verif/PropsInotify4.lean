/-
Linux: when a watch is in force although files come and go (C70).
-/
import Verif.PropsInotify2

namespace Verif
namespace Inotify
open Spec.Inotify

/-- `Feeds p l k g`: starting with a fresh watcher, the calls of the log (newest first) with the recorded outcomes lead to the watcher state
`k`, while the file system changes in any way.  `g` says that `p` still leads to the inode it led to when it was last watched, and
that this inode was not watched under another name since. -/
inductive Feeds (p : Path) : Log → St → Bool → Prop
  | init (f : Path → Option Nat) (g : Bool) : Feeds p [] { inode := f } g
  | watch {l k g q e ok k'} (fail : Bool) : Feeds p l k g → watch fail k q e = (k', ok) →
      Feeds p ((.watch q e, ok) :: l) k' (if ok then decide (q = p) || (g && decide (k.inode q ≠ k.inode p)) else g)
  | rewatch {l k g q old e ok k'} (fail : Bool) : Feeds p l k g → Inotify.watch fail k q e = (k', ok) →
      Feeds p ((.rewatch q old e, ok) :: l) k' (if ok then decide (q = p) || (g && decide (k.inode q ≠ k.inode p)) else g)
  | unwatch {l k g q ok k'} : Feeds p l k g → Inotify.unwatch k q = (k', ok) → Feeds p ((.unwatch q, ok) :: l) k' g
  | fs {l k g k'} : Feeds p l k g → FsStep k k' → Feeds p l k' (g && decide (k'.inode p = k.inode p))
  | reorder {l k g k'} : Feeds p l k g → Reorder k k' → Feeds p l k' g

theorem Feeds.reach {p : Path} {l : Log} {k : St} {g : Bool} (h : Feeds p l k g) : Reach false k := by
  induction h with
  | init f _ => exact .init f
  | watch fail _ h ih => exact (fst_eq h) ▸ .step ih (.watch fail _ _)
  | rewatch fail _ h ih => exact (fst_eq h) ▸ .step ih (.watch fail _ _)
  | unwatch _ h ih => exact (fst_eq h) ▸ .step ih (.unwatch _)
  | fs _ hf ih => exact .step ih (.fs hf nofun)
  | reorder _ hr ih => exact .step ih (.reorder hr)

/-- The kernel watches the inode that `p` leads to, for the set `e`. -/
def InForce (p : Path) (e : Event) (k : St) : Prop :=
  ∃ wd kw, k.m.get? wd = some ⟨p, e⟩ ∧ k.watches.get? wd = some kw ∧ k.inode p = some kw.inode

theorem InForce.watch_self {k k' : St} {fail : Bool} {p : Path} {e : Event} (hb : Base k) (h : watch fail k p e = (k', true)) :
    InForce p e k' := by
  obtain ⟨ino, wd, n, hi, _, _, _, _, rfl, _⟩ := watch_ok hb h
  exact ⟨wd, ⟨ino, encode e, p⟩, by simp [GoMap.get?_set], by simp [GoMap.get?_set], hi⟩

theorem InForce.watch_other {k k' : St} {fail : Bool} {p q : Path} {e e' : Event} (hb : Base k) (h : watch fail k q e' = (k', true))
    (hq : k.inode q ≠ k.inode p) (hf : InForce p e k) : InForce p e k' := by
  obtain ⟨ino, wd', n, hi, _, _, _, _, rfl, hor⟩ := watch_ok hb h
  obtain ⟨wd, kw, h1, h2, h3⟩ := hf
  have hne : ¬ wd' = wd := by
    rintro rfl
    rcases hor with ⟨k0, hk0, hin⟩ | ⟨hn, _⟩
    · rw [h2] at hk0
      obtain rfl := Option.some.inj hk0
      exact hq (by rw [hi, h3, hin])
    · have := hb.fresh _ _ h2
      omega
  exact ⟨wd, kw, by simp [GoMap.get?_set, hne, h1], by simp [GoMap.get?_set, hne, h2], h3⟩

theorem InForce.fs {k k' : St} {p : Path} {e : Event} (h : FsStep k k') (hp : k'.inode p = k.inode p) (hn : k.watches.Nodup)
    (hf : InForce p e k) : InForce p e k' := by
  obtain ⟨f, keep, hkeep⟩ := h
  obtain ⟨wd, kw, h1, h2, h3⟩ := hf
  refine ⟨wd, kw, h1, ?_, hp.trans h3⟩
  have hm := GoMap.mem_of_get? h2
  have hk : keep kw.inode = true := (hkeep _).2 ⟨p, hp.trans h3⟩
  refine GoMap.get?_of_mem ?_ (List.mem_filter.2 ⟨hm, hk⟩)
  exact List.Pairwise.sublist ((List.filter_sublist).map Prod.fst) hn

theorem Feeds.inForce {p : Path} {l : Log} {k : St} (h : Feeds p l k true) (h0 : osOf l p ≠ 0) : InForce p (osOf l p) k := by
  generalize hg : true = g at h
  induction h with
  | init f _ => exact absurd rfl h0
  | @watch l k g q e ok k' fail hF h ih =>
    cases ok with
    | false =>
      have := watch_err h
      subst this
      exact ih h0 hg
    | true =>
      have hb := hF.reach.base
      by_cases hq : q = p
      · subst hq
        simp only [osOf, if_true]
        exact .watch_self hb h
      · simp only [if_true, hq, decide_false, Bool.false_or] at hg
        have hg' := (Bool.and_eq_true _ _).mp hg.symm
        simp only [osOf, if_neg hq] at h0 ⊢
        exact .watch_other hb h (by simpa using hg'.2) (ih h0 hg'.1.symm)
  | @rewatch l k g q old e ok k' fail hF h ih =>
    cases ok with
    | false =>
      have := watch_err h
      subst this
      exact ih h0 hg
    | true =>
      have hb := hF.reach.base
      by_cases hq : q = p
      · subst hq
        simp only [osOf, if_true]
        exact .watch_self hb h
      · simp only [if_true, hq, decide_false, Bool.false_or] at hg
        have hg' := (Bool.and_eq_true _ _).mp hg.symm
        simp only [osOf, if_neg hq] at h0 ⊢
        exact .watch_other hb h (by simpa using hg'.2) (ih h0 hg'.1.symm)
  | @unwatch l k g q ok k' hF h ih =>
    have hb := hF.reach.base
    cases ok with
    | false =>
      obtain ⟨rfl, _⟩ := unwatch_err hb h
      exact ih h0 hg
    | true =>
      obtain ⟨wd', w', hw', hwq, rfl⟩ := unwatch_ok hb h
      by_cases hq : q = p
      · simp [osOf, hq] at h0
      · simp only [osOf, if_neg hq] at h0 ⊢
        obtain ⟨wd, kw, h1, h2, h3⟩ := ih h0 hg
        have hne : ¬ wd' = wd := by
          rintro rfl
          rw [h1] at hw'
          obtain rfl := Option.some.inj hw'
          exact hq hwq.symm
        exact ⟨wd, kw, by simp [GoMap.get?_del, hne, h1], by simp [GoMap.get?_del, hne, h2], h3⟩
  | @fs l k g k' hF hf ih =>
    have hg' := (Bool.and_eq_true _ _).mp hg.symm
    exact .fs hf (by simpa using hg'.2) hF.reach.base.wnodup (ih h0 hg'.1.symm)
  | @reorder l k g k' hF hr ih =>
    obtain ⟨m', hp⟩ := hr
    obtain ⟨wd, kw, h1, h2, h3⟩ := ih h0 hg
    exact ⟨wd, kw, by rw [get?_perm hF.reach.base.mnodup hp]; exact h1, h2, h3⟩

open NonRec Verif.Spec in
/-- What is registered is watched by the OS, according to the calls made. -/
theorem os_of_reg {ops : List Op} {t : Verif.St} (ht : Hist Platform.inotify true ops t) {c : Nat} (hops : ∀ op ∈ ops, NoFail c op)
    {p : Path} {E : Event} (hE : E &&& Platform.inotify.internal = 0)
    (hreg : wants (regOf Platform.inotify ops) c E p = true) : E ⊑ osOf t.world.log p := by
  have hP := Platform.inotify_wf.facts
  have href := Hist.refines hP ht hops
  obtain ⟨ev, fl, hrc, hsub⟩ : ∃ ev fl, regOf Platform.inotify ops c p = some (ev, fl) ∧ E ⊑ ev := by
    unfold wants at hreg
    rcases hx : regOf Platform.inotify ops c p with _ | ⟨ev, fl⟩
    · rw [hx] at hreg; cases hreg
    · rw [hx] at hreg; exact ⟨ev, fl, rfl, by simpa using hreg⟩
  intro i hi
  refine ((C11_os_mirror hP ht p).1 i).2 ⟨?_, Or.inl ⟨c, ev ||| (if fl then Platform.inotify.recursive else 0), ?_, ?_⟩⟩
  · have := congrArg (fun v => BitVec.getLsbD v i) hE
    simp only [BitVec.getLsbD_and] at this
    have hi' : BitVec.getLsbD E i = true := hi
    rw [hi'] at this
    simpa using this
  · rw [href.ent, hrc]; rfl
  · rw [BitVec.getLsbD_or, hsub i hi]; rfl

open NonRec Verif.Spec in
/-- A change of kind `b` of an entry of the directory `p` reaches channel `c` as event `E`: the kernel watches the inode of `p` for `b`; when it
reports `b` for the entry `n`, exactly one event with `E` is handed to dispatch, its path is `p/n`, and dispatch sends it to `c` once for
every registration of `c` that covers it, at least once. -/
def Heard (ops : List Op) (t : Verif.St) (k : St) (c : Nat) (p : Path) (E b : Event) : Prop :=
  ∃ wd kw, k.watches.get? wd = some kw ∧ k.inode p = some kw.inode ∧ b ⊑ kw.mask ∧
    ∀ (n : Comp) (d : Bool) (r : Raw), n ≠ [] → r.wd = wd → r.name = n → r.mask = b ||| (if d then 0x40000000 else 0) →
      ∃ ei, (sent k.m [r]).filter (fun x => decide (x.event = E)) = [ei] ∧ ei.event = E ∧ ei.path = p ++ [n] ∧ ei.isDir = some d ∧
        (sends Platform.inotify t.root ei).count (.user c) = copies (regOf Platform.inotify ops) c E (p ++ [n]) ∧
        1 ≤ (sends Platform.inotify t.root ei).count (.user c)

open NonRec Verif.Spec in
/-- What the calls asked for is reported, and dispatch sends it to the channels it is for. -/
theorem heard_of_os {ops : List Op} {t : Verif.St} (ht : Hist Platform.inotify true ops t)
    {c : Nat} (hops : ∀ op ∈ ops, NoFail c op) {k : St} {p : Path} (hp : GoodPath p) (hk : Feeds p t.world.log k true)
    {E b : Event} (hEb : (E, b) ∈ means) (hos : E ⊑ osOf t.world.log p)
    (hcop : ∀ n, 1 ≤ copies (regOf Platform.inotify ops) c E (p ++ [n])) : Heard ops t k c p E b := by
  have hP := Platform.inotify_wf.facts
  have hbk : b ∈ kernelBits := by
    have : ∀ x ∈ means, x.2 ∈ kernelBits := by decide
    exact this _ hEb
  have hEint : ∀ x ∈ means, x.1 &&& Platform.inotify.internal = 0 ∧ x.1 ≠ 0 := by decide
  obtain ⟨hEi, hE0⟩ := hEint _ hEb
  have hos0 : osOf t.world.log p ≠ 0 := by
    intro h0; rw [h0] at hos; exact hE0 (Event.sub_zero hos)
  obtain ⟨wd, kw, hwd, hkw, hino⟩ := hk.inForce hos0
  obtain ⟨w', hw', _, hmask⟩ := hk.reach.base.live _ _ hkw
  rw [hwd] at hw'
  obtain rfl := Option.some.inj hw'
  have hacc : accepts (osOf t.world.log p) = true := hk.reach.base.acc _ _ hwd
  refine ⟨wd, kw, hkw, hino, ?_, ?_⟩
  · rw [hmask]
    exact ((C32_mask _ hacc).2 b hbk).2 ⟨E, hos, hEb⟩
  · intro n d r hn hrwd hrn hrm
    subst hrwd
    obtain ⟨hcount, hall⟩ := C33_exact hwd hacc hbk d hrm
    have h1 := hcount E
    rw [if_pos ⟨hos, hEb⟩] at h1
    obtain ⟨ei, hei⟩ := List.length_eq_one_iff.1 h1
    have hmem : ei ∈ (sent k.m [r]).filter (fun x => decide (x.event = E)) := by rw [hei]; exact List.mem_singleton_self _
    obtain ⟨hms, hev⟩ := List.mem_filter.1 hmem
    have hev' : ei.event = E := by simpa using hev
    obtain ⟨hpe, hde⟩ := hall ei hms
    have hpth : ei.path = p ++ [n] := by
      rw [hpe, if_neg (by rw [hrn]; exact hn), hrn]
      unfold join
      rw [if_neg]
      rintro rfl
      exact hp.2 (by simp)
    refine ⟨ei, hei, hev', hpth, hde, ?_⟩
    have hlen : 2 ≤ ei.path.length := by
      rw [hpth]
      have : p.length ≠ 0 := fun h => hp.1 (List.length_eq_zero_iff.1 h)
      simp; omega
    have hc := (C01_delivery_exact hP ht hlen (by rw [hev']; exact hEi) (by intro h; cases h)).1 c hops
    rw [hev', hpth] at hc
    exact ⟨hc, by rw [hc]; exact hcop n⟩

open NonRec Verif.Spec in
/-- **C70, Linux: a watch is in force as long as its directory is the one that was watched.**  For every history of calls and every change of the
file system: watched files and directories may be removed, created again, renamed and linked.  If `p` still leads to the inode it led to when
its set was last handed to the kernel, and this inode was not watched under another name since, what is registered on `p` is reported.
Missing for the full claim: directories that were replaced (C70_refuted). -/
theorem C70_since_partial {ops : List Op} {t : Verif.St} (ht : Hist Platform.inotify true ops t)
    {c : Nat} (hops : ∀ op ∈ ops, NoFail c op) {k : St} {p : Path} (hp : GoodPath p) (hk : Feeds p t.world.log k true)
    {E b : Event} (hEb : (E, b) ∈ means) (hreg : wants (regOf Platform.inotify ops) c E p = true) : Heard ops t k c p E b := by
  have hEint : ∀ x ∈ means, x.1 &&& Platform.inotify.internal = 0 := by decide
  refine heard_of_os ht hops hp hk hEb (os_of_reg ht hops (hEint _ hEb) hreg) ?_
  intro n
  unfold copies
  rw [List.dropLast_concat, hreg]
  simp only [if_true]
  omega

/-- `Answered k l k'`: the watcher answers the calls `l` (newest first), and nothing else happens. -/
inductive Answered : St → Log → St → Prop
  | nil {k} : Answered k [] k
  | cons {k l k' c ok k''} : Answered k l k' → Serves k' c ok k'' → Answered k ((c, ok) :: l) k''

open NonRec Verif.Spec in
/-- **C70, Linux: a Watch that asks for something new is in force.**  For every history of calls and every change of the file system before.  A Watch of
`p` returns without error, and it asks for more than the calls made so far asked of the kernel for `p`.  Then what it asks for is reported, whatever
happened to `p` before.  Missing for the full claim: a Watch that asks for nothing new (C70_refuted). -/
theorem C70_watch_partial {ops : List Op} {t t' : Verif.St} (ht : Hist Platform.inotify true ops t)
    {c : Nat} (hops : ∀ op ∈ ops, NoFail c op) {k k' : St} {p : Path} (hp : GoodPath p) {g : Bool} (hk : Feeds p t.world.log k g)
    {e : Event} (he : UserEvents Platform.inotify e) {O : Oracle} {dt : DirTree} (hdt : dt.Named)
    (hw : watchOp Platform.inotify O dt t p false c e = (t', true)) (hnew : ¬ e ⊑ osOf t.world.log p) {l : Log}
    (hl : t'.world.log = l ++ t.world.log) (ha : Answered k l k') {E b : Event} (hEb : (E, b) ∈ means) (hE : E ⊑ e) :
    Heard (ops ++ [.watch p false c e true]) t' k' c p E b := by
  have hst : NonRec.Step Platform.inotify true t (.watch p false c e true) t' := by
    have := NonRec.Step.watch (P := Platform.inotify) (reliable := true) (s := t) (O := O) (dt := dt) (isrec := false) (c := c) hp he hdt
      (fun _ h => by cases h)
    rw [hw] at this
    exact this
  have ht' : Hist Platform.inotify true (ops ++ [.watch p false c e true]) t' := .snoc ht hst
  have hops' : ∀ op ∈ ops ++ [.watch p false c e true], NoFail c op := by
    intro op hop
    rcases List.mem_append.1 hop with h | h
    · exact hops op h
    · rw [List.mem_singleton.1 h]; exact fun _ => .inr rfl
  have hreg : ∀ F, F ⊑ e → wants (regOf Platform.inotify (ops ++ [.watch p false c e true])) c F p = true := by
    intro F hF
    unfold regOf
    rw [List.foldl_append]
    simp only [List.foldl_cons, List.foldl_nil, regStep, if_true]
    unfold wants Reg.watch
    rw [if_pos ⟨rfl, rfl⟩]
    cases List.foldl (regStep Platform.inotify) Reg.empty ops c p with
    | none => simpa using hF
    | some x => simpa using hF.trans (Event.sub_or_right _ _)
  have hall : e ⊑ osOf t'.world.log p := os_of_reg ht' hops' he.2 (hreg e (Event.Sub.refl e))
  -- the calls made
  have hcalls : t'.world.log = t.world.log ∨ ∃ d : Event × Event, t'.world.log = (diffCall p d, true) :: t.world.log := by
    unfold watchOp NonRec.watch at hw
    simp only [Bool.false_eq_true, if_false] at hw
    split at hw
    · left; rw [← (Prod.mk.inj hw).1]
    · split at hw
      · left; rw [← (Prod.mk.inj hw).1]; rfl
      · split at hw
        · next hx =>
          right
          refine ⟨((watchAt (t.root.add p) p).add Platform.inotify (.user c) e).2, ?_⟩
          rw [← (Prod.mk.inj hw).1]
          simp only [World.exec] at hx ⊢
          rw [hx]
        · cases (Prod.mk.inj hw).2
  rcases hcalls with h | ⟨d, h⟩
  · rw [h] at hall; exact absurd hall hnew
  · rw [h] at hl
    have : l = [(diffCall p d, true)] := by
      have : (([(diffCall p d, true)] : Log) ++ t.world.log) = l ++ t.world.log := hl
      exact (List.append_cancel_right this).symm
    subst this
    refine C70_since_partial ht' hops' hp ?_ hEb (hreg E hE)
    rw [h]
    cases ha with
    | cons ha hs =>
      cases ha
      unfold diffCall at hs ⊢
      split at hs
      · next h0 =>
        rw [if_pos h0]
        cases hs with
        | watch fail hs => simpa using Feeds.watch fail hk hs
      · next h0 =>
        rw [if_neg h0]
        cases hs with
        | rewatch fail hs => simpa using Feeds.rewatch (old := d.1) fail hk hs

namespace ForceEx
open NonRec

/-- Channel 1 watches `/a` for Create. -/
def t1 : Verif.St := (watchOp Platform.inotify .ok (.dir .nil) NonRec.init [['a']] false 1 create).1
def ops1 : List Op := [.watch [['a']] false 1 create true]
/-- So does channel 2. -/
def t2 : Verif.St := (watchOp Platform.inotify .ok (.dir .nil) t1 [['a']] false 2 create).1
/-- Channel 2 watches it for Create and Write. -/
def t3 : Verif.St := (watchOp Platform.inotify .ok (.dir .nil) t1 [['a']] false 2 (create ||| write)).1

def f1 : Path → Option Nat := fun p => if p = [['a']] then some 1 else none
def f2 : Path → Option Nat := fun p => if p = [['a']] then some 2 else none

/-- The watcher after the first call, and after `/a` has been removed and created again. -/
def k1 : St := (Inotify.watch false { inode := f1 } [['a']] create).1
def k2 : St := { k1 with inode := f2, watches := [] }

theorem good : GoodPath [['a']] := by simp [GoodPath]
theorem user : UserEvents Platform.inotify create := by unfold UserEvents; decide

theorem hist1 : Hist Platform.inotify true ops1 t1 :=
  .snoc .nil (.watch (O := .ok) (dt := .dir .nil) (isrec := false) (c := 1) good user (by simp [DirTree.Named, Entries.Named]) (fun _ h => by cases h))

theorem feeds1 (g : Bool) : Feeds [['a']] t1.world.log k1 true := by
  have h : t1.world.log = [(.watch [['a']] create, true)] := by decide
  rw [h]
  have := Feeds.watch (p := [['a']]) (q := [['a']]) (e := create) (ok := true) (k' := k1) false (.init f1 g) (Prod.ext rfl (by decide))
  simpa using this

theorem step12 : FsStep k1 k2 := by
  have h := FsStep.mk k1 f2 (fun n => n == 2) (by
    intro ino
    simp only [beq_iff_eq, f2]
    constructor
    · rintro rfl; exact ⟨[['a']], rfl⟩
    · rintro ⟨p, hp⟩
      split at hp
      · exact (Option.some.inj hp).symm
      · cases hp)
  have : ({ k1 with inode := f2, watches := k1.watches.filter (fun p => p.2.inode == 2) } : St) = k2 := by
    have hw : k1.watches.filter (fun p => p.2.inode == 2) = [] := by decide
    rw [hw]; rfl
  rw [this] at h
  exact h

theorem feeds2 : Feeds [['a']] t1.world.log k2 false := by
  have h := Feeds.fs (feeds1 true) step12
  have hd : (true && decide (k2.inode [['a']] = k1.inode [['a']])) = false := by decide
  rw [hd] at h
  exact h

end ForceEx

/-- The hypotheses of C70_since_partial are met: channel 1 watches `/a`. -/
example : Feeds [['a']] ForceEx.t1.world.log ForceEx.k1 true ∧
    Spec.wants (NonRec.regOf Platform.inotify ForceEx.ops1) 1 create [['a']] = true ∧ (create, inMovedTo) ∈ means :=
  ⟨ForceEx.feeds1 true, by decide, by decide⟩

/-- The hypotheses of C70_watch_partial are met although `/a` was replaced: channel 2 asks for more. -/
example : Heard (ForceEx.ops1 ++ [.watch [['a']] false 2 (create ||| write) true]) ForceEx.t3
    (watch false ForceEx.k2 [['a']] (create ||| write)).1 2 [['a']] create inMovedTo := by
  refine C70_watch_partial (l := [(.rewatch [['a']] create (create ||| write), true)]) ForceEx.hist1 (by simp [ForceEx.ops1, NonRec.NoFail])
    ForceEx.good ForceEx.feeds2 (by unfold NonRec.UserEvents; decide) (dt := .dir .nil) (by simp [DirTree.Named, Entries.Named]) (O := .ok)
    (Prod.ext rfl (by decide)) (by decide) (by decide) (.cons .nil (.rewatch false (Prod.ext rfl (by decide)))) (by decide) (by decide)

open NonRec Verif.Spec in
/-- **C70 is false of a Watch that asks for nothing new.**  `/a` is watched for Create, removed and created again; a second channel watches it for
Create.  The Watch returns without error and makes no call: the kernel does not watch the new `/a`. -/
theorem C70_refuted : ¬ ∀ (ops : List Op) (t t' : Verif.St) (k k' : St) (c : Nat) (p : Path) (g : Bool) (e : Event) (l : Log) (E b : Event),
    Hist Platform.inotify true ops t → (∀ op ∈ ops, NoPlainFail op) → GoodPath p → Feeds p t.world.log k g → UserEvents Platform.inotify e →
    watchOp Platform.inotify .ok (.dir .nil) t p false c e = (t', true) → t'.world.log = l ++ t.world.log → Answered k l k' →
    k'.inode p ≠ none → (E, b) ∈ means → E ⊑ e → Heard (ops ++ [.watch p false c e true]) t' k' c p E b := by
  intro h
  obtain ⟨wd, kw, hw, _⟩ := h ForceEx.ops1 ForceEx.t1 ForceEx.t2 ForceEx.k2 ForceEx.k2 2 [['a']] false create [] create inCreate ForceEx.hist1
    (by simp [ForceEx.ops1, NoPlainFail]) ForceEx.good ForceEx.feeds2 ForceEx.user (Prod.ext rfl (by decide)) (by decide) .nil (by decide) (by decide)
    (Event.Sub.refl _)
  cases hw

end Inotify
end Verif
