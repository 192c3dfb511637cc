/-
Calls alone cause no events (C109).
-/
import Verif.PropsFen
import Verif.PropsBsd
import Verif.PropsLinux
import Verif.PropsWin2
import Verif.PropsMac

namespace Verif

/-! ### The tree -/

theorem still_plain {P : Platform} {cfg : Sched.Cfg} {s s' : Sched.State (Sched.plainTree P)} {l : Sched.Lab (Sched.plainTree P).Req}
    (h : Sched.Tr (Sched.plainTree P) cfg s l s') (hl : Linux.Free l) (hc : s.cq = []) (hd : s.disp = []) :
    Linux.sigs l = [] ∧ s'.cq = [] ∧ s'.disp = [] := by
  cases h with
  | report => exact hl.elim
  | push => exact hl.elim
  | effect => exact hl.elim
  | intEffect => exact hl.elim
  | spawn ei q h => rw [hc] at h; cases h
  | rlock i ei a b h => rw [hd] at h; simp at h
  | pick i ei d k a b h => rw [hd] at h; simp at h
  | send i ei d k a b h => rw [hd] at h; simp at h
  | runlock i ei d a b h => rw [hd] at h; simp at h
  | fin i ei d a b h => rw [hd] at h; simp at h
  | handed i ei a b h => rw [hd] at h; simp at h
  | _ => exact ⟨rfl, hc, hd⟩

theorem still_rec {P : Platform} {cfg : Sched.Cfg} {s s' : Sched.State (Sched.recTree P)} {l : Sched.Lab (Sched.recTree P).Req}
    (h : Sched.Tr (Sched.recTree P) cfg s l s') (hl : Linux.Free l) (hc : s.cq = []) (hd : s.disp = []) :
    Linux.sigs l = [] ∧ s'.cq = [] ∧ s'.disp = [] := by
  cases h with
  | report => exact hl.elim
  | push => exact hl.elim
  | effect => exact hl.elim
  | intEffect => exact hl.elim
  | spawn ei q h => rw [hc] at h; cases h
  | rlock i ei a b h => rw [hd] at h; simp at h
  | pick i ei d k a b h => rw [hd] at h; simp at h
  | send i ei d k a b h => rw [hd] at h; simp at h
  | runlock i ei d a b h => rw [hd] at h; simp at h
  | fin i ei d a b h => rw [hd] at h; simp at h
  | handed i ei a b h => rw [hd] at h; simp at h
  | _ => exact ⟨rfl, hc, hd⟩

/-! ### Linux -/
namespace Linux
open Inotify (PSt PStep Raw Consumer)

/-- A record that says that a watch was ended. -/
def Ended (r : Raw) : Prop := r.mask &&& Inotify.inIgnored ≠ 0

theorem Ended.outs {m : Inotify.Table} {es : List Raw} (h : ∀ r ∈ es, Ended r) : Inotify.outs m es = [] := by
  have h1 : ∀ r ∈ es, Inotify.transform1 m r = (none, []) := by
    intro r hr
    unfold Inotify.transform1
    rw [if_pos]
    have h2 := h r hr
    unfold Ended at h2
    intro h3
    apply h2
    rw [BitVec.and_or_distrib_left] at h3
    rw [Event.bext] at *
    intro i
    have h3 := h3 i
    rw [BitVec.getLsbD_or, show (0 : Event).getLsbD i = false from BitVec.getLsbD_zero, Bool.or_eq_false_iff] at h3
    rw [h3.1]
    exact BitVec.getLsbD_zero.symm
  unfold Inotify.outs
  rw [List.filterMap_eq_nil_iff]
  intro o ho
  rw [List.mem_append, List.mem_map, List.mem_flatMap] at ho
  rcases ho with ⟨r, hr, rfl⟩ | ⟨r, hr, ho⟩
  · simp [h1 r hr]
  · simp [h1 r hr] at ho

/-- All that is on its way are such records. -/
structure Still (s : LSt) : Prop where
  queue : ∀ r ∈ s.pipe.queue, Ended r
  batch : ∀ es, s.pipe.batch = some es → ∀ r ∈ es, Ended r
  got : ∀ es, .got es ∈ s.pipe.cons → ∀ r ∈ es, Ended r
  sending : ∀ l, .sending l ∈ s.pipe.cons → l = []
  cq : s.sys.cq = []
  disp : s.sys.disp = []

theorem Still.quiet {s : LSt} (h : s.Quiet) : Still s where
  queue := fun r hr => by rw [h.1.1] at hr; cases hr
  batch := fun es he => by rw [h.1.2.1] at he; cases he
  got := fun es he => by cases h.1.2.2 _ he
  sending := fun es he => by cases h.1.2.2 _ he
  cq := h.2.1
  disp := h.2.2

theorem mem_cons_set {l : List Consumer} {i : Nat} {a b : Consumer} (h : b ∈ l.set i a) : b ∈ l ∨ b = a := by
  rcases List.mem_or_eq_of_mem_set h with h | h
  · exact .inl h
  · exact .inr h

theorem Still.step {cfg : Sched.Cfg} {st : Bool} {s s' : LSt} {o raws g} (h : Still s) (hs : LStep cfg st s o raws g s') (hr : ∀ r ∈ raws, Ended r) :
    g = [] ∧ Still s' := by
  cases hs with
  | go l sys' htr hl =>
    obtain ⟨h1, h2, h3⟩ := still_plain htr hl h.cq h.disp
    exact ⟨h1, h.queue, h.batch, h.got, h.sending, h2, h3⟩
  | pipe raws p' hp hc ho hst =>
    refine ⟨rfl, ?_⟩
    cases hp with
    | change r hk =>
      exact ⟨fun r' hr' => (List.mem_append.1 hr').elim (h.queue r') (fun h1 => hr r' h1), h.batch, h.got, h.sending, h.cq, h.disp⟩
    | fs k' hk => exact ⟨h.queue, h.batch, h.got, h.sending, h.cq, h.disp⟩
    | reorder k' h1 h2 => exact ⟨h.queue, h.batch, h.got, h.sending, h.cq, h.disp⟩
    | add p e wd k' h1 h2 h3 => exact ⟨h.queue, h.batch, h.got, h.sending, h.cq, h.disp⟩
    | table wd p e h1 => exact ⟨h.queue, h.batch, h.got, h.sending, h.cq, h.disp⟩
    | rm p wd w l h1 h2 h3 =>
      exact ⟨fun r' hr' => (List.mem_append.1 hr').elim (h.queue r') (fun h1 => hr r' h1), h.batch, h.got, h.sending, h.cq, h.disp⟩
    | forget wd h1 => exact ⟨h.queue, h.batch, h.got, h.sending, h.cq, h.disp⟩
    | read n h1 =>
      refine ⟨fun r hr => h.queue r (List.mem_of_mem_drop hr), fun es he r hr => ?_, h.got, h.sending, h.cq, h.disp⟩
      cases he
      exact h.queue r (List.mem_of_mem_take hr)
    | hand i es h1 h2 =>
      refine ⟨h.queue, (fun es he => by cases he), fun es' he => ?_, fun l hl => ?_, h.cq, h.disp⟩
      · rcases mem_cons_set he with h3 | h3
        · exact h.got es' h3
        · cases h3; exact h.batch es h1
      · rcases mem_cons_set hl with h3 | h3
        · exact h.sending l h3
        · cases h3
    | transform i es h1 =>
      have h0 := h.got es (List.mem_of_getElem? h1)
      refine ⟨h.queue, h.batch, fun es' he => ?_, fun l hl => ?_, h.cq, h.disp⟩
      · rcases mem_cons_set he with h3 | h3
        · exact h.got es' h3
        · cases h3
      · rcases mem_cons_set hl with h3 | h3
        · exact h.sending l h3
        · cases h3; exact Ended.outs h0
    | send i o l h1 => cases h.sending _ (List.mem_of_getElem? h1)
    | next i h1 =>
      refine ⟨h.queue, h.batch, fun es' he => ?_, fun l hl => ?_, h.cq, h.disp⟩
      · rcases mem_cons_set he with h3 | h3
        · exact h.got es' h3
        · cases h3
      · rcases mem_cons_set hl with h3 | h3
        · exact h.sending l h3
        · cases h3
  | send i o l h1 hc hok => cases h.sending _ (List.mem_of_getElem? h1)
  | rm p rest wd w l ht hc hf hl =>
    exact ⟨rfl, fun r' hr' => (List.mem_append.1 hr').elim (h.queue r') (fun h1 => hr r' h1), h.batch, h.got, h.sending, h.cq, h.disp⟩
  | _ => exact ⟨rfl, h.queue, h.batch, h.got, h.sending, h.cq, h.disp⟩

/-- **C109, Linux**: from any moment at which nothing is on its way, as long as the kernel reports nothing but that watches were ended, nothing is signalled,
whatever calls are made. -/
theorem C109_linux {cfg : Sched.Cfg} {st : Bool} {I : LSt → Prop} {s s' : LSt} {ops raws sg} (hq : s.Quiet) (h : LRun cfg st I s ops raws sg s')
    (hr : ∀ r ∈ raws, r.mask &&& Inotify.inIgnored ≠ 0) : sg = [] := by
  have key : sg = [] ∧ Still s' := by
    induction h with
    | refl => exact ⟨rfl, .quiet hq⟩
    | step h1 h2 _ ih =>
      obtain ⟨i1, i2⟩ := ih fun r h => hr r (List.mem_append_left _ h)
      obtain ⟨j1, j2⟩ := i2.step h2 fun r h => hr r (List.mem_append_right _ h)
      exact ⟨by rw [i1, j1]; rfl, j2⟩
  exact key.1

/-- The premises, for a Watch. -/
example : (LSt.init Ex.fs 2).Quiet ∧ LRun Ex.cfg true (fun _ => True) (LSt.init Ex.fs 2) [Ex.op1] [] [] Ex.s1 :=
  ⟨⟨⟨rfl, rfl, by decide⟩, rfl, rfl⟩, Ex.run1⟩
end Linux

/-! ### BSD -/
namespace Bsd

theorem Quiet.step {cfg : Sched.Cfg} {X : Outside} {s s' : KSt} {o k g} (h : s.Quiet) (hs : KStep cfg X s o k [] g s') : g = [] ∧ s'.Quiet := by
  obtain ⟨hp, hh, ho, hc, hd⟩ := h
  have hl : ∀ (w : Trg.St) (f : Path → Bool), ∀ q, live w (fun q => if f q then 0 else s.pend q) q = 0 := by
    intro w f q
    unfold live
    split
    · rfl
    · simp only [hp q, ite_self]
  cases hs with
  | go l sys' htr hl =>
    obtain ⟨h1, h2, h3⟩ := still_plain htr hl hc hd
    exact ⟨h1, hp, hh, ho, h2, h3⟩
  | wait p w h1 h2 h3 h4 => exact absurd (hp p) h3
  | process E fd p ge h1 h2 => rw [hh] at h2; cases h2
  | send ei l h1 => rw [ho] at h1; cases h1
  | plan => exact ⟨rfl, hp, hh, ho, hc, hd⟩
  | call E c ok rest w' h1 h2 h3 => exact ⟨rfl, hl w' (cuts E c), hh, ho, hc, hd⟩
  | effect => exact ⟨rfl, hp, hh, ho, hc, hd⟩
  | intEffect => exact ⟨rfl, hp, hh, ho, hc, hd⟩

/-- **C109, BSD**: from any moment at which nothing is on its way, while no file changes, nothing is signalled, whatever calls are made and whatever the OS
answers; and then nothing is on its way. -/
theorem C109_bsd {cfg : Sched.Cfg} {X : Outside} {s s' : KSt} {ops calls sg} (hq : s.Quiet) (h : KRun cfg X s ops calls [] sg s') :
    sg = [] ∧ s'.Quiet := by
  generalize hr : ([] : List (Path × Event)) = r at h
  induction h with
  | refl => exact ⟨rfl, hq⟩
  | step h1 h2 ih =>
    rw [eq_comm, List.append_eq_nil_iff] at hr
    obtain ⟨rfl, rfl⟩ := hr
    obtain ⟨i1, i2⟩ := ih rfl
    obtain ⟨j1, j2⟩ := Quiet.step i2 h2
    exact ⟨by rw [i1, j1]; rfl, j2⟩

/-- The premises, for a Watch. -/
example : KSt.init.Quiet ∧ KRun Ex.cfg (calm Trg.Ex.E7) KSt.init [Ex.op1] [(.watch Ex.e Ex.Wr, true)] [] [] Ex.s1 :=
  ⟨⟨fun _ => rfl, rfl, rfl, rfl, rfl⟩, Ex.run1⟩
end Bsd

/-! ### Windows -/
namespace Win

theorem queue_step {cfg : Sched.Cfg} {rel : Bool} {s s' : WSt} {o wo r g} (h : s.pk.map (·.1) = s.w.queue) (hs : WStep cfg rel s o wo r g s') :
    s'.pk.map (·.1) = s'.w.queue := by
  cases hs with
  | complete r l h1 hl => simp [Dcw.complete, h]
  | take g l pk' hl hp ho =>
    rw [hp, List.map_cons] at h
    simp only [Dcw.take, hl, ← h]
    split <;> rfl
  | again g ok hw ho =>
    show s.pk.map (·.1) = (Dcw.again s.w ok).queue
    rw [h]
    unfold Dcw.again
    rw [hw]
    exact ((Dcw.readDirChanges_same s.w g ok).2.2).symm
  | state g a0 a1 w' hw h1 => exact pk_more h (Dcw.loopstate_ext h1).2
  | watch => exact pk_more h (Dcw.watch_ext _ _ _ _ _ _).2
  | unwatch => exact pk_more h (Dcw.unwatch_ext _ _ _).2
  | rewatch c p old new f w' ok rest ho hc h1 ht => exact pk_more h (Dcw.rewatch_ext h1).2
  | leave => exact pk_more h (Dcw.unwatch_ext _ _ _).2
  | arrive => exact pk_more h (Dcw.watch_ext _ _ _ _ _ _).2
  | _ => exact h

/-- All packets are without records. -/
structure Still (s : WSt) : Prop where
  pk : ∀ y ∈ s.pk, y.2 = []
  out : s.out = []
  cq : s.sys.cq = []
  disp : s.sys.disp = []

theorem more_nil {pk : List (Nat × List Chg)} (h : ∀ y ∈ pk, y.2 = []) (w w' : Dcw.St) : ∀ y ∈ pk ++ more w w', y.2 = [] := by
  intro y hy
  rcases List.mem_append.1 hy with hy | hy
  · exact h y hy
  · unfold more at hy
    rw [List.mem_map] at hy
    obtain ⟨_, _, rfl⟩ := hy
    rfl

theorem Still.step {cfg : Sched.Cfg} {rel : Bool} {s s' : WSt} {o wo r g} (h : Still s) (hs : WStep cfg rel s o wo r g s') (hr : ∀ n ∈ r, n.2 = []) :
    g = [] ∧ Still s' := by
  cases hs with
  | go l sys' htr hl =>
    obtain ⟨h1, h2, h3⟩ := still_rec htr hl h.cq h.disp
    exact ⟨h1, h.pk, h.out, h2, h3⟩
  | complete r l h1 hl =>
    refine ⟨rfl, fun y hy => ?_, h.out, h.cq, h.disp⟩
    rcases List.mem_append.1 hy with hy | hy
    · exact h.pk y hy
    · rw [List.mem_singleton.1 hy]
      exact hr _ (List.mem_singleton.2 rfl)
  | take g l pk' hl hp ho =>
    have hl0 : l = [] := h.pk (g, l) (by rw [hp]; exact .head _)
    subst hl0
    refine ⟨rfl, fun y hy => h.pk y (by rw [hp]; exact .tail _ hy), ?_, h.cq, h.disp⟩
    simp [events]
  | send ei l h1 => rw [h.out] at h1; cases h1
  | again => exact ⟨rfl, h.pk, h.out, h.cq, h.disp⟩
  | plan => exact ⟨rfl, h.pk, h.out, h.cq, h.disp⟩
  | refuse => exact ⟨rfl, h.pk, h.out, h.cq, h.disp⟩
  | effect => exact ⟨rfl, h.pk, h.out, h.cq, h.disp⟩
  | _ => exact ⟨rfl, more_nil h.pk _ _, h.out, h.cq, h.disp⟩

/-- **C109, Windows**: from any moment of any execution at which nothing is on its way, while the kernel reports no change, nothing is signalled, whatever calls
are made. -/
theorem C109_windows {cfg : Sched.Cfg} {safe safe' : Bool} {pre pre' : List Rec.ROp} {wpre wpre' : List Dcw.Op} {s s' : WSt} {ops₀ wops₀ reps₀ sg₀ ops wops reps sg}
    (h₀ : WRun cfg safe pre wpre WSt.init ops₀ wops₀ reps₀ sg₀ s) (hq : s.Quiet) (h : WRun cfg safe' pre' wpre' s ops wops reps sg s')
    (hr : ∀ n ∈ reps, n.2 = []) : sg = [] := by
  have hpk : s.pk.map (·.1) = s.w.queue := by
    clear hq h
    induction h₀ with
    | refl => rfl
    | step h1 h2 _ ih => exact queue_step ih h2
  rw [hq.1, List.map_eq_nil_iff] at hpk
  have key : sg = [] ∧ Still s' := by
    clear h₀
    induction h with
    | refl => exact ⟨rfl, by rw [hpk]; simp, hq.2.2.1, hq.2.2.2.1, hq.2.2.2.2⟩
    | step h1 h2 _ ih =>
      obtain ⟨i1, i2⟩ := ih fun r h => hr r (List.mem_append_left _ h)
      obtain ⟨j1, j2⟩ := i2.step h2 fun r h => hr r (List.mem_append_right _ h)
      exact ⟨by rw [i1, j1]; rfl, j2⟩
  exact key.1

/-- The premises, for a Stop after a Watch. -/
example : WRun Ex.cfg true [] [] WSt.init [TwiceEx.op1] [.watch TwiceEx.a Ex.C true true] [] [] TwiceEx.sA ∧ TwiceEx.sA.Quiet ∧
    WRun Ex.cfg true [TwiceEx.op1] [.watch TwiceEx.a Ex.C true true] TwiceEx.sA [TwiceEx.op2] [.unwatch TwiceEx.a true] [] [] TwiceEx.sB :=
  ⟨TwiceEx.runA, ⟨rfl, rfl, rfl, rfl, rfl⟩, TwiceEx.runB⟩
end Win

/-! ### FSEvents -/
namespace Mac
open Fsevents (historyDone)

/-! #### The history -/

/-- What is handled of the reports, when `reps₀` were handled before. -/
structure Past (reps₀ reps : List (Nat × List Rep)) (s : MSt) : Prop where
  lt : ∀ k w p, (k, w, p) ∈ s.str.born → w < s.str.n
  uniq : ∀ k k' w p p', (k, w, p) ∈ s.str.born → (k', w, p') ∈ s.str.born → k = k'
  reg : ∀ k w, s.str.m.get? k = some w → ∃ p, (k, w, p) ∈ s.str.born
  born : ∀ b, s.cb = some b → ∃ p, (b.k, b.w, p) ∈ s.str.born
  idle : s.cb = none → ∀ k w p, (k, w, p) ∈ s.str.born → (s.heap w).flushed = true → Marked k (reps₀ ++ reps)
  runs : ∀ b, s.cb = some b → ∃ a batch l, reps = a ++ [(b.k, batch)] ∧ batch.filter (fun r => decide (r.flags &&& wrapped = 0)) = l ++ b.evs ∧
    ∀ k w p, (k, w, p) ∈ s.str.born → (s.heap w).flushed = true → Marked k (reps₀ ++ a ++ [(b.k, l)])

variable {reps₀ reps : List (Nat × List Rep)} {s s' : MSt}

theorem Past.init : Past [] [] MSt.init where
  lt := by intro k w p h; cases h
  uniq := by intro k k' w p p' h; cases h
  reg := by intro k w h; cases h
  born := by intro b h; cases h
  idle := by intro _ k w p h; cases h
  runs := by intro b h; cases h

theorem Past.rebase (h : Past reps₀ reps s) (hc : s.cb = none) : Past (reps₀ ++ reps) [] s :=
  ⟨h.lt, h.uniq, h.reg, h.born, by rw [List.append_nil]; exact h.idle, fun b hb => by rw [hc] at hb; cases hb⟩

theorem Marked.mono {k : Nat} {a b : List (Nat × List Rep)} (h : Marked k a) : Marked k (a ++ b) := by
  obtain ⟨x, h1, h2⟩ := h
  exact ⟨x, List.mem_append_left _ h1, h2⟩

/-- Steps that leave the callback and end no history. -/
theorem Past.still (h : Past reps₀ reps s) (hb : s'.str.born = s.str.born) (hn : s.str.n ≤ s'.str.n)
    (hm : ∀ k w, s'.str.m.get? k = some w → s.str.m.get? k = some w) (hf : ∀ w, (s'.heap w).flushed = true → (s.heap w).flushed = true ∨ s.str.n ≤ w)
    (hc : s'.cb = s.cb) : Past reps₀ reps s' := by
  have hf' : ∀ k w p, (k, w, p) ∈ s.str.born → (s'.heap w).flushed = true → (s.heap w).flushed = true := by
    intro k w p hk hw
    rcases hf w hw with h1 | h1
    · exact h1
    · have := h.lt k w p hk; omega
  refine ⟨?_, ?_, ?_, ?_, ?_, ?_⟩
  · rw [hb]; intro k w p hk; exact Nat.lt_of_lt_of_le (h.lt k w p hk) hn
  · rw [hb]; exact h.uniq
  · rw [hb]; intro k w hk; exact h.reg k w (hm k w hk)
  · rw [hb, hc]; exact h.born
  · rw [hb, hc]; intro h1 k w p hk hw; exact h.idle h1 k w p hk (hf' k w p hk hw)
  · rw [hb, hc]; intro b h1
    obtain ⟨a, batch, l, h2, h3, h4⟩ := h.runs b h1
    exact ⟨a, batch, l, h2, h3, fun k w p hk hw => h4 k w p hk (hf' k w p hk hw)⟩

/-- A new stream. -/
theorem Past.new (h : Past reps₀ reps s) {p : Path} {v : Fsevents.Watch} (x : Streams.Start) (hv : v.flushed = false)
    (hs : s'.str = (Streams.watch s.str p x).1) (hh : s'.heap = Mac.put s.heap s.str.n v) (hc : s'.cb = s.cb) : Past reps₀ reps s' := by
  have hf : ∀ w, (s'.heap w).flushed = true → (s.heap w).flushed = true ∧ w ≠ s.str.n := by
    intro w hw
    rw [hh] at hw
    unfold Mac.put at hw
    split at hw
    · rw [hv] at hw; cases hw
    · next hne => exact ⟨hw, hne⟩
  unfold Streams.watch at hs
  cases hg : s.str.table.get? p with
  | some y =>
    rw [hg] at hs
    replace hs : s'.str = s.str := hs
    exact h.still (by rw [hs]) (by rw [hs]; exact Nat.le_refl _) (by rw [hs]; exact fun _ _ h => h) (fun w hw => .inl (hf w hw).1) hc
  | none =>
    rw [hg] at hs
    have hb : s'.str.born = (s.str.i + 1, s.str.n, p) :: s.str.born := by rw [hs]; cases x <;> rfl
    have hn : s'.str.n = s.str.n + 1 := by rw [hs]; cases x <;> rfl
    have hm : s'.str.m = s.str.m.set (s.str.i + 1) s.str.n := by rw [hs]; cases x <;> rfl
    have old : ∀ k w q, (k, w, q) ∈ s'.str.born → (s'.heap w).flushed = true → (k, w, q) ∈ s.str.born ∧ (s.heap w).flushed = true := by
      intro k w q hk hw
      obtain ⟨h1, h2⟩ := hf w hw
      rw [hb] at hk
      rcases List.mem_cons.1 hk with hk | hk
      · cases hk; exact absurd rfl h2
      · exact ⟨hk, h1⟩
    refine ⟨?_, ?_, ?_, ?_, ?_, ?_⟩
    · intro k w q hk
      rw [hn]
      rw [hb] at hk
      rcases List.mem_cons.1 hk with hk | hk
      · cases hk; omega
      · have := h.lt k w q hk; omega
    · intro k k' w q q' hk hk'
      rw [hb] at hk hk'
      rcases List.mem_cons.1 hk with hk | hk <;> rcases List.mem_cons.1 hk' with hk' | hk'
      · cases hk; cases hk'; rfl
      · cases hk; have := h.lt _ _ _ hk'; omega
      · cases hk'; have := h.lt _ _ _ hk; omega
      · exact h.uniq k k' w q q' hk hk'
    · intro k w hk
      rw [hm, GoMap.get?_set] at hk
      rw [hb]
      split at hk
      · next he => cases hk; exact ⟨p, by rw [← he]; exact List.mem_cons_self ..⟩
      · obtain ⟨q, hq⟩ := h.reg k w hk
        exact ⟨q, List.mem_cons_of_mem _ hq⟩
    · rw [hc, hb]
      intro b h1
      obtain ⟨q, hq⟩ := h.born b h1
      exact ⟨q, List.mem_cons_of_mem _ hq⟩
    · rw [hc]
      intro h1 k w q hk hw
      obtain ⟨h2, h3⟩ := old k w q hk hw
      exact h.idle h1 k w q h2 h3
    · rw [hc]
      intro b h1
      obtain ⟨a, batch, l, h2, h3, h4⟩ := h.runs b h1
      refine ⟨a, batch, l, h2, h3, fun k w q hk hw => ?_⟩
      obtain ⟨h5, h6⟩ := old k w q hk hw
      exact h4 k w q h5 h6

theorem Past.step {cfg : Sched.Cfg} {rel : Bool} {o r g} (h : Past reps₀ reps s) (hs : MStep cfg rel s o r g s') : Past reps₀ (reps ++ r) s' := by
  have hput : ∀ (n : Nat) (v : Fsevents.Watch), v.flushed = (s.heap n).flushed → ∀ w, (Mac.put s.heap n v w).flushed = true → (s.heap w).flushed = true ∨ s.str.n ≤ w := by
    intro n v hv w hw
    unfold Mac.put at hw
    split at hw
    · next he => rw [he, ← hv]; exact .inl hw
    · exact .inl hw
  have hun : ∀ p k w, (Streams.unwatch s.str p).1.m.get? k = some w → s.str.m.get? k = some w := by
    intro p k w hk
    unfold Streams.unwatch at hk
    cases hg : s.str.table.get? p with
    | none => rw [hg] at hk; exact hk
    | some y =>
      rw [hg] at hk
      simp only [Streams.stopStream, GoMap.get?_del] at hk
      split at hk
      · cases hk
      · exact hk
  have hub : ∀ p, (Streams.unwatch s.str p).1.born = s.str.born ∧ (Streams.unwatch s.str p).1.n = s.str.n := by
    intro p
    unfold Streams.unwatch
    cases hg : s.str.table.get? p <;> exact ⟨rfl, rfl⟩
  cases hs with
  | report k w p batch hk hb hc =>
    have ht : (Streams.take s.str k).born = s.str.born ∧ (Streams.take s.str k).n = s.str.n ∧ (Streams.take s.str k).m = s.str.m := by
      unfold Streams.take; split <;> exact ⟨rfl, rfl, rfl⟩
    refine ⟨?_, ?_, ?_, ?_, ?_, ?_⟩
    · simp only [ht.1, ht.2.1]; exact h.lt
    · simp only [ht.1]; exact h.uniq
    · simp only [ht.1, ht.2.2]; exact h.reg
    · simp only [ht.1, enter, Option.map_eq_some_iff]
      rintro b ⟨w', h1, rfl⟩
      exact h.reg k w' h1
    · simp only [ht.1]
      intro _ k' w' p' hk' hw'
      rw [← List.append_assoc]
      exact (h.idle hc k' w' p' hk' hw').mono
    · simp only [ht.1, enter, Option.map_eq_some_iff]
      rintro b ⟨w', h1, rfl⟩
      refine ⟨reps, batch, [], rfl, rfl, fun k' w'' p' hk' hw' => ?_⟩
      exact (h.idle hc k' w'' p' hk' hw').mono
  | loadEvents b hc hb =>
    rw [List.append_nil]
    refine ⟨h.lt, h.uniq, h.reg, ?_, ?_, ?_⟩
    · rintro b' ⟨⟩; exact h.born b hc
    · intro h1; cases h1
    · rintro b' ⟨⟩; exact h.runs b hc
  | loadRec b e hc he hb =>
    rw [List.append_nil]
    refine ⟨h.lt, h.uniq, h.reg, ?_, ?_, ?_⟩
    · rintro b' ⟨⟩; exact h.born b hc
    · intro h1; cases h1
    · rintro b' ⟨⟩; exact h.runs b hc
  | send b o l hc ho hq =>
    rw [List.append_nil]
    refine ⟨h.lt, h.uniq, h.reg, ?_, ?_, ?_⟩
    · rintro b' ⟨⟩; exact h.born b hc
    · intro h1; cases h1
    · rintro b' ⟨⟩; exact h.runs b hc
  | next b e f y l hc he hf hl ho =>
    rw [List.append_nil]
    refine ⟨h.lt, h.uniq, h.reg, ?_, ?_, ?_⟩
    · rintro b' ⟨⟩; exact h.born b hc
    · intro h1; cases h1
    · rintro b' ⟨⟩
      obtain ⟨a, batch, l', h1, h2, h3⟩ := h.runs b hc
      obtain ⟨pb, hpb⟩ := h.born b hc
      refine ⟨a, batch, l' ++ [y], h1, by rw [h2, hl]; simp, fun k w p hk hw => ?_⟩
      simp only [Mac.put] at hw
      have hy : y.flags &&& wrapped = 0 := by
        have : y ∈ batch.filter (fun r => decide (r.flags &&& wrapped = 0)) := by rw [h2, hl]; simp
        simpa using (List.mem_filter.1 this).2
      have old : (s.heap w).flushed = true → Marked k (reps₀ ++ a ++ [(b.k, l' ++ [y])]) := by
        intro hw
        obtain ⟨x, x1, z, z1, z2⟩ := h3 k w p hk hw
        rcases List.mem_append.1 x1 with x1 | x1
        · exact ⟨x, List.mem_append_left _ x1, z, z1, z2⟩
        · simp only [List.mem_singleton, Prod.mk.injEq] at x1
          obtain ⟨rfl, rfl⟩ := x1
          exact ⟨_, List.mem_append_right _ (List.mem_singleton.2 rfl), z, List.mem_append_left _ z1, z2⟩
      split at hw
      · next he =>
        subst he
        rcases handle_flushed.1 hw with hw | hw
        · exact old hw
        · have := h.uniq _ _ _ _ _ hk hpb
          subst this
          exact ⟨_, List.mem_append_right _ (List.mem_singleton.2 rfl), y, by simp, hw, hy⟩
      · exact old hw
  | done b e f hc he hf hl ho =>
    rw [List.append_nil]
    refine ⟨h.lt, h.uniq, h.reg, ?_, ?_, ?_⟩
    · rintro b' ⟨⟩
    · intro _ k w p hk hw
      obtain ⟨a, batch, l', h1, h2, h3⟩ := h.runs b hc
      obtain ⟨x, x1, z, z1, z2⟩ := h3 k w p hk hw
      rcases List.mem_append.1 x1 with x1 | x1
      · exact ⟨x, by rw [h1, ← List.append_assoc]; exact List.mem_append_left _ x1, z, z1, z2⟩
      · simp only [List.mem_singleton, Prod.mk.injEq] at x1
        obtain ⟨rfl, rfl⟩ := x1
        rw [hl, List.append_nil] at h2
        rw [← h2] at z1
        exact ⟨batch, by rw [h1]; simp, z, (List.mem_filter.1 z1).1, z2⟩
    · rintro b' ⟨⟩
  | watch c p e f x rest ho hc ht => rw [List.append_nil]; exact h.new x (v := { path := PathStr.str p, events := e, isrec := f }) rfl rfl rfl rfl
  | arrive p e x hc => rw [List.append_nil]; exact h.new x (v := { path := PathStr.str p, events := e, isrec := true }) rfl rfl rfl rfl
  | unwatch c p rest ho hc ht => rw [List.append_nil]; exact h.still (hub p).1 (Nat.le_of_eq (hub p).2.symm) (hun p) (fun _ hw => .inl hw) rfl
  | leave p p' old new ok rest hp hc ht hn hu =>
    rw [List.append_nil]; exact h.still (hub p).1 (Nat.le_of_eq (hub p).2.symm) (hun p) (fun _ hw => .inl hw) rfl
  | swap c p old new f w k rest ho hc ht hw he =>
    rw [List.append_nil]; exact h.still rfl (Nat.le_refl _) (fun _ _ h => h) (hput w { s.heap w with events := new } rfl) rfl
  | store w f hc => rw [List.append_nil]; exact h.still rfl (Nat.le_refl _) (fun _ _ h => h) (hput w { s.heap w with isrec := f } rfl) rfl
  | mark p e w k rest hc ht hw => rw [List.append_nil]; exact h.still rfl (Nat.le_refl _) (fun _ _ h => h) (hput w { s.heap w with isrec := true } rfl) rfl
  | go l sys' htr hl => rw [List.append_nil]; exact h.still rfl (Nat.le_refl _) (fun _ _ h => h) (fun _ hw => .inl hw) rfl
  | plan r ops' t new i hr hp ht hn => rw [List.append_nil]; exact h.still rfl (Nat.le_refl _) (fun _ _ h => h) (fun _ hw => .inl hw) rfl
  | refuse c rest ht hc hf => rw [List.append_nil]; exact h.still rfl (Nat.le_refl _) (fun _ _ h => h) (fun _ hw => .inl hw) rfl
  | effect i r a b t hcalls hp ht hc => rw [List.append_nil]; exact h.still rfl (Nat.le_refl _) (fun _ _ h => h) (fun _ hw => .inl hw) rfl

theorem Past.run {cfg : Sched.Cfg} {safe : Bool} {pre : List Rec.ROp} {ops sg} (h : Past reps₀ [] s) (hr : MRun cfg safe pre s ops reps sg s') : Past reps₀ reps s' := by
  induction hr with
  | refl => exact h
  | step h1 h2 _ ih => exact ih.step h2

/-- The change that is reported for the stream `k` after the reports `before` tells of nothing new: it is of the time before the stream, or a marker. -/
def Old (before : List (Nat × List Rep)) (k : Nat) (y : Rep) : Prop :=
  y.flags &&& historyDone ≠ 0 ∨ y.flags &&& wrapped ≠ 0 ∨ ¬ Marked k before

/-- Nothing is on its way but reports of old changes. -/
structure Still (s : MSt) : Prop where
  cb : ∀ b, s.cb = some b → b.out = []
  cq : s.sys.cq = []
  disp : s.sys.disp = []

theorem handle_early {w : Fsevents.Watch} {e : Event} {f : Bool} {r : Rep} (h : w.flushed = false) : (handle w e f r).2 = [] := by
  unfold handle Fsevents.Watch.dispatch1
  by_cases h1 : r.flags &&& historyDone ≠ 0
  · rw [if_pos h1]; rfl
  · rw [if_neg h1, if_pos h]; rfl

theorem Still.step {cfg : Sched.Cfg} {rel : Bool} {o r g} (h : Still s) (hp : Past reps₀ reps s) (hs : MStep cfg rel s o r g s')
    (hr : ∀ a k b₁ y b₂ c, reps = a ++ (k, b₁ ++ y :: b₂) :: c → Old (reps₀ ++ a ++ [(k, b₁)]) k y) : g = [] ∧ Still s' := by
  cases hs with
  | go l sys' htr hl =>
    obtain ⟨h1, h2, h3⟩ := still_rec htr hl h.cq h.disp
    exact ⟨h1, h.cb, h2, h3⟩
  | report k w p batch hk hb hc =>
    refine ⟨rfl, fun b hb => ?_, h.cq, h.disp⟩
    simp only [enter, Option.map_eq_some_iff] at hb
    obtain ⟨w', _, rfl⟩ := hb
    rfl
  | loadEvents b hc hb =>
    refine ⟨rfl, fun b' hb' => ?_, h.cq, h.disp⟩
    cases hb'; exact h.cb b hc
  | loadRec b e hc he hb =>
    refine ⟨rfl, fun b' hb' => ?_, h.cq, h.disp⟩
    cases hb'; exact h.cb b hc
  | next b e f y l hc he hf hl ho =>
    refine ⟨rfl, fun b' hb' => ?_, h.cq, h.disp⟩
    cases hb'
    show (handle (s.heap b.w) e f y).2 = []
    obtain ⟨a, batch, l', h1, h2, h3⟩ := hp.runs b hc
    obtain ⟨p, hpb⟩ := hp.born b hc
    rw [hl] at h2
    obtain ⟨b₁, b₂, rfl, h4, h5⟩ := List.filter_eq_append_iff.1 h2
    obtain ⟨c₁, c₂, rfl, h6, h7, h8⟩ := List.filter_eq_cons_iff.1 h5
    rcases hr a b.k (b₁ ++ c₁) y c₂ [] (by rw [h1]; simp) with h9 | h9 | h9
    · exact (handle_done h9).1
    · exact absurd (of_decide_eq_true h7) h9
    · cases hfl : (s.heap b.w).flushed with
      | false => exact handle_early hfl
      | true =>
        exfalso
        apply h9
        obtain ⟨x, x1, z, z1, z2⟩ := h3 _ _ _ hpb hfl
        rcases List.mem_append.1 x1 with x1 | x1
        · exact ⟨x, List.mem_append_left _ x1, z, z1, z2⟩
        · simp only [List.mem_singleton, Prod.mk.injEq] at x1
          obtain ⟨_, rfl⟩ := x1
          rw [← h4] at z1
          exact ⟨_, List.mem_append_right _ (List.mem_singleton.2 rfl), z, List.mem_append_left _ (List.mem_filter.1 z1).1, z2⟩
  | send b o l hc ho hq => rw [h.cb b hc] at ho; cases ho
  | done b e f hc he hf hl ho => exact ⟨rfl, (fun b' hb' => by cases hb'), h.cq, h.disp⟩
  | _ => exact ⟨rfl, h.cb, h.cq, h.disp⟩

/-- **C109, FSEvents**: from any moment of any execution at which nothing is on its way, as long as FSEvents reports nothing but markers and, for streams
whose history is not over, old changes, nothing is signalled, whatever calls are made. -/
theorem C109_mac {cfg : Sched.Cfg} {safe safe' : Bool} {pre pre' : List Rec.ROp} {ops₀ sg₀ ops sg} (h₀ : MRun cfg safe pre MSt.init ops₀ reps₀ sg₀ s)
    (hq : s.Quiet) (h : MRun cfg safe' pre' s ops reps sg s')
    (hr : ∀ a k b₁ y b₂ c, reps = a ++ (k, b₁ ++ y :: b₂) :: c → Old (reps₀ ++ a ++ [(k, b₁)]) k y) : sg = [] := by
  have hp : Past reps₀ [] s := by
    have := (Past.init.run h₀).rebase hq.1
    simpa using this
  have key : sg = [] ∧ Still s' := by
    induction h with
    | refl => exact ⟨rfl, (fun b hb => by rw [hq.1] at hb; cases hb), hq.2.1, hq.2.2⟩
    | step h1 h2 _ ih =>
      obtain ⟨i1, i2⟩ := ih fun a k b₁ y b₂ c he => hr a k b₁ y b₂ (c ++ _) (by rw [he, List.append_assoc]; rfl)
      obtain ⟨j1, j2⟩ := i2.step (hp.run h1) h2 fun a k b₁ y b₂ c he => hr a k b₁ y b₂ (c ++ _) (by rw [he, List.append_assoc]; rfl)
      exact ⟨by rw [i1, j1]; rfl, j2⟩
  exact key.1

/-- The premises, for a Watch after which the history of the stream ends. -/
example : ∃ s, MRun Ex.cfg true [] MSt.init [Ex.op1] [(1, [Ex.mk])] [] s ∧ MSt.init.Quiet ∧ Old ([] ++ [] ++ [(1, [])]) 1 Ex.mk ∧
    Old ([] ++ [] ++ [(1, [])]) 1 Ex.r1 ∧ ¬ Old ([(1, [Ex.mk])] ++ [(1, [])]) 1 Ex.r1 :=
  ⟨_, Ex.run1, ⟨rfl, rfl, rfl⟩, .inl (by decide), .inr (.inr (by
    rintro ⟨b, h, r, h1, _⟩
    simp only [List.append_nil, List.nil_append, List.mem_singleton, Prod.mk.injEq] at h
    obtain ⟨_, rfl⟩ := h
    cases h1)), by
    rintro (h | h | h)
    · exact h (by decide)
    · exact h (by decide)
    · exact h ⟨_, List.mem_append_left _ (List.mem_singleton.2 rfl), Ex.mk, List.mem_singleton.2 rfl, by decide, by decide⟩⟩
end Mac

/-! ### Solaris -/
namespace Fen
open Trg (fen Env Res Mode W Ev)

/-- The kernel has nothing to report, and files with an entry have the times that were kept. -/
structure Fresh (t : Trg.St) (k : Kern) : Prop where
  queue : k.queue = []
  since : ∀ q, t.lkp.get? q ≠ none → k.since q = 0

/-- After the recorded calls. -/
def Fr (k : Kern) (s : Rec) : Prop := Fresh s.t (s.n.foldl Kern.call k)

section
variable {E : Env} {k : Kern} {s : Rec} {p : Path} {e : Event}

theorem Fr.singlewatch (h : Fr k s) (p : Path) (e : Event) (m : Mode) (d : Bool) : Fr k (singlewatch E s p e m d).1 := by
  unfold Fr at *
  simp only [Fen.singlewatch, List.foldl_append]
  generalize List.foldl Kern.call k s.n = k' at *
  unfold swCalls Trg.singlewatch
  cases hg : s.t.lkp.get? p with
  | none =>
    simp only
    cases E.opn p with
    | ok =>
      simp only [List.foldl_cons, List.foldl_nil, Kern.call]
      split
      · refine ⟨h.queue, fun q hq => ?_⟩
        simp only [GoMap.get?_set] at hq ⊢
        split
        · rfl
        · rename_i hqp
          rw [if_neg fun h => hqp h.symm] at hq
          exact h.since q hq
      · refine ⟨h.queue, fun q hq => ?_⟩
        simp only at hq ⊢
        split
        · rfl
        · exact h.since q hq
    | skip => exact h
    | err x => exact h
  | some w =>
    simp only [List.foldl_cons, List.foldl_nil, Kern.call]
    have key : ∀ q, (s.t.lkp.set p (w.add m e)).get? q ≠ none → k'.since q = 0 := by
      intro q hq
      rw [GoMap.get?_set] at hq
      by_cases hpq : p = q
      · subst hpq; exact h.since p (by rw [hg]; simp)
      · rw [if_neg hpq] at hq; exact h.since q hq
    split <;> exact ⟨h.queue, key⟩

theorem Fr.singleunwatch (h : Fr k s) (p : Path) (m : Mode) : Fr k (singleunwatch E s p m).1 := by
  unfold Fr at *
  simp only [Fen.singleunwatch, List.foldl_append]
  generalize List.foldl Kern.call k s.n = k' at *
  unfold suCalls Trg.singleunwatch
  cases hg : s.t.lkp.get? p with
  | none => exact h
  | some w =>
    have h0 : k'.since p = 0 := h.since p (by rw [hg]; simp)
    have key : ∀ (w : W) q, (s.t.lkp.set p w).get? q ≠ none → k'.since q = 0 := by
      intro w q hq
      rw [GoMap.get?_set] at hq
      by_cases hpq : p = q
      · subst hpq; exact h0
      · rw [if_neg hpq] at hq; exact h.since q hq
    have hd1 : (k'.call (.dissoc p)).queue = [] := by
      simp only [Kern.call]
      split
      · exact h.queue
      · simp [h.queue]
    have hd2 : (k'.call (.dissoc p)).since = k'.since := by
      simp only [Kern.call]
      split <;> rfl
    simp only [List.foldl_cons]
    generalize k'.call (.dissoc p) = k2 at *
    by_cases hu : E.unreg p = true
    · simp only [hu, true_and, if_true]
      by_cases hz : (w.sub m).eNonDir ||| (w.sub m).eDir = 0
      · rw [if_neg (fun h => h hz), if_neg (fun h => h hz)]
        refine ⟨hd1, fun q hq => ?_⟩
        rw [List.foldl_nil, hd2]
        simp only [Trg.del, GoMap.get?_del, GoMap.get?_set] at hq
        by_cases hpq : p = q
        · subst hpq; exact h0
        · rw [if_neg hpq, if_neg hpq] at hq; exact h.since q hq
      · rw [if_pos hz, if_pos hz]
        simp only [List.foldl_cons, List.foldl_nil, Kern.call, hd2, h0]
        have hand0 : ∀ x : Event, (0 : Event) &&& x = 0 := fun x => BitVec.zero_and
        rw [hand0]
        unfold Trg.singlewatch
        simp only [GoMap.get?_set, if_true]
        refine ⟨?_, fun q hq => ?_⟩
        · simp [hd1]
        · refine key ((w.sub m).add (if (w.sub m).eNonDir ≠ 0 then .ndir else .dir) ((w.sub m).eNonDir ||| (w.sub m).eDir)) q ?_
          intro h1
          apply hq
          rw [GoMap.get?_set] at h1
          by_cases hpq : p = q
          · rw [if_pos hpq] at h1; cases h1
          · rw [if_neg hpq] at h1
            split <;> (rename_i heq; split at heq <;> cases heq <;> simp [GoMap.get?_set, hpq, h1])
    · simp only [hu, Bool.false_eq_true, false_and, if_false, List.foldl_nil]
      exact ⟨hd1, fun q hq => by rw [hd2]; exact key _ q hq⟩

theorem Fr.watchKid (h : Fr k s) (y : Comp × Bool) : Fr k (watchKid E p e s y).1 := by
  have := h.singlewatch (E := E) (Trg.join p y.1) e .ndir y.2
  unfold Fen.watchKid
  split
  · rename_i heq; rw [heq] at this; exact this
  · exact this

theorem Fr.watch (h : Fr k s) (p : Path) (e : Event) (d : Bool) : Fr k (watch E s p e d).1 := by
  have h1 := h.singlewatch (E := E) p e .dir d
  unfold Fen.watch
  split
  · rename_i heq; rw [heq] at h1; exact h1
  · rename_i heq; rw [heq] at h1; exact h1
  · rename_i heq
    rw [heq] at h1
    split
    · exact walk_inv (fun s y h => h.watchKid y) h1
    · exact h1

theorem Fr.unwatchKid (h : Fr k s) (y : Comp × Bool) : Fr k (unwatchKid E p s y).1 := by
  have := h.singleunwatch (E := E) (Trg.join p y.1) .ndir
  unfold Fen.unwatchKid
  split
  · rename_i heq; rw [heq] at this; exact this
  · exact this

theorem Fr.unwatch (h : Fr k s) (p : Path) (d : Bool) : Fr k (unwatch E s p d).1 := by
  unfold Fen.unwatch
  split
  · have h1 : Fr k (Trg.walk E p (Fen.unwatchKid E p) s).1 := walk_inv (fun s y h => h.unwatchKid y) h
    split
    · rename_i heq
      rw [heq] at h1
      exact h1.singleunwatch _ _
    · exact h1
  · exact h.singleunwatch _ _

theorem Fr.serves (h : Fr k s) {c : Verif.Call} {ok : Bool} {s' : Rec} (hs : Serves E s c ok s') : Fr k s' := by
  cases hs with
  | watch p e hsk =>
    unfold Fen.Watch
    split
    · exact h
    · exact h.watch _ _ _
  | rewatch p old new hsk =>
    unfold Fen.Rewatch
    split
    · exact h
    · rename_i d _
      have h1 := h.unwatch (E := E) p d
      split
      · rename_i heq
        rw [heq] at h1
        exact h1.watch _ _ _
      · rename_i heq
        rw [heq] at h1
        exact h1
  | unwatch p hsk =>
    unfold Fen.Unwatch
    split
    · exact h
    · exact h.unwatch _ _

/-! Calls of Watch never make an association with kept times. -/

/-- The call makes no association with kept times. -/
def New : NCall → Prop
  | .reassoc _ _ _ => False
  | _ => True

theorem New.calls : ∀ (l : List NCall) {k : Kern}, (∀ c ∈ l, New c) → k.queue = [] → (l.foldl Kern.call k).queue = []
  | [], _, _, h => h
  | c :: l, k, hl, h => by
    refine New.calls l (fun c h => hl c (.tail _ h)) ?_
    rw [List.eq_nil_iff_forall_not_mem]
    intro y hy
    rcases call_queue k c hy with h1 | ⟨p, m, rfl, _⟩
    · rw [h] at h1; cases h1
    · exact hl _ (.head _)

/-- All recorded calls are such. -/
def AllNew (s : Rec) : Prop := ∀ c ∈ s.n, New c

theorem AllNew.singlewatch (h : AllNew s) (p : Path) (e : Event) (m : Mode) (d : Bool) : AllNew (singlewatch E s p e m d).1 := by
  intro c hc
  rcases List.mem_append.1 hc with hc | hc
  · exact h c hc
  · have : ∀ c ∈ swCalls E s.t p e m d, New c := by
      unfold swCalls
      split
      · split <;> simp [New]
      · simp [New]
    exact this c hc

theorem AllNew.Watch (h : AllNew s) (p : Path) (e : Event) : AllNew (Watch E s p e).1 := by
  unfold Fen.Watch
  split
  · exact h
  · rename_i d _
    have h1 := h.singlewatch (E := E) p e .dir d
    unfold Fen.watch
    split
    · rename_i heq; rw [heq] at h1; exact h1
    · rename_i heq; rw [heq] at h1; exact h1
    · rename_i heq
      rw [heq] at h1
      split
      · refine walk_inv (R := AllNew) (fun s y h => ?_) h1
        have := h.singlewatch (E := E) (Trg.join p y.1) e .ndir y.2
        unfold Fen.watchKid
        split
        · rename_i heq; rw [heq] at this; exact this
        · exact this
      · exact h1

end

section
variable {cfg : Sched.Cfg} {X : Outside} {s s' : FSt}

/-- Steps other than calls of the watcher keep the peace; a call does if the kernel has nothing to report after it. -/
theorem Quiet.step {o k g} (h : s.Quiet) (hs : FStep cfg X s o k [] g s') (hk : k ≠ [] → s'.kern.queue = []) :
    g = [] ∧ s'.Quiet ∧ (k = [] → s'.w = s.w ∧ s'.kern = s.kern) := by
  obtain ⟨hp, hh, ho, hc, hd⟩ := h
  cases hs with
  | go l sys' htr hl =>
    obtain ⟨h1, h2, h3⟩ := still_plain htr hl hc hd
    exact ⟨h1, ⟨hp, hh, ho, h2, h3⟩, fun _ => ⟨rfl, rfl⟩⟩
  | wait p a fl h1 h2 h3 => rw [hp] at h3; cases h3
  | process E p ge h1 h2 => rw [hh] at h2; cases h2
  | send ei l h1 => rw [ho] at h1; cases h1
  | plan => exact ⟨rfl, ⟨hp, hh, ho, hc, hd⟩, fun _ => ⟨rfl, rfl⟩⟩
  | call E c ok rest w' h1 h2 h3 => exact ⟨rfl, ⟨hk (by simp), hh, ho, hc, hd⟩, fun h => by cases h⟩
  | effect => exact ⟨rfl, ⟨hp, hh, ho, hc, hd⟩, fun _ => ⟨rfl, rfl⟩⟩
  | intEffect => exact ⟨rfl, ⟨hp, hh, ho, hc, hd⟩, fun _ => ⟨rfl, rfl⟩⟩

theorem Quiet.run {ops calls sg} (hq : s.Quiet) (hf : Fresh s.w s.kern) (h : FRun cfg X s ops calls [] sg s') :
    sg = [] ∧ s'.Quiet ∧ Fresh s'.w s'.kern := by
  generalize hr : ([] : List (Path × Event)) = r at h
  induction h with
  | refl => exact ⟨rfl, hq, hf⟩
  | @step _ _ _ _ _ _ _ _ s1 s2 h1 h2 ih =>
    rw [eq_comm, List.append_eq_nil_iff] at hr
    obtain ⟨rfl, rfl⟩ := hr
    obtain ⟨i1, i2, i3⟩ := ih rfl
    have i4 : ∀ E c ok rest w', s1.todo = (c, ok) :: rest → Serves E ⟨s1.w, []⟩ c ok w' → Fresh w'.t (w'.n.foldl Kern.call s1.kern) :=
      fun E c ok rest w' _ hs => Fr.serves (k := s1.kern) (s := ⟨s1.w, []⟩) i3 hs
    have i5 : Fresh s2.w s2.kern := by
      cases h2 with
      | wait p a fl h1 h2 h3 => rw [i2.1] at h3; cases h3
      | process E p ge h1 h2 => rw [i2.2.1] at h2; cases h2
      | call E c ok rest w' h1 h2 h3 => exact i4 E c ok rest w' h2 h3
      | _ => exact i3
    obtain ⟨j1, j2, _⟩ := Quiet.step i2 h2 fun _ => i5.queue
    exact ⟨by rw [i1, j1]; rfl, j2, i5⟩

theorem calls_since0 {q : Path} : ∀ (l : List NCall) {k : Kern}, k.since q = 0 → (l.foldl Kern.call k).since q = 0
  | [], _, h => h
  | c :: l, k, h => by
    refine calls_since0 l ?_
    unfold Kern.call
    split
    · exact h
    · split <;> exact h
    · exact h
    · simp only
      split
      · rfl
      · exact h

/-- Only changes make times differ. -/
theorem since_run {ops calls chgs sg} (h : FRun cfg X FSt.init ops calls chgs sg s) {q : Path} (hq : ∀ y ∈ chgs, y.1 ≠ q) : s.kern.since q = 0 := by
  induction h with
  | refl => rfl
  | step h1 h2 ih =>
    have ih := ih fun y hy => hq y (List.mem_append_left _ hy)
    cases h2 with
    | change p fl hx =>
      have : p ≠ q := hq (p, fl) (by simp)
      simp only [Kern.change]
      rw [if_neg (Ne.symm this)]
      exact ih
    | process E p ge hx hh => exact calls_since0 _ ih
    | call E c ok rest w' hx ht hs => exact calls_since0 _ ih
    | _ => exact ih

/-- The full statement, which is false of the code (`C109_solaris_refuted`). -/
def C109_solaris_full : Prop := ∀ (cfg : Sched.Cfg) (E : Env) (ops₀ ops : List NonRec.Op) (calls₀ calls : List (Verif.Call × Bool)) (chgs₀ : List (Path × Event))
  (sg₀ sg : List (Key × EventInfo)) (s s' : FSt), Trg.Steady E → FRun cfg (calm E) FSt.init ops₀ calls₀ chgs₀ sg₀ s → s.Quiet →
  FRun cfg (calm E) s ops calls [] sg s' → sg = []

/-- **C109, Solaris, partial**: at a moment at which nothing is on its way, let no file that has ever changed be watched.  From then on, while no file changes,
nothing is signalled, whatever calls are made and whatever the OS answers.  Missing: watched files that changed, see `C109_solaris_refuted`. -/
theorem C109_solaris_partial {ops₀ calls₀ chgs₀ sg₀ ops calls sg} (h₀ : FRun cfg X FSt.init ops₀ calls₀ chgs₀ sg₀ s) (hq : s.Quiet)
    (hc : ∀ y ∈ chgs₀, s.w.lkp.get? y.1 = none) (h : FRun cfg X s ops calls [] sg s') : sg = [] ∧ s'.Quiet := by
  obtain ⟨h1, h2, _⟩ := Quiet.run hq ⟨hq.1, fun q hw => since_run h₀ fun y hy he => hw (by rw [← he]; exact hc y hy)⟩ h
  exact ⟨h1, h2⟩

/-- **C109, Solaris, for Watch**: from any moment at which nothing is on its way, while no file changes and the tree asks the watcher only to watch more paths,
nothing is signalled. -/
theorem C109_watch_partial {ops calls sg} (hq : s.Quiet) (h : FRun cfg X s ops calls [] sg s') (hw : ∀ y ∈ calls, ∃ p e, y.1 = .watch p e) :
    sg = [] ∧ s'.Quiet := by
  generalize hr : ([] : List (Path × Event)) = r at h
  induction h with
  | refl => exact ⟨rfl, hq⟩
  | step h1 h2 ih =>
    rw [eq_comm, List.append_eq_nil_iff] at hr
    obtain ⟨rfl, rfl⟩ := hr
    obtain ⟨i1, i2⟩ := ih (fun y hy => hw y (List.mem_append_left _ hy)) rfl
    obtain ⟨j1, j2, _⟩ := Quiet.step i2 h2 fun hk => by
      cases h2 with
      | call E c ok rest w' hx ht hs =>
        obtain ⟨p, e, hc⟩ := hw (c, ok) (by simp)
        simp only at hc
        subst hc
        cases hs with
        | watch p e hsk => exact New.calls _ (AllNew.Watch (s := ⟨_, []⟩) (fun c hc => by cases hc) p e) i2.1
      | _ => exact absurd rfl hk
    exact ⟨by rw [i1, j1]; rfl, j2⟩

end

/-! ### C109 is false on Solaris -/

namespace StopEx
open Ex
open NonRec (Op)
open Trg.Ex (E7 kd ke kf steady7)

def reqA : Sched.Req := .watch e false 2 Re
def opA : Op := .watch e false 2 Re true
def tA : St := (NonRec.watchOp P .ok (.dir .nil) NonRec.init e false 2 Re).1
def reqB : Sched.Req := .watch x false 1 Wr
def opB : Op := .watch x false 1 Wr true
def tB : St := (NonRec.watchOp P .ok (.dir .nil) tA x false 1 Wr).1
def tC : St := NonRec.stop P .ok tB 2

theorem stepA : NonRec.Step P true NonRec.init opA tA :=
  NonRec.Step.watch (O := .ok) goodE uR (by simp [DirTree.Named, Entries.Named]) (fun _ _ => rfl)
theorem stepB : NonRec.Step P true tA opB tB :=
  NonRec.Step.watch (O := .ok) goodX uW (by simp [DirTree.Named, Entries.Named]) (fun _ _ => rfl)
theorem stepC : NonRec.Step P true tB (.stop 2) tC := NonRec.Step.stop (fun _ => rfl)

theorem sendsB : NonRec.sends P tB.root ei = [.user 1] := by decide
theorem sendsC : NonRec.sends P tC.root ei = [.user 1] := by decide

theorem start {s : FSt} {ops chgs sg} {R : FSt → Prop}
    (h : FRun cfg (calm E7) s [] [] [] [] s → ∃ calls s', FRun cfg (calm E7) s ops calls chgs sg s' ∧ R s') :
    ∃ calls s', FRun cfg (calm E7) s ops calls chgs sg s' ∧ R s' := h .refl

/-- Channel 2 watches `/d/e` for Remove, channel 1 watches `/d/e/f` for Write; the file is written, which is signalled to channel 1. -/
theorem runB : ∃ calls s, FRun cfg (calm E7) FSt.init [opA, opB] calls [(x, 0x2)] [(.user 1, ei)] s ∧ s.plan = none ∧ s.Quiet ∧
    -- Channel 2 is stopped, which is signalled to channel 1 as Write.
    ∃ calls' s', FRun cfg (calm E7) s [.stop 2] calls' [] [(.user 1, ei)] s' ∧ s'.plan = none ∧ s'.Quiet := by
  have h := FRun.refl (cfg := cfg) (X := calm E7) (s := FSt.init)
  have h := h.step (.go _ _ (.call (Y := Y) reqA (show NonRec.GoodPath e ∧ NonRec.UserEvents P Re from ⟨goodE, uR⟩) trivial) trivial)
  have h := h.step (.go _ _ (.lock 0 reqA [] [] rfl (by rintro ⟨_, _, _, _, h⟩; cases h)
    (by rintro ⟨_, _, h | h⟩ <;> cases h <;> contradiction) (by rintro ⟨_, h | h⟩ <;> cases h)) trivial)
  have h := h.step (.plan reqA [opA] tA [(.watch e Re, true)] (.inl ⟨0, .head _⟩) rfl ⟨NonRec.Steps.nil.snoc stepA, opA, ⟨_, rfl⟩, .inl rfl⟩ rfl)
  have h := h.step (.call E7 (.watch e Re) true [] _ rfl rfl (.watch e Re (by decide)))
  have h := h.step (.effect 0 reqA [] [] tA rfl rfl rfl)
  have h := h.step (.go _ _ (.unlock 0 reqA [] [] rfl) trivial)
  have h := h.step (.go _ _ (.ret 0 reqA [] [] rfl) trivial)
  have h := h.step (.go _ _ (.call (Y := Y) reqB (show NonRec.GoodPath x ∧ NonRec.UserEvents P Wr from ⟨goodX, uW⟩) trivial) trivial)
  have h := h.step (.go _ _ (.lock 1 reqB [] [] rfl (by rintro ⟨_, _, _, _, h⟩; cases h)
    (by rintro ⟨_, _, h | h⟩ <;> cases h <;> contradiction) (by rintro ⟨_, h | h⟩ <;> cases h)) trivial)
  have h := h.step (.plan reqB [opB] tB [(.watch x Wr, true)] (.inl ⟨1, .head _⟩) rfl ⟨NonRec.Steps.nil.snoc stepB, opB, ⟨_, rfl⟩, .inl rfl⟩ rfl)
  have h := h.step (.call E7 (.watch x Wr) true [] _ rfl rfl (.watch x Wr (by decide)))
  have h := h.step (.effect 1 reqB [] [] tB rfl rfl rfl)
  have h := h.step (.go _ _ (.unlock 1 reqB [] [] rfl) trivial)
  have h := h.step (.go _ _ (.ret 1 reqB [] [] rfl) trivial)
  have h := h.step (.change x 0x2 (by unfold calm; decide))
  have h := h.step (.wait x 2 0x2 rfl rfl (by decide))
  have h := h.step (.process E7 x 0x2 rfl (by decide))
  have h := h.step (.send ei [] (by decide) (by decide) goodX)
  have h := h.step (.go _ _ (.spawn ei [] rfl) trivial)
  have h := h.step (.go _ _ (.rlock 2 ei [] [] rfl (by rintro ⟨_, _, h | h⟩ <;> cases h)
    (by rintro ⟨_, h | h⟩ <;> cases h) (by rintro _ (⟨_, _, h⟩ | ⟨_, h⟩) <;> cases h)) trivial)
  have h := h.step (.go _ _ (.pick 2 ei [] (.user 1) [] [] rfl (by decide)) trivial)
  have h := h.step (.go _ _ (.send 2 ei [] (.user 1) [] [] rfl) trivial)
  have h := h.step (.go _ _ (.fin 2 ei [.user 1] [] [] rfl (by intro k; exact Nat.le_of_eq (congrArg (List.count k) sendsB)) (by decide)) trivial)
  refine ⟨_, _, h, rfl, ⟨by decide, rfl, rfl, rfl, rfl⟩, ?_⟩
  refine start fun h => ?_
  have h := h.step (.go _ _ (.call (Y := Y) (Sched.Req.stop 2) trivial trivial) trivial)
  have h := h.step (.go _ _ (.lock (Y := Y) 3 (Sched.Req.stop 2) [] [] rfl (by rintro ⟨_, _, _, _, h⟩; cases h)
    (by rintro ⟨_, _, h | h⟩ <;> cases h <;> contradiction) (by rintro ⟨_, h | h⟩ <;> cases h)) trivial)
  have h := h.step (.plan (.stop 2) [.stop 2] tC [(.unwatch e, true)] (.inl ⟨3, .head _⟩) rfl
    ⟨NonRec.Steps.nil.snoc stepC, .stop 2, rfl, .inl rfl⟩ rfl)
  have h := h.step (.call E7 (.unwatch e) true [] _ rfl rfl (.unwatch e (by decide)))
  have h := h.step (.effect 3 (.stop 2) [] [] _ rfl rfl rfl)
  have h := h.step (.go _ _ (.unlock (Y := Y) 3 (Sched.Req.stop 2) [] [] rfl) trivial)
  have h := h.step (.go _ _ (.ret (Y := Y) 3 (Sched.Req.stop 2) [] [] rfl) trivial)
  have h := h.step (.wait x 4 0x2 rfl rfl (by decide))
  have h := h.step (.process E7 x 0x2 rfl (by decide))
  have h := h.step (.send ei [] (by decide) (by decide) goodX)
  have h := h.step (.go _ _ (.spawn ei [] rfl) trivial)
  have h := h.step (.go _ _ (.rlock 4 ei [] [] rfl (by rintro ⟨_, _, h | h⟩ <;> cases h)
    (by rintro ⟨_, h | h⟩ <;> cases h) (by rintro _ (⟨_, _, h⟩ | ⟨_, h⟩) <;> cases h)) trivial)
  have h := h.step (.go _ _ (.pick 4 ei [] (.user 1) [] [] rfl (by decide)) trivial)
  have h := h.step (.go _ _ (.send 4 ei [] (.user 1) [] [] rfl) trivial)
  have h := h.step (.go _ _ (.fin 4 ei [.user 1] [] [] rfl (by intro k; exact Nat.le_of_eq (congrArg (List.count k) sendsC)) (by decide)) trivial)
  exact ⟨_, _, h, rfl, ⟨by decide, rfl, rfl, rfl, rfl⟩⟩

/-- The premises of `C109_solaris_partial` and `C109_watch_partial`, with a file that changed and a Watch. -/
example : ∃ calls s calls' s', FRun cfg (calm E7) FSt.init [] calls [(x, 0x2)] [] s ∧ s.Quiet ∧ s.w.lkp.get? x = none ∧
    FRun cfg (calm E7) s [op1] calls' [] [] s' ∧ calls' = [(.watch e Wr, true)] ∧ s'.w.lkp.get? x ≠ none := by
  have h := FRun.refl (cfg := cfg) (X := calm E7) (s := FSt.init)
  have h := h.step (.change x 0x2 (by unfold calm; decide))
  have h' := FRun.refl (cfg := cfg) (X := calm E7) (s := { FSt.init with kern := FSt.init.kern.change x 0x2 })
  have h' := h'.step (.go _ _ (.call (Y := Y) req1 (show NonRec.GoodPath e ∧ NonRec.UserEvents P Wr from ⟨goodE, uW⟩) trivial) trivial)
  have h' := h'.step (.go _ _ (.lock 0 req1 [] [] rfl (by rintro ⟨_, _, _, _, h⟩; cases h)
    (by rintro ⟨_, _, h | h⟩ <;> cases h <;> contradiction) (by rintro ⟨_, h | h⟩ <;> cases h)) trivial)
  have h' := h'.step (.plan req1 [op1] t1 [(.watch e Wr, true)] (.inl ⟨0, .head _⟩) rfl ⟨NonRec.Steps.nil.snoc step1, op1, ⟨_, rfl⟩, .inl rfl⟩ rfl)
  have h' := h'.step (.call E7 (.watch e Wr) true [] _ rfl rfl (.watch e Wr (by decide)))
  exact ⟨_, _, _, _, h, ⟨by decide, rfl, rfl, rfl, rfl⟩, rfl, h', rfl, by decide⟩

end StopEx

/-- **C109 is false on Solaris**: channel 1 is registered for Write on `/d/e/f`, channel 2 for Remove on `/d/e`.  The file is written once, and channel 1 has got
its Write; nothing is on its way.  Then channel 2 is stopped, no file changes, and channel 1 gets a second Write: the watcher associates the file again, with the
times that it had at the first Watch. -/
theorem C109_solaris_refuted : ¬ C109_solaris_full := by
  intro h
  obtain ⟨calls, s, h1, _, h2, calls', s', h3, _⟩ := StopEx.runB
  cases h _ _ _ _ _ _ _ _ _ _ _ Trg.Ex.steady7 h1 h2 h3

end Fen

end Verif
