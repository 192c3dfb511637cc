/-
For C95: events of new directories on their way through the program on Linux.
-/
import Verif.LinuxDirs
import Verif.PropsLinux2

namespace Verif
namespace Linux
open Inotify (PSt PStep Raw Out Consumer PInv Held FromKernel outs at_)
open NonRec (Op Steps Hist NoFail regOf UserEvents GoodPath Conn Stat Dyn recAt Apart Good picked mkEvent)
open Spec (wantsBelow copies)

/-! ### Executions -/

theorem LRun.trans {cfg : Sched.Cfg} {st : Bool} {Q : LSt → Prop} {s s' s'' : LSt} {o o' r r' g g'} (h : LRun cfg st Q s o r g s')
    (h' : LRun cfg st Q s' o' r' g' s'') : LRun cfg st Q s (o ++ o') (r ++ r') (g ++ g') s'' := by
  induction h' with
  | refl _ => simpa using h
  | step _ hs hQ ih => simp only [← List.append_assoc]; exact ih.step hs hQ

theorem LRun.one {cfg : Sched.Cfg} {s s' : LSt} {o r g} (h : LStep cfg true s o r g s') : LRun cfg true (fun _ => True) s o r g s' := by
  simpa using (LRun.refl (I := fun _ => True) trivial).step h trivial

theorem J.run {cfg : Sched.Cfg} {Q : LSt → Prop} {base ops : List Op} {s s' : LSt} {o r g} (hj : J base ops s) (h : LRun cfg true Q s o r g s') :
    J base (ops ++ o) s' := by
  induction h with
  | refl _ => simpa using hj
  | step _ hs _ ih => rw [← List.append_assoc]; exact ih.step hs

/-- The kernel queues records. -/
theorem queue_run {cfg : Sched.Cfg} (raws : List Raw) : ∀ {s : LSt}, (∀ r ∈ raws, FromKernel r) → Inotify.NoLinks s.pipe.k.inode →
    LRun cfg true (fun _ => True) s [] raws [] { s with pipe := { s.pipe with queue := s.pipe.queue ++ raws } } := by
  induction raws with
  | nil =>
    intro s _ _
    simpa using (LRun.refl (cfg := cfg) (stable := true) (I := fun _ => True) (s := s) trivial)
  | cons r raws ih =>
    intro s h hn
    have h1 : LStep cfg true s [] [r] [] { s with pipe := { s.pipe with queue := s.pipe.queue ++ [r] } } :=
      .pipe [r] _ (.change r (h r (by simp))) rfl rfl (fun _ => ⟨hn, fun _ _ _ => rfl⟩)
    have h2 := (LRun.one h1).trans (ih (fun x hx => h x (by simp [hx])) hn)
    simpa using h2

theorem excl_step {cfg : Sched.Cfg} {st : Bool} {s s' : LSt} {o r g} (h : Sched.Excl s.sys) (hs : LStep cfg st s o r g s') : Sched.Excl s'.sys := by
  cases hs with
  | go l sys' htr _ => exact h.tr htr
  | effect i r a b t hcalls _ _ _ =>
    obtain ⟨h1, h2⟩ := h
    simp only [Sched.State.nC, hcalls] at h1 h2
    exact ⟨by simpa [Sched.State.nC, Sched.Call.holds] using h1, by simpa [Sched.State.nC, Sched.State.nR, Sched.Call.holds] using h2⟩
  | intEffect ei t hi _ _ _ =>
    obtain ⟨h1, h2⟩ := h
    simp only [Sched.Intern.holds, hi, Sched.State.nC, Sched.State.nR] at h1 h2
    exact ⟨by simpa [Sched.State.nC, Sched.Intern.holds] using h1, by simpa [Sched.State.nC, Sched.State.nR, Sched.Intern.holds] using h2⟩
  | send => exact ⟨h.one, h.excl⟩
  | _ => exact h

theorem excl_run {cfg : Sched.Cfg} {st : Bool} {Q : LSt → Prop} {s s' : LSt} {o r g} (h : Sched.Excl s.sys) (hr : LRun cfg st Q s o r g s') :
    Sched.Excl s'.sys := by
  induction hr with
  | refl _ => exact h
  | step _ hs _ ih => exact excl_step ih hs

theorem mem_mid {α : Type} {a b : List α} {x y z : α} (h : z ∈ a ++ x :: b) (hz : z ≠ x) : z ∈ a ++ y :: b := by
  simp only [List.mem_append, List.mem_cons] at h ⊢
  rcases h with h | h | h
  · exact .inl h
  · exact absurd h hz
  · exact .inr (.inr h)

theorem holds_go {cfg : Sched.Cfg} {s : LSt} {l : Sched.Lab Y.Req} {sys' : Sched.State Y} (h : Sched.Tr Y cfg s.sys l sys') (hl : Free l)
    {r : Sched.Req} (hr : s.Holds r) : LSt.Holds { s with sys := sys' } r := by
  cases h with
  | effect => exact hl.elim
  | intEffect => exact hl.elim
  | call r' _ _ =>
    rcases hr with ⟨i, hi⟩ | hr
    · exact .inl ⟨i, List.mem_cons_of_mem _ hi⟩
    · exact .inr hr
  | lock i r' a b hc _ _ _ =>
    rcases hr with ⟨j, hj⟩ | hr
    · rw [hc] at hj
      exact .inl ⟨j, mem_mid hj (by simp)⟩
    · exact .inr hr
  | unlock i r' a b hc =>
    rcases hr with ⟨j, hj⟩ | hr
    · rw [hc] at hj
      exact .inl ⟨j, mem_mid hj (by simp)⟩
    · exact .inr hr
  | ret i r' a b hc =>
    rcases hr with ⟨j, hj⟩ | hr
    · rw [hc] at hj
      simp only [List.mem_append, List.mem_cons, Prod.mk.injEq, reduceCtorEq, and_false, false_or] at hj
      exact .inl ⟨j, by simpa using hj⟩
    · exact .inr hr
  | intRecv ei q h1 h2 =>
    rcases hr with hr | ⟨ei', h3, h4⟩
    · exact .inl hr
    · rw [h2] at h3; cases h3
  | intLock ei h1 _ _ =>
    rcases hr with hr | ⟨ei', h3, h4⟩
    · exact .inl hr
    · rw [h1] at h3; cases h3
  | intUnlock ei h1 =>
    rcases hr with hr | ⟨ei', h3, h4⟩
    · exact .inl hr
    · rw [h1] at h3; cases h3
  | _ => exact hr

/-- The operation under way keeps the lock. -/
theorem holds_step {cfg : Sched.Cfg} {st : Bool} {s s' : LSt} {o r g} (hs : LStep cfg st s o r g s') (hp : s'.plan = s.plan) {x : Sched.Req}
    {t : St} (hx : s.plan = some (x, t)) (h : s.Holds x) : s'.Holds x := by
  cases hs with
  | go l sys' htr hl => exact holds_go htr hl h
  | effect => rw [hx] at hp; cases hp
  | intEffect => rw [hx] at hp; cases hp
  | _ => exact h

theorem noReader {s : LSt} (hx : Sched.Excl s.sys) {r : Sched.Req} (h : s.Holds r) : s.sys.nR = 0 := by
  rcases h with ⟨i, hi⟩ | ⟨ei, hi, _⟩
  · exact hx.noReader_call hi
  · exact hx.noReader_int ⟨ei, .inl hi⟩

/-! ### Creations that are not handled yet -/

/-- The event is somewhere between the watcher and the end of the scan that it causes. -/
def Flight (s : LSt) (ei : EventInfo) : Prop :=
  (∃ l o, Consumer.sending l ∈ s.pipe.cons ∧ o ∈ l ∧ o.info = ei) ∨ ei ∈ s.sys.cq ∨ (∃ i d, (i, ei, d) ∈ s.sys.disp) ∨ ei ∈ s.sys.rq ∨
    s.sys.int = .waiting ei ∨ s.sys.int = .locked ei

/-- The kernel says that a directory `b` appeared. -/
def Tells (wd : Nat) (b : Comp) (r : Raw) : Prop :=
  r.wd = wd ∧ r.name = b ∧ ∃ bit, (bit = Inotify.inCreate ∨ bit = Inotify.inMovedTo) ∧ r.mask = bit ||| Inotify.inIsdir

/-- The appearance of the directory `b` in `q` is on its way. -/
def Pd (s : LSt) (q : Path) (b : Comp) : Prop :=
  (∃ wd r, Held wd q I.create s.pipe ∧ r ∈ s.pipe.pending ∧ Tells wd b r) ∨ Flight s (mkEvent I (q ++ [b]))

def Pend (s : LSt) (x : Path) : Prop := ∃ q b, x = q ++ [b] ∧ Pd s q b

theorem pend_iff {s : LSt} {q : Path} {b : Comp} : Pend s (q ++ [b]) ↔ Pd s q b := by
  constructor
  · rintro ⟨q', b', h, hp⟩
    obtain ⟨rfl, h2⟩ := List.append_inj' h rfl
    cases h2
    exact hp
  · exact fun h => ⟨q, b, rfl, h⟩

theorem sent_ftype {m : Inotify.Table} {r : Raw} {y : EventInfo} (hy : y ∈ Inotify.sent m [r]) : y.ftype = .unknown := by
  rw [Inotify.sent_single] at hy
  unfold Inotify.transform1 at hy
  split at hy
  · cases hy
  split at hy
  · cases hy
  split at hy
  · cases hy
  · rcases List.mem_append.1 hy with hy | hy
    · simp only at hy
      split at hy
      · cases hy
      · rw [List.mem_singleton.1 hy]; rfl
    · simp only [List.filterMap_cons, List.filterMap_nil] at hy
      rcases hd : Inotify.decodeSys (Inotify.Watched.mask ‹Inotify.Watched›) r.mask with _ | v
      · simp [hd] at hy
      · simp only [hd, Option.map_some, id] at hy
        rw [List.mem_singleton.1 hy]; rfl

/-- `transform` makes the event of the record. -/
theorem transform_event {m : Inotify.Table} (hacc : ∀ x ∈ m, Inotify.accepts x.2.mask = true) {wd : Nat} {q : Path} {b : Comp}
    (hq : GoodPath q) (hb : b ≠ []) (hw : ∃ w, m.get? wd = some w ∧ w.path = q ∧ I.create ⊑ w.mask) {es : List Raw} {r : Raw} (hr : r ∈ es)
    (ht : Tells wd b r) : ∃ o ∈ outs m es, o.info = mkEvent I (q ++ [b]) := by
  obtain ⟨w, hw, rfl, hm⟩ := hw
  obtain ⟨rfl, rfl, bit, hbit, hmask⟩ := ht
  have hbk : bit ∈ Spec.Inotify.kernelBits ∧ (I.create, bit) ∈ Spec.Inotify.means := by
    rcases hbit with rfl | rfl <;> decide
  obtain ⟨h1, h2⟩ := Inotify.C33_exact hw (hacc _ (GoMap.mem_of_get? hw)) hbk.1 true hmask
  have h3 := h1 I.create
  rw [if_pos ⟨hm, hbk.2⟩] at h3
  obtain ⟨ei, hei⟩ := List.exists_mem_of_length_pos (l := (Inotify.sent m [r]).filter _) (by rw [h3]; exact Nat.one_pos)
  obtain ⟨hei, hev⟩ := List.mem_filter.1 hei
  obtain ⟨hp, hd⟩ := h2 ei hei
  refine ⟨⟨r, ei⟩, (Inotify.outs_batch m es).mem_iff.2 (List.mem_flatMap.2 ⟨r, hr, ?_⟩), ?_⟩
  · rw [Inotify.outs_single]; exact List.mem_map.2 ⟨ei, hei, rfl⟩
  · have hjoin : (if r.name = [] then w.path else Inotify.join w.path r.name) = w.path ++ [r.name] := by
      rw [if_neg hb]
      unfold Inotify.join
      rw [if_neg]
      intro h
      rw [h] at hq
      exact hq.2 (by simp)
    rw [hjoin] at hp
    have hft := sent_ftype hei
    simp only [mkEvent]
    obtain ⟨a, b, c, d⟩ := ei
    simp only at hp hd hev hft
    rw [hp, hd, hft, of_decide_eq_true hev]

theorem mem_set_ne {α : Type} {l : List α} {i : Nat} {x y z : α} (hx : l[i]? = some x) (hz : z ∈ l) (hne : z ≠ x) : z ∈ l.set i y := by
  obtain ⟨j, hj⟩ := List.mem_iff_getElem?.1 hz
  have hij : i ≠ j := by
    rintro rfl
    rw [hx] at hj
    exact hne (Option.some.inj hj).symm
  exact List.mem_iff_getElem?.2 ⟨j, by rw [List.getElem?_set_ne hij]; exact hj⟩

theorem mem_set_self {α : Type} {l : List α} {i : Nat} {x y : α} (hx : l[i]? = some x) : y ∈ l.set i y := by
  have hi : i < l.length := by
    by_contra hn
    rw [List.getElem?_eq_none (by omega)] at hx
    cases hx
  exact List.mem_iff_getElem?.2 ⟨i, by rw [List.getElem?_set_self hi]⟩

theorem mem_recs {l : List Consumer} {r : Raw} : r ∈ l.flatMap Consumer.recs ↔ ∃ es, Consumer.got es ∈ l ∧ r ∈ es := by
  rw [List.mem_flatMap]
  constructor
  · rintro ⟨x, hx, hr⟩
    cases x with
    | got es => exact ⟨es, hx, hr⟩
    | idle => cases hr
    | sending l => cases hr
  · rintro ⟨es, h1, h2⟩
    exact ⟨_, h1, h2⟩

/-- Records and events in the watcher stay on their way. -/
theorem pending_pipe {s p' : PSt} {raws : List Raw} (hi : PInv s) (h : PStep s raws p') (hc : p'.caller = s.caller) (ho : p'.out = s.out)
    {q : Path} {b : Comp} (hq : GoodPath q) (hb : b ≠ []) :
    (∀ wd r, Held wd q I.create s → r ∈ s.pending → Tells wd b r →
      r ∈ p'.pending ∨ ∃ l o, Consumer.sending l ∈ p'.cons ∧ o ∈ l ∧ o.info = mkEvent I (q ++ [b])) ∧
    ∀ l o, Consumer.sending l ∈ s.cons → o ∈ l → ∃ l, Consumer.sending l ∈ p'.cons ∧ o ∈ l := by
  cases h with
  | change r _ =>
    refine ⟨fun wd r' _ hr _ => .inl ?_, fun l o hl h => ⟨l, hl, h⟩⟩
    simp only [PSt.pending, List.mem_append] at hr ⊢
    tauto
  | fs k' _ => exact ⟨fun wd r' _ hr _ => .inl hr, fun l o hl h => ⟨l, hl, h⟩⟩
  | reorder k' _ _ => exact ⟨fun wd r' _ hr _ => .inl hr, fun l o hl h => ⟨l, hl, h⟩⟩
  | add p e wd k' hi _ _ => rw [hi] at hc; cases hc
  | table wd p e hi => rw [hi] at hc; cases hc
  | rm p wd w l hi _ _ => rw [hi] at hc; cases hc
  | forget wd hi => rw [hi] at hc; cases hc
  | read n hb =>
    refine ⟨fun wd r' _ hr _ => .inl ?_, fun l o hl h => ⟨l, hl, h⟩⟩
    simp only [PSt.pending, List.mem_append, hb, Option.getD_none, List.not_mem_nil, or_false, Option.getD_some] at hr ⊢
    rcases hr with hr | hr
    · rw [← List.take_append_drop n s.queue, List.mem_append] at hr
      tauto
    · exact .inr hr
  | hand i es hb hci =>
    refine ⟨fun wd r' _ hr _ => .inl ?_, fun l o hl h => ⟨l, mem_set_ne hci hl (by simp), h⟩⟩
    simp only [PSt.pending, List.mem_append, hb, Option.getD_some, mem_recs] at hr ⊢
    rcases hr with (hr | hr) | ⟨es', h1, h2⟩
    · exact .inl (.inl hr)
    · exact .inr ⟨es, mem_set_self hci, hr⟩
    · exact .inr ⟨es', mem_set_ne hci h1 (by simp), h2⟩
  | transform i es hci =>
    refine ⟨fun wd r' hh hr ht => ?_, fun l o hl h => ⟨l, mem_set_ne hci hl (by simp), h⟩⟩
    simp only [PSt.pending, List.mem_append, mem_recs] at hr ⊢
    rcases hr with hr | ⟨es', h1, h2⟩
    · exact .inl (.inl hr)
    · by_cases he : es' = es
      · subst he
        obtain ⟨o, h3, h4⟩ := transform_event hi.acc hq hb hh h2 ht
        exact .inr ⟨_, o, mem_set_self hci, h3, h4⟩
      · exact .inl (.inr ⟨es', mem_set_ne hci h1 (by simpa using he), h2⟩)
  | send i o l hci =>
    have := congrArg List.length ho
    simp at this
  | next i hci =>
    refine ⟨fun wd r' _ hr _ => .inl ?_, fun l o hl h => ⟨l, mem_set_ne hci hl ?_, h⟩⟩
    · simp only [PSt.pending, List.mem_append, mem_recs] at hr ⊢
      rcases hr with hr | ⟨es', h1, h2⟩
      · exact .inl hr
      · exact .inr ⟨es', mem_set_ne hci h1 (by simp), h2⟩
    · rintro h'
      cases h'
      cases h

/-- An event on its way in the tree. -/
def InTree (s : Sched.State Y) (ei : EventInfo) : Prop :=
  ei ∈ s.cq ∨ (∃ i d, (i, ei, d) ∈ s.disp) ∨ ei ∈ s.rq ∨ s.int = .waiting ei ∨ s.int = .locked ei

theorem InTree.go {cfg : Sched.Cfg} {s s' : Sched.State Y} {l : Sched.Lab Y.Req} (h : Sched.Tr Y cfg s l s') (hl : Free l) {ei : EventInfo}
    (hh : s.nR = 0 ∨ Y.hand s.tree ei = true) (hi : InTree s ei) : InTree s' ei := by
  have disp : ∀ {a b : List (Nat × EventInfo × Sched.Disp)} {i : Nat} {e' : EventInfo} {d d' : Sched.Disp}, s.disp = a ++ (i, e', d) :: b →
      (∃ i d, (i, ei, d) ∈ s.disp) → ∃ j d'', (j, ei, d'') ∈ a ++ (i, e', d') :: b := by
    rintro a b i e' d d' hd ⟨j, d'', hj⟩
    rw [hd] at hj
    simp only [List.mem_append, List.mem_cons, Prod.mk.injEq] at hj
    rcases hj with hj | ⟨rfl, rfl, rfl⟩ | hj
    · exact ⟨j, d'', by simp [hj]⟩
    · exact ⟨j, d', by simp⟩
    · exact ⟨j, d'', by simp [hj]⟩
  have same : s'.cq = s.cq → s'.rq = s.rq → s'.int = s.int → ((∃ i d, (i, ei, d) ∈ s.disp) → ∃ i d, (i, ei, d) ∈ s'.disp) → InTree s' ei := by
    intro h1 h2 h3 h4
    unfold InTree
    rw [h1, h2, h3]
    rcases hi with h | h | h
    · exact .inl h
    · exact .inr (.inl (h4 h))
    · exact .inr (.inr h)
  cases h with
  | report => exact hl.elim
  | push => exact hl.elim
  | effect => exact hl.elim
  | intEffect => exact hl.elim
  | spawn e' q hq =>
    rcases hi with h | ⟨i, d, h⟩ | h
    · rw [hq] at h
      rcases List.mem_cons.1 h with rfl | h
      · exact .inr (.inl ⟨_, _, List.mem_cons_self ..⟩)
      · exact .inl h
    · exact .inr (.inl ⟨i, d, List.mem_cons_of_mem _ h⟩)
    · exact .inr (.inr h)
  | rlock i e' a b hd _ _ _ => exact same rfl rfl rfl (disp hd)
  | pick i e' d k a b hd _ => exact same rfl rfl rfl (disp hd)
  | send i e' d k a b hd => exact same rfl rfl rfl (disp hd)
  | runlock i e' d a b hd _ _ => exact same rfl rfl rfl (disp hd)
  | fin i e' d a b hd _ hno =>
    refine same rfl rfl rfl ?_
    rintro ⟨j, d', hj⟩
    rw [hd] at hj
    simp only [List.mem_append, List.mem_cons, Prod.mk.injEq] at hj
    rcases hj with hj | ⟨rfl, rfl, rfl⟩ | hj
    · exact ⟨j, d', by simp [hj]⟩
    · exfalso
      rcases hh with hh | hh
      · have : s.Reading := ⟨j, ei, d, none, by rw [hd]; simp⟩
        rw [Sched.reading_iff] at this
        omega
      · rw [hno] at hh; cases hh
    · exact ⟨j, d', by simp [hj]⟩
  | handed i e' a b hd _ =>
    rcases hi with h | ⟨j, d, hj⟩ | h | h
    · exact .inl h
    · rw [hd] at hj
      simp only [List.mem_append, List.mem_cons, Prod.mk.injEq] at hj
      rcases hj with hj | ⟨rfl, rfl, rfl⟩ | hj
      · exact .inr (.inl ⟨j, d, by simp [hj]⟩)
      · exact .inr (.inr (.inl (by simp)))
      · exact .inr (.inl ⟨j, d, by simp [hj]⟩)
    · exact .inr (.inr (.inl (List.mem_append_left _ h)))
    · exact .inr (.inr (.inr h))
  | call r _ _ => exact same rfl rfl rfl id
  | lock i r a b _ _ _ _ => exact same rfl rfl rfl id
  | unlock i r a b _ => exact same rfl rfl rfl id
  | ret i r a b _ => exact same rfl rfl rfl id
  | intRecv e' q hq hint =>
    rcases hi with h | h | h | h | h
    · exact .inl h
    · exact .inr (.inl h)
    · rw [hq] at h
      rcases List.mem_cons.1 h with rfl | h
      · exact .inr (.inr (.inr (.inl rfl)))
      · exact .inr (.inr (.inl h))
    · rw [hint] at h; cases h
    · rw [hint] at h; cases h
  | intLock e' hint _ _ =>
    rcases hi with h | h | h | h | h
    · exact .inl h
    · exact .inr (.inl h)
    · exact .inr (.inr (.inl h))
    · rw [hint] at h; cases h; exact .inr (.inr (.inr (.inr rfl)))
    · rw [hint] at h; cases h
  | intUnlock e' hint =>
    rcases hi with h | h | h | h | h
    · exact .inl h
    · exact .inr (.inl h)
    · exact .inr (.inr (.inl h))
    · rw [hint] at h; cases h
    · rw [hint] at h; cases h

/-- What is on its way stays so, in all steps but the last of an operation. -/
theorem Pd.step {cfg : Sched.Cfg} {base ops o : List Op} {s s' : LSt} {r : List Raw} {g : List (Key × EventInfo)} (hj : J base ops s)
    (hs : LStep cfg true s o r g s') (hp : s'.plan = s.plan ∨ s.plan = none) {q : Path} {b : Comp} (hq : GoodPath q) (hb : b ≠ [])
    (hback : Backed q I.create s) (hh : s.sys.nR = 0 ∨ NonRec.toInternal I s.sys.tree.root (mkEvent I (q ++ [b])) = true) (h : Pd s q b) :
    Pd s' q b := by
  have hE : I.create ≠ 0 := by decide
  have hold : ∀ wd, Held wd q I.create s.pipe → Held wd q I.create s'.pipe := fun wd => hj.held_step hs hE hback
  -- only the watcher's tables change
  have calm : (∀ r ∈ s.pipe.pending, r ∈ s'.pipe.pending) → s'.pipe.cons = s.pipe.cons → s'.sys = s.sys → Pd s' q b := by
    intro h1 h2 h3
    rcases h with ⟨wd, r, h4, h5, h6⟩ | h
    · exact .inl ⟨wd, r, hold wd h4, h1 r h5, h6⟩
    · right
      unfold Flight
      rw [h2, h3]
      exact h
  cases hs with
  | go l sys' htr hl =>
    rcases h with ⟨wd, r, h4, h5, h6⟩ | h | h
    · exact .inl ⟨wd, r, h4, h5, h6⟩
    · exact .inr (.inl h)
    · exact .inr (.inr (InTree.go htr hl hh h))
  | pipe raws p' hst hc ho hk =>
    obtain ⟨h1, h2⟩ := pending_pipe hj.inv hst hc ho hq hb
    rcases h with ⟨wd, r, h4, h5, h6⟩ | ⟨l, o, h3, h4, h5⟩ | h
    · rcases h1 wd r h4 h5 h6 with h7 | h7
      · exact .inl ⟨wd, r, hold wd h4, h7, h6⟩
      · exact .inr (.inl h7)
    · obtain ⟨l', h6, h7⟩ := h2 l o h3 h4
      exact .inr (.inl ⟨l', o, h6, h7, h5⟩)
    · exact .inr (.inr h)
  | send i o l hi hc hok =>
    rcases h with ⟨wd, r, h4, h5, h6⟩ | ⟨l', o', h3, h4, h5⟩ | h | h
    · refine .inl ⟨wd, r, h4, ?_, h6⟩
      simp only [PSt.pending, List.mem_append, mem_recs] at h5 ⊢
      rcases h5 with h5 | ⟨es, h7, h8⟩
      · exact .inl h5
      · exact .inr ⟨es, mem_set_ne hi h7 (by simp), h8⟩
    · by_cases hl : l' = o :: l
      · subst hl
        rcases List.mem_cons.1 h4 with rfl | h4
        · exact .inr (.inr (.inl (by simp [h5])))
        · exact .inr (.inl ⟨l, o', mem_set_self hi, h4, h5⟩)
      · exact .inr (.inl ⟨l', o', mem_set_ne hi h3 (by simpa using hl), h4, h5⟩)
    · exact .inr (.inr (.inl (List.mem_append_left _ h)))
    · exact .inr (.inr (.inr h))
  | plan => exact h
  | add => exact calm (fun _ h => h) rfl rfl
  | table => exact calm (fun _ h => h) rfl rfl
  | rm =>
    refine calm (fun x hx => ?_) rfl rfl
    simp only [PSt.pending, List.mem_append] at hx ⊢
    tauto
  | forget => exact calm (fun _ h => h) rfl rfl
  | refuse => exact calm (fun _ h => h) rfl rfl
  | effect i r a b t _ hp' _ _ =>
    rcases hp with hp | hp <;> rw [hp'] at hp <;> cases hp
  | intEffect ei t _ hp' _ _ =>
    rcases hp with hp | hp <;> rw [hp'] at hp <;> cases hp

end Linux
end Verif
