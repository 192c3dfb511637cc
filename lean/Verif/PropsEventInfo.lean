/-
What an `EventInfo` says (C87): one event, an absolute and clean path, and the value of `Sys`.

Documented in /repo/event.go:49-107.  Models the values of `Sys`: /repo/event_inotify.go:67-76 with /repo/watcher_inotify.go:233-240 and 315-320,
/repo/event_fsevents.go:64-72 with /repo/watcher_fsevents.go:157-160, /repo/event_trigger.go:10-23 with /repo/watcher_trigger.go:297-357 and 419-451,
/repo/event_readdcw.go:96-108.

Simplifications: a pointer to a value is the value; the `ID` of an FSEvent, which is only passed on, is left out.
-/
import Verif.EventString
import Verif.PropsInotify3
import Verif.PropsFsevents
import Verif.PropsTrigger2
import Verif.PropsCanonical
import Verif.Readdcw

namespace Verif
open EventString (inotifyStr kqueueStr fenStr fseventsStr readdcwStr)

/-- What `Sys()` returns. -/
inductive SysVal
  /-- A nil interface. -/
  | nil
  /-- `*unix.InotifyEvent`: Wd, Mask, Cookie, Len. -/
  | inotify (wd : Nat) (mask : Event) (cookie len : Nat)
  /-- `*notify.FSEvent`: Path, Flags. -/
  | fsevent (path : PathStr.Str) (flags : Event)
  /-- `*notify.Kevent`, the type documented for kqueue, with the flags of the notification. -/
  | kevent (flags : Event)
  /-- `syscall.Kevent_t` on kqueue, `PortEvent` on FEN, with the flags of the notification. -/
  | raw (flags : Event)
  /-- `uint8` on Windows. -/
  | byte (n : Nat)
  deriving DecidableEq, Repr

namespace EventInfoDoc

/-- The events a user can name: the four portable constants and those of the system. -/
def consts (P : Platform) (t : EventString.Table) : List Event := [P.create, P.remove, P.write, P.rename] ++ t.map Prod.fst

/-- The union of all. -/
def anyOf (l : List Event) : Event := l.foldr (· ||| ·) 0

/-- An absolute path in the form that `filepath.Clean` gives. -/
def CleanAbs (p : Path) : Prop := p = [[]] ∨ (p ≠ [] ∧ ∀ c ∈ p, Canon.Name c)

end EventInfoDoc

/-! ### Linux -/

namespace Inotify
open Spec.Inotify EventInfoDoc

/-- `Sys` (event_inotify.go:75): Wd, Mask and Cookie are copied by `read` and by `decode`, Len is not (watcher_inotify.go:233-240, 315-320). -/
def sysOf (o : Out) : SysVal := .inotify o.sys.wd o.sys.mask o.sys.cookie 0

/-- All watched paths are clean, as `Watch` makes them (C24). -/
def CleanCall (s : PSt) : Prop := ∀ wd p e, s.caller = .added wd p e → CleanAbs p

/-- What is claimed of an event, for the records `tr` of the kernel. -/
def Fine (tr : List Raw) (o : Out) : Prop :=
  o.sys ∈ tr ∧ (o.info.event, o.sys.mask &&& 0xfff) ∈ means ∧ CleanAbs o.info.path

structure DInv (tr : List Raw) (s : PSt) : Prop where
  kern : ∀ r ∈ tr, FromKernel r
  queue : ∀ r ∈ s.queue, r ∈ tr
  batch : ∀ es, s.batch = some es → ∀ r ∈ es, r ∈ tr
  got : ∀ es, .got es ∈ s.cons → ∀ r ∈ es, r ∈ tr
  sending : ∀ l, .sending l ∈ s.cons → ∀ o ∈ l, Fine tr o
  out : ∀ o ∈ s.out, Fine tr o
  table : ∀ x ∈ s.k.m, accepts x.2.mask = true ∧ CleanAbs x.2.path
  call : ∀ wd p e, s.caller = .added wd p e → accepts e = true ∧ CleanAbs p

theorem cleanAbs_join {p : Path} {c : Comp} (hp : CleanAbs p) (hc : Canon.Name c) : CleanAbs (join p c) := by
  unfold join
  rcases hp with rfl | ⟨hp, hn⟩
  · exact .inr ⟨by simp, by simpa using hc⟩
  · split
    · exact .inr ⟨by simp, by simpa using hc⟩
    · refine .inr ⟨by simp, fun x hx => ?_⟩
      rcases List.mem_append.1 hx with h | h
      · exact hn x h
      · rw [List.mem_singleton.1 h]; exact hc

theorem Fine.mono {tr l : List Raw} {o : Out} (h : Fine tr o) : Fine (tr ++ l) o := ⟨List.mem_append_left _ h.1, h.2⟩

theorem outs_fine {m : Table} {es tr : List Raw} (hk : ∀ r ∈ tr, FromKernel r ∧ (r.name = [] ∨ Canon.Name r.name))
    (hes : ∀ r ∈ es, r ∈ tr) (hm : ∀ x ∈ m, accepts x.2.mask = true ∧ CleanAbs x.2.path) :
    ∀ o ∈ outs m es, Fine tr o := by
  intro o ho
  obtain ⟨r, hr, ho⟩ := List.mem_flatMap.1 ((outs_batch m es).mem_iff.1 ho)
  rw [outs_single] at ho
  obtain ⟨ei, hei, rfl⟩ := List.mem_map.1 ho
  obtain ⟨⟨k, d, hkk, hmask⟩, hname⟩ := hk r (hes r hr)
  obtain ⟨w, hw, -, -, hpath⟩ := C33_sound hei
  obtain ⟨ha, hc⟩ := hm _ (GoMap.mem_of_get? hw)
  refine ⟨hes r hr, ?_, ?_⟩
  · rcases hkk with hlt | h3
    · have hb : BitVec.twoPow 32 k ∈ kernelBits := by
        have : ∀ k < 12, BitVec.twoPow 32 k ∈ kernelBits := by decide
        exact this k hlt
      have hand : ∀ k < 12, ∀ d : Bool, (BitVec.twoPow 32 k ||| (if d then inIsdir else 0)) &&& 0xfff = BitVec.twoPow 32 k := by decide
      have h1 := (C33_exact hw ha hb d (by rw [hmask]; rfl)).1 ei.event
      show (ei.event, r.mask &&& 0xfff) ∈ means
      rw [hmask, hand k hlt d]
      apply Classical.byContradiction
      intro hno
      rw [if_neg (fun h => hno h.2), List.length_eq_zero_iff] at h1
      have hmem : ei ∈ (sent m [r]).filter (fun x => decide (x.event = ei.event)) := List.mem_filter.2 ⟨hei, by simp⟩
      rw [h1] at hmem
      cases hmem
    · rw [sent_other hw ha h3 hmask] at hei
      cases hei
  · show CleanAbs ei.path
    rw [hpath]
    split
    · exact hc
    · rename_i hn
      exact cleanAbs_join hc (hname.resolve_left hn)

theorem DInv.step {tr l : List Raw} {s s' : PSt} (hi : DInv tr s) (hn : ∀ r ∈ tr, r.name = [] ∨ Canon.Name r.name)
    (hc' : CleanCall s') (h : PStep s l s') : DInv (tr ++ l) s' := by
  have hk : ∀ r ∈ tr, FromKernel r ∧ (r.name = [] ∨ Canon.Name r.name) := fun r hr => ⟨hi.kern r hr, hn r hr⟩
  have kern : (∀ r ∈ l, FromKernel r) → ∀ r ∈ tr ++ l, FromKernel r :=
    fun h r hr => (List.mem_append.1 hr).elim (hi.kern r) (h r)
  have queue : ∀ r ∈ s.queue, r ∈ tr ++ l := fun r hr => List.mem_append_left _ (hi.queue r hr)
  have batch : ∀ es, s.batch = some es → ∀ r ∈ es, r ∈ tr ++ l := fun es h r hr => List.mem_append_left _ (hi.batch es h r hr)
  have got : ∀ es, .got es ∈ s.cons → ∀ r ∈ es, r ∈ tr ++ l := fun es h r hr => List.mem_append_left _ (hi.got es h r hr)
  have sending : ∀ x, .sending x ∈ s.cons → ∀ o ∈ x, Fine (tr ++ l) o := fun x h o ho => (hi.sending x h o ho).mono
  have out : ∀ o ∈ s.out, Fine (tr ++ l) o := fun o ho => (hi.out o ho).mono
  cases h with
  | change r hr =>
    refine ⟨kern (by simpa using hr), fun x hx => ?_, batch, got, sending, out, hi.table, hi.call⟩
    rcases List.mem_append.1 hx with hx | hx
    · exact queue x hx
    · exact List.mem_append_right _ hx
  | fs k' hf => cases hf with | mk _ _ _ => exact ⟨kern (by simp), queue, batch, got, sending, out, hi.table, hi.call⟩
  | reorder k' _ hf =>
    cases hf with
    | mk m' hp => exact ⟨kern (by simp), queue, batch, got, sending, out, fun x hx => hi.table x (hp.mem_iff.1 hx), hi.call⟩
  | add p e wd k' hc he ha =>
    refine ⟨kern (by simp), queue, batch, got, sending, out, ?_, ?_⟩
    · simp only [addWatch_m ha]; exact hi.table
    · intro wd' p' e' h; cases h; exact ⟨he, hc' _ _ _ rfl⟩
  | table wd p e hc =>
    refine ⟨kern (by simp), queue, batch, got, sending, out, fun x hx => ?_, by intro _ _ _ h; cases h⟩
    rcases mem_set' hx with hx | rfl
    · exact hi.table x hx
    · exact hi.call _ _ _ hc
  | rm p wd w l hc hf hl =>
    refine ⟨kern ?_, fun x hx => ?_, batch, got, sending, out, hi.table, by intro _ _ _ h; cases h⟩
    · intro r hr
      rcases hl with rfl | rfl
      · cases hr
      · rw [List.mem_singleton.1 hr]; exact ⟨15, false, by decide, show inIgnored = _ by decide⟩
    · rcases List.mem_append.1 hx with hx | hx
      · exact queue x hx
      · exact List.mem_append_right _ hx
  | forget wd hc =>
    exact ⟨kern (by simp), queue, batch, got, sending, out, fun x hx => hi.table x (mem_del' hx), by intro _ _ _ h; cases h⟩
  | read n hb =>
    refine ⟨kern (by simp), fun x hx => queue x (List.mem_of_mem_drop hx), ?_, got, sending, out, hi.table, hi.call⟩
    intro es h r hr
    cases h
    exact queue r (List.mem_of_mem_take hr)
  | hand i es hb hc =>
    refine ⟨kern (by simp), queue, (by intro _ h; cases h), ?_, ?_, out, hi.table, hi.call⟩
    · intro es' h
      rcases List.mem_or_eq_of_mem_set h with h | h
      · exact got es' h
      · cases h; exact batch es hb
    · intro x h
      rcases List.mem_or_eq_of_mem_set h with h | h
      · exact sending x h
      · cases h
  | transform i es hc =>
    refine ⟨kern (by simp), queue, batch, ?_, ?_, out, hi.table, hi.call⟩
    · intro es' h
      rcases List.mem_or_eq_of_mem_set h with h | h
      · exact got es' h
      · cases h
    · intro x h
      rcases List.mem_or_eq_of_mem_set h with h | h
      · exact sending x h
      · cases h
        exact fun o ho => (outs_fine hk (hi.got es (List.mem_of_getElem? hc)) hi.table o ho).mono
  | send i o x hc =>
    refine ⟨kern (by simp), queue, batch, ?_, ?_, ?_, hi.table, hi.call⟩
    · intro es' h
      rcases List.mem_or_eq_of_mem_set h with h | h
      · exact got es' h
      · cases h
    · intro y h
      rcases List.mem_or_eq_of_mem_set h with h | h
      · exact sending y h
      · cases h
        exact fun o' ho => sending _ (List.mem_of_getElem? hc) o' (List.mem_cons_of_mem _ ho)
    · intro o' ho
      rcases List.mem_append.1 ho with ho | ho
      · exact out o' ho
      · rw [List.mem_singleton.1 ho]
        exact sending _ (List.mem_of_getElem? hc) o List.mem_cons_self
  | next i hc =>
    refine ⟨kern (by simp), queue, batch, ?_, ?_, out, hi.table, hi.call⟩
    · intro es' h
      rcases List.mem_or_eq_of_mem_set h with h | h
      · exact got es' h
      · cases h
    · intro x h
      rcases List.mem_or_eq_of_mem_set h with h | h
      · exact sending x h
      · cases h

theorem DInv.runs {f : Path → Option Nat} {n : Nat} {tr : List Raw} {s : PSt} (h : Runs CleanCall (PSt.init f n) tr s)
    (hn : ∀ r ∈ tr, r.name = [] ∨ Canon.Name r.name) : DInv tr s := by
  induction h with
  | refl _ =>
    refine ⟨(by intro _ h; cases h), (by intro _ h; cases h), (by intro _ h; cases h), ?_, ?_, (by intro _ h; cases h), (by intro _ h; cases h),
      (by intro _ _ _ h; cases h)⟩
    · intro es h; cases (List.mem_replicate.1 h).2
    · intro es h; cases (List.mem_replicate.1 h).2
  | step _ hs hI ih =>
    have hn' := fun r hr => hn r (List.mem_append_left _ hr)
    exact (ih hn').step hn' hI hs

/-- **C87, Linux.**  In every execution, under every schedule: each event that is sent is one event that can be named, its path is absolute and clean,
and `Sys` gives descriptor, mask and cookie of a record that the kernel queued and whose event bit is such an event. -/
theorem C87_linux_partial {f : Path → Option Nat} {n : Nat} {tr : List Raw} {s : PSt} (h : Runs CleanCall (PSt.init f n) tr s)
    (hn : ∀ r ∈ tr, r.name = [] ∨ Canon.Name r.name) (o : Out) (ho : o ∈ s.out) :
    o.info.event ∈ consts Platform.inotify inotifyStr ∧ CleanAbs o.info.path ∧
      ∃ r ∈ tr, sysOf o = .inotify r.wd r.mask r.cookie 0 ∧ (o.info.event, r.mask &&& 0xfff) ∈ means := by
  obtain ⟨h1, h2, h3⟩ := (DInv.runs h hn).out o ho
  refine ⟨?_, h3, o.sys, h1, rfl, h2⟩
  have : ∀ x ∈ means, x.1 ∈ consts Platform.inotify inotifyStr := by decide
  exact this _ h2

/-- The kernel reports the creation of `/d/f` by moving, with cookie 7, and both the portable and the native event are sent. -/
def docRec : Raw := { wd := 1, mask := inMovedTo, cookie := 7, name := Ex.pf }

def docEnd : PSt :=
  { k := (watch false { inode := Ex.pfs } Ex.pd (create ||| inMovedTo)).1, cons := [.idle, .idle],
    out := [⟨docRec, { event := create, path := Ex.pd ++ [Ex.pf] }⟩, ⟨docRec, { event := inMovedTo, path := Ex.pd ++ [Ex.pf] }⟩] }

theorem docRun : Runs CleanCall (PSt.init Ex.pfs consumersCount) [docRec] docEnd := by
  have idle : ∀ {x : PSt}, x.caller = .idle → CleanCall x := fun h wd p e h' => by rw [h] at h'; cases h'
  have f1 : FromKernel docRec := ⟨7, false, by decide, by decide⟩
  have hcl : CleanAbs Ex.pd := .inr ⟨by decide, by unfold Canon.Name; decide⟩
  have h := Runs.refl (I := CleanCall) (s := PSt.init Ex.pfs consumersCount) (idle rfl)
  have h := h.step (.add Ex.pd (create ||| inMovedTo) 1 _ rfl (by decide) rfl) (by intro wd p e h; cases h; exact hcl)
  have h := h.step (.table 1 Ex.pd (create ||| inMovedTo) rfl) (idle rfl)
  have h := h.step (.change docRec f1) (idle rfl)
  have h := h.step (.read 1 rfl) (idle rfl)
  have h := h.step (.hand 0 [docRec] rfl rfl) (idle rfl)
  have h := h.step (.transform 0 [docRec] rfl) (idle rfl)
  have h := h.step (.send 0 ⟨docRec, { event := create, path := Ex.pd ++ [Ex.pf] }⟩
    [⟨docRec, { event := inMovedTo, path := Ex.pd ++ [Ex.pf] }⟩] (by decide)) (idle rfl)
  have h := h.step (.send 0 ⟨docRec, { event := inMovedTo, path := Ex.pd ++ [Ex.pf] }⟩ [] (by decide)) (idle rfl)
  exact h.step (.next 0 rfl) (idle rfl)

theorem docName : ∀ r ∈ [docRec], r.name = [] ∨ Canon.Name r.name := by
  intro r hr; rw [List.mem_singleton.1 hr]; exact .inr (by unfold Canon.Name; decide)

example : CleanAbs (Ex.pd ++ [Ex.pf]) ∧ sysOf ⟨docRec, { event := create, path := Ex.pd ++ [Ex.pf] }⟩ = .inotify 1 inMovedTo 7 0 :=
  ⟨(C87_linux_partial docRun docName _ List.mem_cons_self).2.1, rfl⟩

/-- **C87, Len is not filled in.**  `Len` is documented as the size of the name field; it is zero for an event of a record that has a name. -/
theorem C87_len_refuted : ∃ f n tr s, ∃ r ∈ tr, ∃ o ∈ s.out, Runs CleanCall (PSt.init f n) tr s ∧ (∀ r ∈ tr, r.name = [] ∨ Canon.Name r.name) ∧
    o.sys = r ∧ r.name ≠ [] ∧ ∃ wd mask cookie, sysOf o = .inotify wd mask cookie 0 :=
  ⟨_, _, _, _, docRec, List.mem_cons_self, _, List.mem_cons_self, docRun, docName, rfl, by decide, _, _, _, rfl⟩

end Inotify

/-! ### macOS, FSEvents -/

namespace Fsevents
open EventInfoDoc

/-- `Sys` (event_fsevents.go:71) of an event that `Dispatch` sends (watcher_fsevents.go:157-160). -/
def sysOf (x : FSEvent × Event) : SysVal := .fsevent x.1.path x.1.flags

/-- `Path` (event_fsevents.go:70). -/
def pathOf (x : FSEvent × Event) : PathStr.Str := x.1.path

/-- **C87, FSEvents.**  For every watch and every batch: each event that is sent is one event that can be named, if the set asked for consists of
such; the path is the path FSEvents gave, and `Sys` is the event FSEvents gave, whose flags contain the event. -/
theorem C87_macos (w : Watch) (hw : w.events ⊑ anyOf (consts Platform.fsevents fseventsStr)) (evs : List FSEvent) (x : FSEvent × Event)
    (hx : x ∈ (w.dispatch evs).2) :
    x.2 ∈ consts Platform.fsevents fseventsStr ∧ ∃ ev ∈ evs, pathOf x = ev.path ∧ sysOf x = .fsevent ev.path ev.flags ∧ x.2 ⊑ ev.flags := by
  induction evs generalizing w with
  | nil => cases hx
  | cons ev evs ih =>
    simp only [Watch.dispatch, List.mem_append] at hx
    rcases hx with hx | hx
    · rw [dispatch1_eq] at hx
      split at hx
      · cases hx
      split at hx
      · cases hx
      obtain ⟨f, hf, rfl⟩ := List.mem_map.1 hx
      obtain ⟨k, hk, hb, rfl⟩ := mem_splitflags.1 hf
      rw [BitVec.getLsbD_and, Bool.and_eq_true] at hb
      have hone : ∀ k < 32, (anyOf (consts Platform.fsevents fseventsStr)).getLsbD k = true → flag k ∈ consts Platform.fsevents fseventsStr := by
        decide
      refine ⟨hone k hk (hw k hb.2), ev, List.mem_cons_self, rfl, rfl, fun i hi => ?_⟩
      have : i = k := by
        have hi : (BitVec.twoPow 32 k).getLsbD i = true := hi
        rw [BitVec.getLsbD_twoPow] at hi
        simp only [Bool.and_eq_true, decide_eq_true_eq] at hi
        exact hi.2.symm
      subst this
      exact stripVal_sub _ _ _ hb.1
    · have hfld := (dispatch_fields w [ev]).2.1
      simp only [Watch.dispatch] at hfld
      obtain ⟨h1, ev', h2, h3⟩ := ih _ (by rw [hfld]; exact hw) hx
      exact ⟨h1, ev', List.mem_cons_of_mem _ h2, h3⟩

example : (Ex.w).events ⊑ anyOf (consts Platform.fsevents fseventsStr) := by
  intro i hi
  have : ∀ i < 32, (Ex.w).events.getLsbD i = true → (anyOf (consts Platform.fsevents fseventsStr)).getLsbD i = true := by decide
  exact this i (BitVec.lt_of_getLsbD hi) hi

end Fsevents

/-! ### Windows -/

namespace Dcw
open EventInfoDoc Platform

/-- `Sys` (event_readdcw.go:108): the file type as a `uint8`. -/
def sysOf (e : EventInfo) : SysVal := .byte (match e.ftype with | .unknown => 0 | .file => 1 | .directory => 2)

/-- **C87, Windows.**  Each event that is sent is one event that can be named, for the path of the change; `Sys` is a number that says whether the
object is a file (1) or a directory (2) if the handle for files or the one for directories reported a creation, removal or renaming, and else 0. -/
theorem C87_windows (filter : Event) (a : Action) (p : Path) (e : EventInfo) (h : e ∈ send filter a p) :
    e.event ∈ consts readdcw readdcwStr ∧ e.path = p ∧
      sysOf e = .byte (if a = .modified then 0 else if filter &&& dirmarker ≠ 0 then 2 else 1) := by
  have hd : (decode filter a).1 ∈ 0 :: consts readdcw readdcwStr ∧ (decode filter a).2 ∈ 0 :: consts readdcw readdcwStr := by
    cases a <;> simp only [decode, gensys] <;> constructor <;> (try split) <;> decide
  have hs : ∀ e0, sysOf { event := e0, path := p, ftype := ftype filter a } =
      .byte (if a = .modified then 0 else if filter &&& dirmarker ≠ 0 then 2 else 1) := by
    intro e0
    unfold sysOf ftype
    by_cases h1 : a = .modified
    · simp [h1]
    · by_cases h2 : filter &&& dirmarker ≠ 0
      · rw [if_neg h1, if_pos h2, if_neg h1, if_pos h2]
      · rw [if_neg h1, if_neg h2, if_neg h1, if_neg h2]
  unfold send at h
  simp only at h
  have nz : ∀ {v : Event}, v ∈ 0 :: consts readdcw readdcwStr → v ≠ 0 → v ∈ consts readdcw readdcwStr :=
    fun hv h0 => (List.mem_cons.1 hv).resolve_left h0
  split at h
  · cases h
  · split at h
    · rename_i h1 h2
      rw [List.mem_singleton.1 h]
      exact ⟨nz hd.2 fun h3 => h1 ⟨h2, h3⟩, rfl, hs _⟩
    · split at h
      · rename_i h1 h2 h3
        rcases List.mem_cons.1 h with h | h
        · rw [h]; exact ⟨nz hd.2 h3, rfl, hs _⟩
        · rw [List.mem_singleton.1 h]; exact ⟨nz hd.1 h2, rfl, hs _⟩
      · rename_i h1 h2 h3
        rw [List.mem_singleton.1 h]
        exact ⟨nz hd.1 h2, rfl, hs _⟩

example : (send (readdcw.create ||| fileName) .added [['d'], ['f']]).map (fun e => (e.event, sysOf e)) =
    [(actionAdded, .byte 1), (readdcw.create, .byte 1)] := by decide

/-- **C87, Windows, Sys is not nil**, as the documentation says. -/
theorem C87_windows_refuted : ¬ ∀ (filter : Event) (a : Action) (p : Path), ∀ e ∈ send filter a p, sysOf e = .nil := by
  intro h
  have := h readdcw.create .added [['d'], ['f']] { event := readdcw.create, path := [['d'], ['f']], ftype := .file } (by decide)
  cases this

end Dcw

/-! ### kqueue and FEN -/

namespace Trg
open EventInfoDoc
variable (N : Native)

/-- An event with the value of `Sys` (event_trigger.go:10-15, 21). -/
abbrev EvSys := Ev × SysVal

/-- `moved` with the values of `Sys`: nil (watcher_trigger.go:323-326). -/
def movedSys (E : Env) (p : Path) (w : W) (e : Event) : St → List Path → St × List EvSys
  | s, [] => (s, [])
  | s, q :: l =>
    if below p q then
      let s := (singleunwatch N E s q .both).1
      let r := movedSys E p w e s l
      (r.1, (if w.all &&& (N.nRename ||| N.P.rename) ≠ 0 then
        [(⟨q, w.all &&& e &^ N.P.write &^ N.nWrite, w.isDir⟩, .nil)] else []) ++ r.2)
    else movedSys E p w e s l

/-- `scanKid` with the values of `Sys` (watcher_trigger.go:335-348). -/
def scanKidSys (E : Env) (p : Path) (w : W) (v : SysVal) (n : St × List EvSys) (x : Comp × Bool) : (St × List EvSys) × Res :=
  let q := join p x.1
  match singlewatch N E n.1 q w.eDir .ndir x.2 with
  | (s, .err true) => ((s, n.2 ++ if w.eDir &&& N.P.remove ≠ 0 then [(⟨q, N.P.remove, x.2⟩, v)] else []), .ok)
  | (s, .already) => ((s, n.2), .ok)
  | (s, .ok) => ((s, n.2 ++ if w.eDir &&& N.P.create ≠ 0 then [(⟨q, N.P.create, x.2⟩, v)] else []), .ok)
  | (s, _) => ((s, n.2), .ok)

/-- `dir` with the values of `Sys` (watcher_trigger.go:302-357). -/
def dirSys (E : Env) (s : St) (p : Path) (w : W) (v : SysVal) (e ge : Event) : St × List EvSys :=
  if ge &&& (N.nRename ||| N.nRemove) ≠ 0 then
    let ev : Ev := ⟨p, e &^ N.P.write &^ N.nWrite, true⟩
    let r := if ge &&& N.nRename ≠ 0 then movedSys N E p w e s s.lkp.keys else (s, [])
    (del N r.1 p w, (ev, v) :: r.2)
  else if ge &&& N.nWrite ≠ 0 then (walk E p (scanKidSys N E p w v) (s, [])).1
  else (s, [])

/-- `process` with the values of `Sys` (watcher_trigger.go:419-451): the notification `n` itself, of which only the flags are kept here. -/
def processSys (E : Env) (s : St) (p : Path) (ge : Event) : St × List EvSys :=
  match s.lkp.get? p with
  | none => (s, [])
  | some w =>
    let e := decode N.nat2not ge w.all
    let s := renew N E s p w ge
    if e = 0 ∧ (w.isDir = false ∨ ge &&& N.nWrite = 0) then (s, [])
    else
      let r := if w.isDir then dirSys N E s p w (.raw ge) e ge else (s, [(⟨p, e, w.isDir⟩, .raw ge)])
      if ge &&& (N.nRemove ||| N.nRename) ≠ 0 then (del N r.1 p w, r.2) else r

/-! #### The events are those of `process` -/

variable {N}

theorem movedSys_eq {E : Env} {p : Path} {w : W} {e : Event} (l : List Path) (s : St) :
    ((movedSys N E p w e s l).1, (movedSys N E p w e s l).2.map Prod.fst) = moved N E p w e s l ∧
      ∀ x ∈ (movedSys N E p w e s l).2, x.2 = .nil ∧ below p x.1.path = true := by
  induction l generalizing s with
  | nil => exact ⟨rfl, by intro x hx; cases hx⟩
  | cons q l ih =>
    unfold movedSys moved
    by_cases hb : below p q
    · simp only [hb, if_true]
      have h := ih (singleunwatch N E s q .both).1
      have h1 := congrArg Prod.fst h.1
      have h2 := congrArg Prod.snd h.1
      simp only at h1 h2
      constructor
      · rw [← h1, ← h2, List.map_append]
        split <;> rfl
      · intro x hx
        rcases List.mem_append.1 hx with hx | hx
        · split at hx
          · rw [List.mem_singleton.1 hx]; exact ⟨rfl, hb⟩
          · cases hx
        · exact h.2 x hx
    · simp only [hb, if_false]
      exact ih s

theorem walkLoop_sim {σ τ : Type} (R : σ → τ → Prop) (f : σ → Comp × Bool → σ × Res) (g : τ → Comp × Bool → τ × Res)
    (hfg : ∀ a b x, R a b → R (f a x).1 (g b x).1 ∧ (f a x).2 = (g b x).2) (l : List (Comp × Bool)) (a : σ) (b : τ) (h : R a b) :
    R (walkLoop f a l).1 (walkLoop g b l).1 := by
  induction l generalizing a b with
  | nil => exact h
  | cons x l ih =>
    unfold walkLoop
    obtain ⟨h1, h2⟩ := hfg a b x h
    rcases hf : f a x with ⟨a', r⟩
    rcases hg : g b x with ⟨b', r'⟩
    rw [hf, hg] at h1 h2
    simp only at h1 h2
    subst h2
    cases r <;> first | exact ih _ _ h1 | exact h1

theorem scanSys_eq {E : Env} {p : Path} {w : W} {v : SysVal} (s : St) :
    (((walk E p (scanKidSys N E p w v) (s, [])).1.1, (walk E p (scanKidSys N E p w v) (s, [])).1.2.map Prod.fst) =
      (walk E p (scanKid N E p w) (s, [])).1) ∧ ∀ x ∈ (walk E p (scanKidSys N E p w v) (s, [])).1.2, x.2 = v := by
  unfold walk
  cases E.list p with
  | error x => exact ⟨rfl, by intro x hx; cases hx⟩
  | ok l =>
    refine walkLoop_sim (fun (a : St × List EvSys) (b : St × List Ev) => (a.1, a.2.map Prod.fst) = b ∧ ∀ x ∈ a.2, x.2 = v) _ _ ?_ l (s, []) (s, [])
      ⟨rfl, by intro x hx; cases hx⟩
    rintro ⟨a, la⟩ b x ⟨rfl, h⟩
    simp only [scanKidSys, scanKid]
    rcases singlewatch N E a (join p x.1) w.eDir .ndir x.2 with ⟨t, r⟩
    have one : ∀ (c : Prop) [Decidable c] (ev : Ev),
        (la ++ if c then [(ev, v)] else []).map Prod.fst = la.map Prod.fst ++ (if c then [ev] else []) ∧
        ∀ y ∈ la ++ (if c then [(ev, v)] else []), y.2 = v := by
      intro c _ ev
      constructor
      · split <;> simp
      · intro y hy
        rcases List.mem_append.1 hy with hy | hy
        · exact h y hy
        · split at hy
          · rw [List.mem_singleton.1 hy]
          · cases hy
    cases r with
    | ok => exact ⟨⟨by simp only [(one _ _).1], (one _ _).2⟩, rfl⟩
    | already => exact ⟨⟨rfl, h⟩, rfl⟩
    | notWatched => exact ⟨⟨rfl, h⟩, rfl⟩
    | err b => cases b with
      | true => exact ⟨⟨by simp only [(one _ _).1], (one _ _).2⟩, rfl⟩
      | false => exact ⟨⟨rfl, h⟩, rfl⟩

theorem dirSys_eq {E : Env} {p : Path} {w : W} {v : SysVal} {e ge : Event} (s : St) :
    ((dirSys N E s p w v e ge).1, (dirSys N E s p w v e ge).2.map Prod.fst) = dir N E s p w e ge ∧
      ∀ x ∈ (dirSys N E s p w v e ge).2, x.2 = v ∨ (x.2 = .nil ∧ ge &&& N.nRename ≠ 0 ∧ below p x.1.path = true) := by
  unfold dirSys dir
  by_cases h1 : ge &&& (N.nRename ||| N.nRemove) ≠ 0
  · rw [if_pos h1, if_pos h1]
    by_cases h2 : ge &&& N.nRename ≠ 0
    · have h := movedSys_eq (N := N) (E := E) (p := p) (w := w) (e := e) s.lkp.keys s
      simp only [h2, if_true, ne_eq, not_false_eq_true]
      have e1 := congrArg Prod.fst h.1
      have e2 := congrArg Prod.snd h.1
      simp only at e1 e2
      refine ⟨by rw [← e1, ← e2]; rfl, fun x hx => ?_⟩
      rcases List.mem_cons.1 hx with rfl | hx
      · exact .inl rfl
      · exact .inr ⟨(h.2 x hx).1, trivial, (h.2 x hx).2⟩
    · rw [if_neg h2, if_neg h2]
      refine ⟨rfl, fun x hx => ?_⟩
      rw [List.mem_singleton.1 hx]
      exact .inl rfl
  · rw [if_neg h1, if_neg h1]
    split
    · exact ⟨(scanSys_eq s).1, fun x hx => .inl ((scanSys_eq s).2 x hx)⟩
    · exact ⟨rfl, by intro x hx; cases hx⟩

/-- The events, and the state, are those of `process`. -/
theorem processSys_eq (E : Env) (s : St) (p : Path) (ge : Event) :
    ((processSys N E s p ge).1, (processSys N E s p ge).2.map Prod.fst) = process N E s p ge ∧
      ∀ x ∈ (processSys N E s p ge).2, x.2 = .raw ge ∨ (x.2 = .nil ∧ ge &&& N.nRename ≠ 0 ∧ below p x.1.path = true) := by
  unfold processSys process
  cases s.lkp.get? p with
  | none => exact ⟨rfl, by intro x hx; cases hx⟩
  | some w =>
    simp only
    split
    · exact ⟨rfl, by intro x hx; cases hx⟩
    · have h := dirSys_eq (N := N) (E := E) (p := p) (w := w) (v := .raw ge) (e := decode N.nat2not ge w.all) (ge := ge) (renew N E s p w ge)
      have e1 := congrArg Prod.fst h.1
      have e2 := congrArg Prod.snd h.1
      simp only at e1 e2
      cases w.isDir with
      | true =>
        simp only [if_true]
        split
        · exact ⟨by rw [← e1, ← e2], h.2⟩
        · exact h
      | false =>
        have hone : ∀ x ∈ [((⟨p, decode N.nat2not ge w.all, false⟩ : Ev), SysVal.raw ge)], x.2 = .raw ge ∨
            (x.2 = .nil ∧ ge &&& N.nRename ≠ 0 ∧ below p x.1.path = true) := by
          intro x hx; rw [List.mem_singleton.1 hx]; exact .inl rfl
        simp only [Bool.false_eq_true, if_false]
        split
        · exact ⟨rfl, hone⟩
        · exact ⟨rfl, hone⟩

/-- **C87, kqueue and FEN, Sys.**  Each event carries the notification it was made of, or nil; nil only if a directory was renamed and the event is
about something below it.  (The type documented for kqueue, `*notify.Kevent`, does not exist.) -/
theorem C87_trg_partial (E : Env) (s : St) (p : Path) (ge : Event) :
    (processSys N E s p ge).2.map Prod.fst = (process N E s p ge).2 ∧
    ∀ x ∈ (processSys N E s p ge).2, x.2 = .raw ge ∨ (x.2 = .nil ∧ ge &&& N.nRename ≠ 0 ∧ below p x.1.path = true) :=
  ⟨congrArg Prod.snd (processSys_eq E s p ge).1, (processSys_eq E s p ge).2⟩

/-- **C87, kqueue: Sys may be nil**, though documented as never nil, and is never of the documented type.  `/d` is watched for Rename and is
renamed: the Rename of `/d/s` comes with nil, that of `/d` with the kernel's structure. -/
theorem C87_kqueue_refuted :
    (∃ (E : Env) (s : St) (p : Path) (ge : Event), ∃ x ∈ (processSys kqueue E s p ge).2, x.1.event = kqueue.P.rename ∧ x.2 = .nil) ∧
    ∀ (E : Env) (s : St) (p : Path) (ge : Event), ∀ x ∈ (processSys kqueue E s p ge).2, ∀ f, x.2 ≠ .kevent f := by
  refine ⟨⟨Ex.E1, Ex.s1, [['d']], 0x20, (⟨[['d'], ['s']], 0x800, true⟩, .nil), by decide, rfl, rfl⟩, ?_⟩
  intro E s p ge x hx f hf
  rcases (C87_trg_partial E s p ge).2 x hx with h | ⟨h, -⟩ <;> rw [h] at hf <;> cases hf

/-- Both values occur. -/
example : (processSys kqueue Ex.E1 Ex.s1 [['d']] 0x20).2.map (fun x => (x.1.path, x.2)) =
    [([['d']], .raw 0x20), ([['d'], ['s']], .nil), ([['d'], ['s'], ['f']], .nil)] := by decide

/-- The two systems and their named events. -/
def systems : List (Native × List Event) := [(kqueue, consts Platform.kqueue kqueueStr), (fen, consts Platform.fen fenStr)]

theorem sub_single {v x : Event} (hv : ∃ k < 32, v = BitVec.twoPow 32 k) (h : x ⊑ v) : x = 0 ∨ x = v := by
  obtain ⟨k, hk, rfl⟩ := hv
  by_cases hb : x.getLsbD k = true
  · right
    apply Event.Sub.antisymm h
    intro i hi
    rw [BitVec.getLsbD_twoPow] at hi
    simp only [Bool.and_eq_true, decide_eq_true_eq] at hi
    rw [← hi.2]; exact hb
  · left
    apply Event.zero_of_getLsbD
    intro i
    cases hx : x.getLsbD i with
    | false => rfl
    | true =>
      have := h i hx
      rw [BitVec.getLsbD_twoPow] at this
      simp only [Bool.and_eq_true, decide_eq_true_eq] at this
      rw [← this.2] at hx
      exact absurd hx hb

/-- `decode` of one native flag. -/
theorem decode_one {x : Native × List Event} (hx : x ∈ systems) {fn : Event × Event} (hf : fn ∈ x.1.nat2not) {w : Event}
    (hex : w &&& fn.1 = 0 ∨ w &&& fn.2 = 0) : decode x.1.nat2not fn.1 w ∈ 0 :: x.2 := by
  have key : ∀ x ∈ systems, ∀ fn ∈ x.1.nat2not, ∀ w : Event, decode x.1.nat2not fn.1 w =
      (if w &&& fn.1 ≠ 0 then fn.1 else 0) ||| (if w &&& fn.2 ≠ 0 then fn.2 else 0) := by
    intro x hx fn hf w
    simp only [systems, List.mem_cons, List.not_mem_nil, or_false] at hx
    rcases hx with rfl | rfl
    · simp only [kqueue, List.mem_cons, List.not_mem_nil, or_false] at hf
      rcases hf with rfl | rfl | rfl | rfl | rfl | rfl | rfl <;>
        simp [decode, decode1, kqueue] <;> (try split) <;> (try split) <;> simp
    · simp only [fen, List.mem_cons, List.not_mem_nil, or_false] at hf
      rcases hf with rfl | rfl | rfl | rfl | rfl | rfl | rfl | rfl | rfl | rfl <;>
        simp [decode, decode1, fen] <;> (try split) <;> (try split) <;> simp
  have mem : ∀ x ∈ systems, ∀ fn ∈ x.1.nat2not, fn.1 ∈ 0 :: x.2 ∧ fn.2 ∈ 0 :: x.2 := by decide
  rw [key x hx fn hf w]
  obtain ⟨m1, m2⟩ := mem x hx fn hf
  rcases hex with h | h
  · rw [if_neg (not_not_intro h), show ∀ a : Event, (0 : Event) ||| a = a from fun a => BitVec.zero_or]
    split
    · exact m2
    · exact List.mem_cons_self
  · rw [if_neg (not_not_intro h), show ∀ a : Event, a ||| (0 : Event) = a from fun a => BitVec.or_zero]
    split
    · exact m1
    · exact List.mem_cons_self

/-- **C87, kqueue and FEN, one event.**  If the kernel reports one native flag, and nobody asks for a portable event together with the native one it
stands for on this path, every event is one event that can be named, or empty (see C52). -/
theorem C87_single_partial {x : Native × List Event} (hx : x ∈ systems) (E : Env) (s : St) (p : Path) {w : W} (hw : s.lkp.get? p = some w)
    {fn : Event × Event} (hf : fn ∈ x.1.nat2not) (hex : w.all &&& fn.1 = 0 ∨ w.all &&& fn.2 = 0) (ev : Ev)
    (h : ev ∈ (process x.1 E s p fn.1).2) : ev.event = 0 ∨ ev.event ∈ x.2 := by
  have hd := decode_one hx hf hex
  have hsingle : ∀ x ∈ systems, ∀ v ∈ x.2, ∃ k < 32, v = BitVec.twoPow 32 k := by
    have h : (systems.all fun x => x.2.all fun v => (List.range 32).any fun k => v == BitVec.twoPow 32 k) = true := by decide
    intro x hx v hv
    simp only [List.all_eq_true, List.any_eq_true, List.mem_range, beq_iff_eq] at h
    exact h x hx v hv
  have hsub : ∀ v, v ⊑ decode x.1.nat2not fn.1 w.all → v = 0 ∨ v ∈ x.2 := by
    intro v hv
    rcases List.mem_cons.1 hd with h0 | hm
    · rw [h0] at hv
      exact .inl (Event.Sub.antisymm hv (Event.zero_sub _))
    · rcases sub_single (hsingle x hx _ hm) hv with h | h
      · exact .inl h
      · exact .inr (h ▸ hm)
  have hport : ∀ x ∈ systems, x.1.P.remove ∈ x.2 ∧ x.1.P.create ∈ x.2 := by decide
  rcases process_events x.1 E s p fn.1 hw ev h with h | h | h | h
  · exact hsub _ (by rw [h.2.2.1]; exact Event.Sub.refl _)
  · refine hsub _ ?_
    rw [h.2.2.2]
    intro i hi
    simp only [BitVec.getLsbD_and, Bool.and_eq_true] at hi
    exact hi.1.1
  · refine hsub _ ?_
    rw [h.2.2.2.1]
    intro i hi
    simp only [BitVec.getLsbD_and, Bool.and_eq_true] at hi
    exact hi.1.1.2
  · rcases h.2.2.2.2 with h | h
    · exact .inr (h.1 ▸ (hport x hx).1)
    · exact .inr (h.1 ▸ (hport x hx).2)

/-- `/d` is renamed. -/
example : ∃ w, Ex.s1.lkp.get? [['d']] = some w ∧ (0x20, 0x800) ∈ kqueue.nat2not ∧ w.all &&& 0x20 = 0 ∧
    (process kqueue Ex.E1 Ex.s1 [['d']] 0x20).2 ≠ [] := ⟨⟨0, true, 0x800, 0⟩, by decide⟩

/-- **C87, kqueue: a coalesced action is not split.**  A file is watched for Write and NoteAttrib, the kernel reports both at once, as it may, and one
event with both is sent. -/
theorem C87_single_refuted : ∃ (E : Env) (s : St) (p : Path) (ge : Event) (w : W) (ev : Ev), s.lkp.get? p = some w ∧ w.all = kqueue.P.write ||| 0x8 ∧
    ge ⊑ kqueue.encode w.all w.isDir ∧ (process kqueue E s p ge).2 = [ev] ∧ ev.event ∉ consts Platform.kqueue kqueueStr := by
  refine ⟨Ex.E1, (Watch kqueue Ex.E1 {} [['f']] (0x400 ||| 0x8)).1, [['f']], 0xa, _, ⟨[['f']], 0x408, false⟩, rfl, by decide, ?_, by decide, by decide⟩
  intro i hi
  have : ∀ i < 32, (0xa : Event).getLsbD i = true → (kqueue.encode 0x408 false).getLsbD i = true := by decide
  exact this i (BitVec.lt_of_getLsbD hi) hi

theorem moved_paths {E : Env} {p : Path} {w : W} {e : Event} (l : List Path) (s : St) : ∀ ev ∈ (moved N E p w e s l).2, ev.path ∈ l := by
  induction l generalizing s with
  | nil => intro ev h; cases h
  | cons q l ih =>
    unfold moved
    intro ev h
    split at h
    · rcases List.mem_append.1 h with h | h
      · split at h
        · rw [List.mem_singleton.1 h]; exact List.mem_cons_self
        · cases h
      · exact List.mem_cons_of_mem _ (ih _ ev h)
    · exact List.mem_cons_of_mem _ (ih _ ev h)

theorem scan_paths {E : Env} {p : Path} {w : W} (l : List (Comp × Bool)) (n : St × List Ev) :
    ∀ ev ∈ (walkLoop (scanKid N E p w) n l).1.2, ev ∈ n.2 ∨ ∃ x ∈ l, ev.path = join p x.1 := by
  induction l generalizing n with
  | nil => intro ev h; exact .inl h
  | cons x l ih =>
    intro ev h
    have hk : (scanKid N E p w n x).2 = .ok ∧ ∀ ev ∈ (scanKid N E p w n x).1.2, ev ∈ n.2 ∨ ev.path = join p x.1 := by
      simp only [scanKid]
      rcases singlewatch N E n.1 (join p x.1) w.eDir .ndir x.2 with ⟨t, r⟩
      have one : ∀ (c : Prop) [Decidable c] (e : Event), ∀ ev ∈ n.2 ++ (if c then [(⟨join p x.1, e, x.2⟩ : Ev)] else []),
          ev ∈ n.2 ∨ ev.path = join p x.1 := by
        intro c _ e ev h
        rcases List.mem_append.1 h with h | h
        · exact .inl h
        · split at h
          · rw [List.mem_singleton.1 h]; exact .inr rfl
          · cases h
      rcases r with _ | _ | _ | b
      · exact ⟨rfl, one _ _⟩
      · exact ⟨rfl, fun ev h => .inl h⟩
      · exact ⟨rfl, fun ev h => .inl h⟩
      · cases b
        · exact ⟨rfl, fun ev h => .inl h⟩
        · exact ⟨rfl, one _ _⟩
    unfold walkLoop at h
    rcases hs : scanKid N E p w n x with ⟨n', r⟩
    rw [hs] at h hk
    obtain ⟨hr, hk⟩ := hk
    simp only at hr
    subst hr
    rcases ih n' ev h with h | ⟨y, hy, h⟩
    · rcases hk ev h with h | h
      · exact .inl h
      · exact .inr ⟨x, List.mem_cons_self, h⟩
    · exact .inr ⟨y, List.mem_cons_of_mem _ hy, h⟩

/-- **C87, kqueue and FEN, paths.**  If the watched paths and the names in directories are proper, every path reported is absolute and clean. -/
theorem C87_path_partial (E : Env) (s : St) (p : Path) (ge : Event) (hl : ∀ q w, s.lkp.get? q = some w → CleanAbs q)
    (hn : ∀ q l, E.list q = .ok l → ∀ x ∈ l, Canon.Name x.1) (ev : Ev) (h : ev ∈ (process N E s p ge).2) : CleanAbs ev.path := by
  unfold process at h
  cases hw : s.lkp.get? p with
  | none => rw [hw] at h; cases h
  | some w =>
    rw [hw] at h
    have hp := hl p w hw
    have hkeys : ∀ q ∈ (renew N E s p w ge).lkp.keys, CleanAbs q := by
      intro q hq
      have hq : q ∈ s.lkp.keys := by
        unfold renew at hq
        split at hq
        · split at hq
          · exact hq
          · split at hq
            · exact hq
            · exact ((GoMap.mem_keys_del _ _ _).1 hq).2
        · exact hq
      obtain ⟨v, hv⟩ := (GoMap.mem_keys_iff _ _).1 hq
      exact hl q v hv
    have hd : ∀ e, ∀ ev ∈ (dir N E (renew N E s p w ge) p w e ge).2, CleanAbs ev.path := by
      intro e ev h
      unfold dir at h
      split at h
      · simp only at h
        rcases List.mem_cons.1 h with rfl | h
        · exact hp
        · split at h
          · exact hkeys _ (moved_paths _ _ ev h)
          · cases h
      · split at h
        · unfold walk at h
          cases hE : E.list p with
          | error x => rw [hE] at h; cases h
          | ok l =>
            rw [hE] at h
            rcases scan_paths l _ ev h with h | ⟨x, hx, h⟩
            · cases h
            · rw [h]
              exact Inotify.cleanAbs_join hp (hn p l hE x hx)
        · cases h
    simp only at h
    split at h
    · cases h
    · cases hi : w.isDir with
      | true =>
        simp only [hi, if_true] at h
        split at h <;> exact hd _ ev h
      | false =>
        simp only [hi, Bool.false_eq_true, if_false] at h
        split at h <;> (rw [List.mem_singleton.1 h]; exact hp)

example : (∀ q ∈ Ex.s1.lkp.keys, q = [['d']] ∨ q = [['d'], ['s']] ∨ q = [['d'], ['s'], ['f']]) ∧
    (process kqueue Ex.E1 Ex.s1 [['d']] 0x20).2.map Ev.path = [[['d']], [['d'], ['s']], [['d'], ['s'], ['f']]] := by decide

end Trg

namespace Canon

/-- **C87, the base of the path is not always the path given.**  `/d/l` is a link to `/x`; Watch of `/d/l` watches `/x`, and the paths reported are
those below `/x`. -/
theorem C87_base_refuted : ¬ ∀ (F : Fs) (n : Nat) (cwd p q : PathStr.Str) (isrec : Bool), isAbs p = true → clean p = p →
    cleanpath (F.os n) cwd p = some (q, isrec) → isrec = false → q = p := by
  intro h
  have h1 : cleanpath (Ex.F3.os 40) "/".toList "/d/l".toList = some ("/x".toList, false) := by
    have h2 := Ex.F3_canonical
    have h3 : clean "/d/l".toList = "/d/l".toList := by decide
    unfold cleanpath
    rw [show (decide (3 ≤ "/d/l".toList.length ∧ "/d/l".toList.drop ("/d/l".toList.length - 3) = ['.', '.', '.'])) = false by decide]
    simp only [Bool.false_eq_true, if_false, show isAbs "/d/l".toList = true by decide, if_true, h3, h2, Option.map_some]
  have := h Ex.F3 40 "/".toList "/d/l".toList _ _ (by decide) (by decide) h1 rfl
  exact absurd this (by decide)

end Canon
end Verif
