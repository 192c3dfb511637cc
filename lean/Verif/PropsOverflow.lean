/-
C116: what the users learn when the OS says that it lost notifications.

inotify queues a record with IN_Q_OVERFLOW (dropped in watcher_inotify.go:267), FSEvents sets MustScanSubDirs, UserDropped or KernelDropped
(watcher_fsevents.go:132-135), ReadDirectoryChangesW completes a read with no bytes (watcher_readdcw.go:366).
-/
import Verif.PropsSound3
import Verif.PropsStill
import Verif.PropsFsevents

namespace Verif
namespace Linux
open Inotify (PSt PStep Raw inQOverflow)
open Spec.Inotify (means)

/-- **C116, Linux**, in full: if the kernel says that its queue overflowed, every channel that watches something is signalled something. -/
def C116_linux_full : Prop :=
  ∀ (cfg : Sched.Cfg) (f : Path → Option Nat) (n : Nat) (ops : List NonRec.Op) (raws : List Raw) (sg : List (Key × EventInfo)) (s : LSt),
    LRun cfg true (fun _ => True) (LSt.init f n) ops raws sg s → s.Quiet → (∃ r ∈ raws, r.mask &&& inQOverflow ≠ 0) →
    ∀ c p v, Sched.wanted I ops c p = some v → ∃ ei, (Key.user c, ei) ∈ sg

theorem not_reported {l : Log} {raws : List Raw} (hr : ∀ r ∈ raws, r.mask &&& 0xfff = 0) (ei : EventInfo) : ¬ Reported l raws ei := by
  rintro ⟨r, h1, h2, _⟩
  rw [hr r h1] at h2
  revert h2
  generalize ei.event = e
  have : ∀ x ∈ means, x.2 ≠ (0 : Event) := by decide
  exact fun h => this _ h rfl

theorem idle_step {Y : Sched.Sys} {cfg : Sched.Cfg} {s s' : Sched.State Y} {l : Sched.Lab Y.Req} (h : Sched.Tr Y cfg s l s') (hd : s.disp = []) (hr : s.rq = [])
    (hi : s.int = .idle) : s'.rq = [] ∧ s'.int = .idle := by
  cases h <;> simp_all

/-- **C116, Linux: nobody is told and nothing is scanned.**  Records that are no events, among them those that say that the queue overflowed, cause no signal,
and no directory is looked at because of them: the operations are those that the users ask for. -/
theorem C116_linux_silent {cfg : Sched.Cfg} {st : Bool} {I : LSt → Prop} {f : Path → Option Nat} {n : Nat} {ops raws sg} {s : LSt}
    (h : LRun cfg st I (LSt.init f n) ops raws sg s) (hr : ∀ r ∈ raws, r.mask &&& 0xfff = 0) :
    sg = [] ∧ ∀ ei, NonRec.Op.internal ei ∉ ops := by
  have key : (∀ ei, NonRec.Op.internal ei ∉ ops) ∧ s.sys.rq = [] ∧ s.sys.int = .idle ∧ ∀ x ∈ s.sys.calls, Y.user x.2.1 := by
    induction h with
    | refl _ => exact ⟨(by simp), rfl, rfl, (by intro x hx; cases hx)⟩
    | step h0 hs _ ih =>
      obtain ⟨i1, i2, i3, i4⟩ := ih fun r h => hr r (List.mem_append_left _ h)
      have hd := (LRun.reported h0).2.1.disp
      have hn := fun (l : Log) ei => not_reported (l := l) (fun r h => hr r (List.mem_append_left _ h)) ei
      cases hs with
      | go l sys' htr hfree =>
        rw [List.append_nil]
        have i4' := htr.user i4
        obtain ⟨j2, j3⟩ := idle_step htr (List.eq_nil_iff_forall_not_mem.2 fun x hx => hn _ _ (hd x hx)) i2 i3
        exact ⟨i1, j2, j3, i4'⟩
      | plan r ops' t' new hr' hp ht hn' =>
        refine ⟨fun ei hm => ?_, i2, i3, i4⟩
        rcases List.mem_append.1 hm with hm | hm
        · exact i1 ei hm
        · obtain ⟨op, hf, hops⟩ := ht.2
          have hop : op = .internal ei := by
            rcases hops with rfl | rfl <;> simp at hm <;> exact hm.symm
          subst hop
          cases r with
          | watch p isrec c e => obtain ⟨res, hf⟩ := hf; cases hf
          | stop c => cases hf
          | internal ei' =>
            rcases hr' with ⟨i, hi⟩ | ⟨ei'', hi, _⟩
            · exact (i4 _ hi).elim
            · rw [i3] at hi; cases hi
      | intEffect ei t' hi hp ht hc => rw [i3] at hi; cases hi
      | effect i r a b t' hcalls hp ht hc =>
        rw [List.append_nil]
        refine ⟨i1, i2, i3, fun x hx => ?_⟩
        have hi : ∀ y ∈ a ++ (i, r, Sched.Call.locked) :: b, Y.user y.2.1 := hcalls ▸ i4
        rcases List.mem_append.1 hx with hx | hx
        · exact hi x (List.mem_append_left _ hx)
        · rcases List.mem_cons.1 hx with rfl | hx
          · exact hi (i, r, .locked) (by simp)
          · exact hi x (by simp [hx])
      | _ => rw [List.append_nil]; exact ⟨i1, i2, i3, i4⟩
  refine ⟨?_, key.1⟩
  have h1 := (LRun.reported h).2.2
  cases sg with
  | nil => rfl
  | cons x l => exact absurd (h1 x (.head _)) (not_reported hr _)

namespace OverEx

/-- The queue overflowed. -/
def over : Raw := { wd := 0, mask := inQOverflow }

theorem run : ∃ s, LRun Ex.cfg true (fun _ => True) (LSt.init Ex.fs 2) [Ex.op1] [over] [] s ∧ s.Quiet := by
  have same : ∀ {a b : PSt}, Inotify.NoLinks a.k.inode → b.k.inode = a.k.inode → Keeps a b := by
    intro a b h1 h2; exact ⟨by rw [h2]; exact h1, fun _ _ _ => by rw [h2]⟩
  have h := Ex.run1
  have h := h.step (.pipe [over] _ (.change over ⟨14, false, by simp, by decide⟩) rfl rfl (fun _ => same Ex.noLinks rfl)) trivial
  have h := h.step (.pipe [] _ (.read 1 rfl) rfl rfl (fun _ => same Ex.noLinks rfl)) trivial
  have h := h.step (.pipe [] _ (.hand 0 [over] rfl rfl) rfl rfl (fun _ => same Ex.noLinks rfl)) trivial
  have h := h.step (.pipe [] _ (.transform 0 [over] rfl) rfl rfl (fun _ => same Ex.noLinks rfl)) trivial
  have h := h.step (.pipe [] _ (.next 0 rfl) rfl rfl (fun _ => same Ex.noLinks rfl)) trivial
  exact ⟨_, h, ⟨rfl, rfl, by decide⟩, rfl, rfl⟩

example : ∃ s ops raws, LRun Ex.cfg true (fun _ => True) (LSt.init Ex.fs 2) ops raws [] s ∧ raws ≠ [] ∧ ∀ r ∈ raws, r.mask &&& 0xfff = 0 := by
  obtain ⟨s, h, _⟩ := run
  exact ⟨s, _, _, h, by simp, by simp; decide⟩

end OverEx

/-- **C116 is false of Linux**: channel 1 watches `/d`, the queue overflows, and it is signalled nothing. -/
theorem C116_linux_refuted : ¬ C116_linux_full := by
  intro h
  obtain ⟨s, h1, h2⟩ := OverEx.run
  obtain ⟨ei, he⟩ := h _ _ _ _ _ _ _ h1 h2 ⟨_, .head _, by decide⟩ 1 Ex.d (Ex.C, false) (by decide)
  cases he

end Linux

namespace Fsevents
open PathStr (Str str Comps)

/-- **C116, FSEvents**, in full: if FSEvents says about a path that events were lost there, a watch of this path or of one above or below it tells something. -/
def C116_fsevents_full : Prop :=
  ∀ (w : Watch) (p q : Path) (ev : FSEvent), Comps p → Comps q → w.path = str p → ev.path = str q → w.flushed = true → ev.flags &&& historyDone = 0 →
    ev.flags &&& failure ≠ 0 → (Inside w.isrec p q ∨ q <+: p) → (w.dispatch1 ev).2 ≠ []

/-- **C116, FSEvents: who asked for no such flag is told nothing**, not even of the other flags of the notification. -/
theorem C116_fsevents_unasked (w : Watch) (ev : FSEvent) (h : ev.flags &&& failure ≠ 0) (hw : failure &&& w.events = 0) : (w.dispatch1 ev).2 = [] := by
  rw [dispatch1_eq, if_pos (.inr (.inr ⟨h, hw⟩))]

/-- **C116, FSEvents: what holds.**  Who asked for the flag is told, if the path is watched. -/
theorem C116_fsevents_partial (w : Watch) (ev : FSEvent) {p q : Path} (hp : Comps p) (hq : Comps q) (hw : w.path = str p) (he : ev.path = str q)
    (hf : w.flushed = true) (hd : ev.flags &&& historyDone = 0) (hin : Inside w.isrec p q) {k : Nat} (hk : k < 3) (h1 : w.events.getLsbD k = true)
    (h2 : ev.flags.getLsbD k = true) : (ev, flag k) ∈ (w.dispatch1 ev).2 := by
  obtain ⟨b, hb⟩ := (base_str w hp hq hw).2 hin
  rw [dispatch1_eq, he, hb, if_neg]
  · refine List.mem_map.2 ⟨flag k, mem_splitflags.2 ⟨k, by omega, ?_, rfl⟩, rfl⟩
    rw [BitVec.getLsbD_and, h1, Bool.and_true, strip_eq]
    have hb : ∀ x : Event, x ∈ [created, removed, modified ||| inodeMetaMod] → x.getLsbD k = false := by
      intro x hx
      simp only [List.mem_cons, List.not_mem_nil, or_false] at hx
      have hk' : k = 0 ∨ k = 1 ∨ k = 2 := by omega
      rcases hx with rfl | rfl | rfl <;> rcases hk' with rfl | rfl | rfl <;> decide
    have hc := hb created (by simp)
    have hr := hb removed (by simp)
    have hm := hb (modified ||| inodeMetaMod) (by simp)
    unfold stripVal
    split
    · simp only; split <;> simp only [Event.bit_andNot, h2, hc, hm, Bool.not_false, Bool.and_true]
    · split
      · simp only; split <;> simp only [Event.bit_andNot, h2, hr, Bool.not_false, Bool.and_true]
      · split
        · exact h2
        · split
          · simp only [Event.bit_andNot, h2, hm, Bool.not_false, Bool.and_true]
          · exact h2
  · rintro (h | h | ⟨_, h⟩)
    · exact h hd
    · rw [hf] at h; cases h
    · have h3 : (failure &&& w.events).getLsbD k = true := by
        rw [BitVec.getLsbD_and, h1, Bool.and_true]
        have hk' : k = 0 ∨ k = 1 ∨ k = 2 := by omega
        rcases hk' with rfl | rfl | rfl <;> decide
      rw [h] at h3
      simp at h3

namespace DropEx

/-- A recursive watch on `/d` for Create and the three flags. -/
def w : Watch := { path := "/d".toList, events := 0x107, isrec := true, flushed := true }

/-- Something was lost in `/d/s`. -/
def sub : FSEvent := ⟨"/d/s".toList, 0x3⟩

example : (sub, flag 0) ∈ (w.dispatch1 sub).2 ∧ (sub, flag 1) ∈ (w.dispatch1 sub).2 :=
  ⟨C116_fsevents_partial w sub (p := [['d']]) (q := [['d'], ['s']]) (by simp [Comps, PathStr.sep]) (by simp [Comps, PathStr.sep]) rfl rfl rfl (by decide)
      ⟨⟨[['s']], rfl⟩, .inl rfl⟩ (by decide) (by decide) (by decide),
    C116_fsevents_partial w sub (p := [['d']]) (q := [['d'], ['s']]) (by simp [Comps, PathStr.sep]) (by simp [Comps, PathStr.sep]) rfl rfl rfl (by decide)
      ⟨⟨[['s']], rfl⟩, .inl rfl⟩ (by decide) (by decide) (by decide)⟩

/-- The same for a watch for Create only. -/
example : ({ w with events := 0x100 }.dispatch1 { sub with flags := 0x103 }).2 = [] := C116_fsevents_unasked _ _ (by decide) (by decide)

end DropEx

/-- **C116 is false of FSEvents**: the kernel dropped events and says so about the directory above the watched one; though the flags were asked for, nothing is told. -/
theorem C116_fsevents_refuted : ¬ C116_fsevents_full := by
  intro h
  exact h { DropEx.w with path := "/d/s".toList } [['d'], ['s']] [['d']] ⟨"/d".toList, 0x5⟩ (by simp [Comps, PathStr.sep]) (by simp [Comps, PathStr.sep]) rfl rfl rfl (by decide) (by decide)
    (.inr ⟨[['s']], rfl⟩) (by rw [dispatch1_eq]; rfl)

end Fsevents

namespace Win

/-- **C116, Windows**, in full: if the kernel says that the buffer of a directory overflowed, by completing a read without records, every channel that watches the directory
is signalled something. -/
def C116_windows_full : Prop :=
  ∀ (cfg : Sched.Cfg) (ops : List Rec.ROp) (wops : List Dcw.Op) (reps : List Note) (sg : List (Key × EventInfo)) (s : WSt),
    WRun cfg true [] [] WSt.init ops wops reps sg s → s.Quiet → ∀ dir, (dir, []) ∈ reps →
    ∀ c v, Sched.rwanted R ops c dir = some v → ∃ ei, (Key.user c, ei) ∈ sg

/-- **C116, Windows: nobody is told**: reads without records cause no signal. -/
theorem C116_windows_silent {cfg : Sched.Cfg} {safe : Bool} {ops : List Rec.ROp} {wops reps sg} {s : WSt} (h : WRun cfg safe [] [] WSt.init ops wops reps sg s)
    (hr : ∀ x ∈ reps, x.2 = []) : sg = [] := by
  induction h with
  | refl => rfl
  | step h0 hs _ ih =>
    rw [ih fun x hx => hr x (List.mem_append_left _ hx)]
    rw [List.nil_append, List.eq_nil_iff_forall_not_mem]
    intro x hx
    obtain ⟨dir, l', y, h2, h3, _⟩ := ((WRun.sinv h0).step hs).2 x hx
    have h4 : l' = [] := hr _ (List.mem_append_left _ h2)
    subst h4
    cases h3

namespace OverEx

/-- Channel 1 watches `/d`, and the read of `/d` is completed without records. -/
theorem run : ∃ s', WRun Ex.cfg true [Ex.op1] [Ex.wop1] Ex.s1 [] [.tau, .tau, .tau, .tau] [(Ex.d, [])] [] s' ∧ s'.Quiet := by
  have h := WRun.refl (cfg := Ex.cfg) (safe := true) (pre := [Ex.op1]) (wpre := [Ex.wop1]) (s := Ex.s1)
  have h := h.step (.complete Ex.r0 [] (by decide) (by intro z hz; cases hz)) (fun _ => ⟨by simp, Ex.one (.complete Ex.r0 (by decide))⟩)
  have h := h.step (.take 0 [] [] rfl rfl rfl) (fun _ => ⟨by simp, Ex.one .take⟩)
  have h := h.step (.again 0 true rfl rfl) (fun _ => ⟨by simp, Ex.one .again⟩)
  have h := h.step (.state 0 {} {} (Ex.gst (Dcw.loopstate (Dcw.again (Dcw.take Ex.w2) true) {} {})) rfl rfl) (fun _ => ⟨by simp, Ex.one (.state _ rfl)⟩)
  exact ⟨_, h, rfl, rfl, rfl, rfl, rfl⟩

example : ∃ s ops wops reps, WRun Ex.cfg true [] [] WSt.init ops wops reps [] s ∧ reps ≠ [] ∧ ∀ x ∈ reps, x.2 = [] := by
  obtain ⟨s, h, _⟩ := run
  exact ⟨s, _, _, _, Ex.run1.trans (o2 := []) h, by simp, by simp⟩

end OverEx

/-- **C116 is false of Windows**: the buffer of `/d` overflows, and channel 1, which watches it, is signalled nothing. -/
theorem C116_windows_refuted : ¬ C116_windows_full := by
  intro h
  obtain ⟨s, h1, h2⟩ := OverEx.run
  obtain ⟨ei, he⟩ := h _ _ _ _ _ _ (Ex.run1.trans (o2 := []) h1) h2 Ex.d (.head _) 1 (Ex.C, false) (by decide)
  cases he

end Win
end Verif
