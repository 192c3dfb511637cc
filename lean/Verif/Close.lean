/-
Closing a watcher (C86).

The contract is in /repo/watcher.go:42-44: "When Close returns, it is expected it will report no more events."  After it the trees close the
channel on which the watcher reports (/repo/tree_nonrecursive.go:305-309, /repo/tree_recursive.go:350-354), and a send on a closed channel panics.

Models
* /repo/watcher_inotify.go: `Close` (369-392), `loop` (185-214), `send` (248-257) with `consumersCount` goroutines;
* /repo/watcher_readdcw.go: `Close` (552-573), `loop` (344-374) and `send` (424-453);
* /repo/watcher_trigger.go: `Close` (118-141), `monitor` (399-416), `process` (419-454) with its lock, `send` (144-148);
* FSEvents: `Streams`.

Each is a transition system of the goroutines.  What is reported is only counted.  The tree receives at any time (`C30`).

Simplifications: no Watch, Rewatch or Unwatch runs at the same time as Close or after it.  Writing a byte to the pipe, posting a packet to the completion port, and the
stop call of the trigger succeed; where they fail, Close returns an error at once, which is not the case of the contract.  Critical sections in which nothing is waited
for are one step; for the trigger, whose `Close` waits with the lock held, the lock is explicit.
-/
import Verif.InotifyPipe
import Verif.Streams

namespace Verif
namespace Close

/-- Whoever calls Close. -/
inductive Closer
  | idle
  /-- In Close, at the point where it waits. -/
  | waits
  /-- Close has returned. -/
  | returned
  deriving DecidableEq, Repr

/-- Repetition of a step relation. -/
inductive Star {σ : Type} (R : σ → σ → Prop) : σ → σ → Prop
  | refl (s) : Star R s s
  | tail {s t u} : Star R s t → R t u → Star R s u

theorem Star.trans {σ : Type} {R : σ → σ → Prop} {s t u : σ} (h : Star R s t) (h' : Star R t u) : Star R s u := by
  induction h' with
  | refl => exact h
  | tail _ hr ih => exact .tail ih hr

theorem Star.keep {σ : Type} {R : σ → σ → Prop} {I : σ → Prop} (hI : ∀ s t, I s → R s t → I t) {s t : σ} (h : Star R s t) (hs : I s) : I t := by
  induction h with
  | refl => exact hs
  | tail _ hr ih => exact hI _ _ ih hr

/-! ### inotify -/
namespace Ino

/-- `loop`: at EpollWait, at `esch <- i.read()` with records, returned. -/
inductive Loop
  | wait
  | hand (n : Nat)
  | ended
  deriving DecidableEq, Repr

/-- `send`: at the receive, with events still to be reported, after `wg.Done()`. -/
inductive Cons
  | idle
  | busy (n : Nat)
  | done
  deriving DecidableEq, Repr

structure S where
  /-- Records in the kernel's queue. -/
  queue : Nat := 0
  loop : Loop := .wait
  cons : List Cons
  /-- A byte is in the pipe. -/
  pipe : Bool := false
  closer : Closer := .idle
  /-- Events reported. -/
  sent : Nat := 0
  deriving DecidableEq, Repr

/-- After `lazyinit`. -/
def init : S := { cons := List.replicate Inotify.consumersCount .idle }

inductive Step : S → S → Prop
  /-- The kernel queues a record; there are none without a watch. -/
  | kernel {s} : s.closer = .idle → Step s { s with queue := s.queue + 1 }
  /-- Close up to the wait (369-388): inotify_rm_watch queues a record for each watch, and the byte is written. -/
  | close {s} (k : Nat) : s.closer = .idle → Step s { s with closer := .waits, queue := s.queue + k, pipe := true }
  /-- The inotify descriptor is ready and the records are read (192-193). -/
  | read {s} (n : Nat) : s.loop = .wait → 0 < n → n ≤ s.queue → Step s { s with loop := .hand n, queue := s.queue - n }
  /-- A goroutine receives the records (249) and transforms them: none, one or two events for each. -/
  | hand {s i n} (k : Nat) : s.loop = .hand n → s.cons[i]? = some .idle → k ≤ 2 * n →
      Step s { s with loop := .wait, cons := s.cons.set i (.busy k) }
  /-- It reports an event (252). -/
  | send {s i k} : s.cons[i]? = some (.busy (k + 1)) → Step s { s with cons := s.cons.set i (.busy k), sent := s.sent + 1 }
  /-- It goes back to the receive. -/
  | back {s i} : s.cons[i]? = some (.busy 0) → Step s { s with cons := s.cons.set i .idle }
  /-- The pipe is ready: the descriptors and `esch` are closed (195-206). -/
  | stop {s} : s.loop = .wait → s.pipe = true → Step s { s with loop := .ended }
  /-- `esch` is closed: the goroutine ends (256). -/
  | done {s i} : s.loop = .ended → s.cons[i]? = some .idle → Step s { s with cons := s.cons.set i .done }
  /-- `wg.Wait()` returns (389). -/
  | ret {s} : s.closer = .waits → (∀ c ∈ s.cons, c = .done) → Step s { s with closer := .returned }

structure Inv (s : S) : Prop where
  len : 0 < s.cons.length
  done : .done ∈ s.cons → s.loop = .ended
  pipe : s.closer = .idle ∨ s.pipe = true
  ended : s.loop = .ended → s.closer ≠ .idle
  pclose : s.pipe = true → s.closer ≠ .idle
  ret : s.closer = .returned → ∀ c ∈ s.cons, c = .done

theorem Inv.init : Inv init := by
  constructor <;> simp [Ino.init, Inotify.consumersCount]

theorem mem_set {l : List Cons} {i : Nat} {x c : Cons} (h : c ∈ l.set i x) : c ∈ l ∨ c = x := by
  rcases List.mem_or_eq_of_mem_set h with h | h
  · exact .inl h
  · exact .inr h

theorem Inv.step {s t : S} (h : Inv s) (r : Step s t) : Inv t := by
  have hnd : ∀ {i : Nat} {c : Cons}, s.cons[i]? = some c → c ≠ Cons.done → s.closer ≠ .returned :=
    fun hi hc hr => hc (h.ret hr _ (List.mem_of_getElem? hi))
  cases r with
  | kernel hc => exact ⟨h.len, h.done, h.pipe, h.ended, h.pclose, h.ret⟩
  | close k hc => exact ⟨h.len, h.done, .inr rfl, by simp, by simp, by simp⟩
  | read n h1 h2 h3 =>
    exact ⟨h.len, fun hd => absurd (h.done hd) (by simp [h1]), h.pipe, by simp, h.pclose, h.ret⟩
  | hand k h1 h2 h3 =>
    refine ⟨by simpa using h.len, fun hd => ?_, h.pipe, by simp, h.pclose, fun hr => absurd hr (hnd h2 (by simp))⟩
    rcases mem_set hd with hd | hd
    · exact absurd (h.done hd) (by simp [h1])
    · cases hd
  | send h1 =>
    refine ⟨by simpa using h.len, fun hd => ?_, h.pipe, h.ended, h.pclose, fun hr => absurd hr (hnd h1 (by simp))⟩
    rcases mem_set hd with hd | hd
    · exact h.done hd
    · cases hd
  | back h1 =>
    refine ⟨by simpa using h.len, fun hd => ?_, h.pipe, h.ended, h.pclose, fun hr => absurd hr (hnd h1 (by simp))⟩
    rcases mem_set hd with hd | hd
    · exact h.done hd
    · cases hd
  | stop h1 h2 => exact ⟨h.len, fun _ => rfl, h.pipe, fun _ => h.pclose h2, h.pclose, h.ret⟩
  | done h1 h2 => exact ⟨by simpa using h.len, fun _ => h1, h.pipe, h.ended, h.pclose, fun hr => absurd hr (hnd h2 (by simp))⟩
  | ret h1 h2 => exact ⟨h.len, h.done, .inr (h.pipe.resolve_left (by simp [h1])), by simp, by simp, fun _ => h2⟩

theorem Inv.reach {s : S} (h : Star Step Ino.init s) : Inv s := Star.keep (I := Inv) (fun _ _ hi r => Inv.step hi r) h .init

/-- **C86, inotify, no events after Close.**  Under every schedule: once Close has returned, nothing happens any more. -/
theorem C86_silent {s t : S} (h : Star Step init s) (hr : s.closer = .returned) (h' : Star Step s t) : t = s := by
  have hi := Inv.reach h
  have hd := hi.ret hr
  have hl : s.loop = .ended := by
    obtain ⟨c, hc⟩ := List.exists_mem_of_length_pos hi.len
    exact hi.done (hd c hc ▸ hc)
  have no : ∀ u, ¬ Step s u := by
    intro u r
    cases r with
    | kernel hc => simp [hr] at hc
    | close k hc => simp [hr] at hc
    | read n h1 => simp [hl] at h1
    | hand k h1 => simp [hl] at h1
    | send h1 => exact absurd (hd _ (List.mem_of_getElem? h1)) (by simp)
    | back h1 => exact absurd (hd _ (List.mem_of_getElem? h1)) (by simp)
    | stop h1 => simp [hl] at h1
    | done _ h2 => exact absurd (hd _ (List.mem_of_getElem? h2)) (by simp)
    | ret h1 => simp [hr] at h1
  induction h' with
  | refl => rfl
  | tail _ r ih => subst ih; exact absurd r (no _)

/-- **C86, inotify, Close is never stuck.**  While Close waits, something can happen. -/
theorem C86_progress {s : S} (h : Star Step init s) (hw : s.closer = .waits) : ∃ t, Step s t := by
  have hi := Inv.reach h
  have hp : s.pipe = true := hi.pipe.resolve_left (by simp [hw])
  by_cases hall : ∀ c ∈ s.cons, c = .done
  · exact ⟨_, .ret hw hall⟩
  · have : ∃ c ∈ s.cons, c ≠ .done := by
      apply Classical.byContradiction
      intro hc
      exact hall fun c hm => Classical.byContradiction fun hne => hc ⟨c, hm, hne⟩
    obtain ⟨c, hm, hne⟩ := this
    obtain ⟨i, hi'⟩ := List.getElem?_of_mem hm
    cases c with
    | done => exact absurd rfl hne
    | busy k =>
      cases k with
      | zero => exact ⟨_, .back hi'⟩
      | succ k => exact ⟨_, .send hi'⟩
    | idle =>
      cases hl : s.loop with
      | wait => exact ⟨_, .stop hl hp⟩
      | hand n => exact ⟨_, .hand 0 hl hi' (by omega)⟩
      | ended => exact ⟨_, .done hl hi'⟩

/-- What is left to do: an upper bound for the number of steps until Close returns. -/
def Cons.left : Cons → Nat
  | .idle => 1
  | .busy k => k + 2
  | .done => 0

def Loop.left : Loop → Nat
  | .wait => 1
  | .hand n => 2 * n + 3
  | .ended => 0

def left (s : S) : Nat :=
  5 * s.queue + s.loop.left + (s.cons.map Cons.left).sum + (if s.closer = .waits then 1 else 0)

theorem sum_set : ∀ {l : List Cons} {i : Nat} {c x : Cons}, l[i]? = some c →
    ((l.set i x).map Cons.left).sum + c.left = (l.map Cons.left).sum + x.left
  | [], i, c, x, h => by simp at h
  | a :: l, 0, c, x, h => by
    simp only [List.getElem?_cons_zero, Option.some.injEq] at h
    subst h
    simp only [List.set_cons_zero, List.map_cons, List.sum_cons]; omega
  | a :: l, i + 1, c, x, h => by
    rw [List.getElem?_cons_succ] at h
    have := sum_set (x := x) h
    simp only [List.set_cons_succ, List.map_cons, List.sum_cons]; omega

/-- **C86, inotify, Close returns.**  Once Close has begun, every step leaves less to do; so with C86_progress Close returns after at most `left s` steps of the watcher. -/
theorem C86_returns {s t : S} (hc : s.closer ≠ .idle) (r : Step s t) : left t < left s := by
  cases r with
  | kernel h => exact absurd h hc
  | close k h => exact absurd h hc
  | read n h1 h2 h3 =>
    simp only [left, h1, Loop.left]; omega
  | hand k h1 h2 h3 =>
    have := sum_set (x := .busy k) h2
    simp only [left, h1, Loop.left, Cons.left] at this ⊢; omega
  | @send i k h1 =>
    have := sum_set (x := .busy k) h1
    simp only [left, Cons.left] at this ⊢; omega
  | back h1 =>
    have := sum_set (x := .idle) h1
    simp only [left, Cons.left] at this ⊢; omega
  | stop h1 h2 => simp only [left, h1, Loop.left]; omega
  | done h1 h2 =>
    have := sum_set (x := .done) h2
    simp only [left, Cons.left] at this ⊢; omega
  | ret h1 h2 => simp only [left, h1]; simp

/-- Close begins while a goroutine has two events to report and the loop has a record in hand; it returns when they are reported. -/
example : ∃ s t : S, Star Step init s ∧ s.closer = .waits ∧ s.loop = .hand 1 ∧ s.cons = [.busy 2, .idle] ∧ Star Step s t ∧ t.closer = .returned ∧
    t.sent = 3 := by
  refine ⟨⟨0, .hand 1, [.busy 2, .idle], true, .waits, 0⟩, ⟨0, .ended, [.done, .done], true, .returned, 3⟩, ?_, rfl, rfl, rfl, ?_, rfl, rfl⟩
  · have h1 : Star Step init ⟨0, .hand 1, [.idle, .idle], false, .idle, 0⟩ :=
      .tail (.tail (.refl _) (.kernel rfl)) (.read 1 rfl (by decide) (by decide))
    have h2 : Star Step init ⟨1, .wait, [.busy 2, .idle], true, .waits, 0⟩ :=
      .tail (.tail h1 (.hand (i := 0) (n := 1) 2 rfl rfl (by decide))) (.close 1 rfl)
    exact .tail h2 (.read 1 rfl (by decide) (by decide))
  · refine .tail (.tail (.tail (.tail (.tail (.tail (.tail (.tail (.tail (.tail (.refl _)
      (.hand (i := 1) (n := 1) 1 rfl rfl (by decide))) (.send (i := 0) rfl)) (.send (i := 0) rfl)) (.stop rfl rfl)) (.send (i := 1) rfl)) (.back (i := 0) rfl))
      (.back (i := 1) rfl)) (.done (i := 0) rfl rfl)) (.done (i := 1) rfl rfl)) (.ret rfl (by decide))

end Ino

/-! ### ReadDirectoryChangesW -/
namespace Dcw

/-- A packet in the completion port: for a handle, with a number of records; or posted by Close. -/
inductive Packet
  | handle (n : Nat)
  | close
  deriving DecidableEq, Repr

/-- `loop`: at GetQueuedCompletionStatus, with events to report before the handle is read again, after `wg.Done()`. -/
inductive Loop
  | wait
  | busy (n : Nat)
  | ended
  deriving DecidableEq, Repr

structure S where
  /-- The completion port, oldest packet first. -/
  port : List Packet := []
  /-- Reads that wait for changes. -/
  reads : Nat := 0
  loop : Loop := .wait
  closer : Closer := .idle
  sent : Nat := 0
  deriving DecidableEq, Repr

inductive Step : S → S → Prop
  /-- A Watch starts a read. -/
  | watch {s} : s.closer = .idle → Step s { s with reads := s.reads + 1 }
  /-- A read ends with `n` records. -/
  | kernel {s} (n : Nat) : 0 < s.reads → Step s { s with reads := s.reads - 1, port := s.port ++ [.handle n] }
  /-- Close up to the wait (552-570): every handle is closed, by which its read ends without a record; then the last packet is posted. -/
  | close {s} : s.closer = .idle →
      Step s { s with closer := .waits, reads := 0, port := s.port ++ List.replicate s.reads (.handle 0) ++ [.close] }
  /-- The loop takes a packet (348); two events at most are reported for each record. -/
  | take {s n p} (k : Nat) : s.loop = .wait → s.port = .handle n :: p → k ≤ 2 * n → Step s { s with loop := .busy k, port := p }
  | send {s k} : s.loop = .busy (k + 1) → Step s { s with loop := .busy k, sent := s.sent + 1 }
  /-- `readDirChanges` (369): a new read if the handle is open. -/
  | again {s} : s.loop = .busy 0 → s.closer = .idle → Step s { s with loop := .wait, reads := s.reads + 1 }
  /-- `readDirChanges` fails: always after Close. -/
  | fail {s} : s.loop = .busy 0 → Step s { s with loop := .wait }
  /-- The packet of Close (349-356). -/
  | stop {s p} : s.loop = .wait → s.port = .close :: p → Step s { s with loop := .ended, port := p }
  | ret {s} : s.closer = .waits → s.loop = .ended → Step s { s with closer := .returned }

structure Inv (s : S) : Prop where
  idle : s.closer = .idle → .close ∉ s.port ∧ s.loop ≠ .ended
  waits : s.closer = .waits → s.reads = 0 ∧ (s.loop = .ended ∨ .close ∈ s.port)
  ret : s.closer = .returned → s.reads = 0 ∧ s.loop = .ended

theorem Inv.step {s t : S} (h : Inv s) (r : Step s t) : Inv t := by
  have hne : ∀ {n}, s.loop = .busy n → s.closer ≠ .returned := fun hl hr => by simp [(h.ret hr).2] at hl
  have hnw : s.loop = .wait → s.closer ≠ .returned := fun hl hr => by simp [(h.ret hr).2] at hl
  cases r with
  | watch hc => exact ⟨h.idle, by simp [hc], by simp [hc]⟩
  | kernel n h1 =>
    refine ⟨fun hc => ⟨by simp [(h.idle hc).1], (h.idle hc).2⟩, fun hc => ?_, fun hc => ?_⟩
    · have := (h.waits hc).1; omega
    · have := (h.ret hc).1; omega
  | close hc => exact ⟨by simp, by simp, by simp⟩
  | @take n p k h1 h2 h3 =>
    refine ⟨fun hc => ⟨?_, by simp⟩, fun hc => ⟨(h.waits hc).1, .inr ?_⟩, fun hc => absurd hc (hnw h1)⟩
    · have := (h.idle hc).1; rw [h2] at this; exact fun hm => this (List.mem_cons_of_mem _ hm)
    · rcases (h.waits hc).2 with h4 | h4
      · simp [h1] at h4
      · rw [h2] at h4; simpa using h4
  | send h1 =>
    exact ⟨fun hc => ⟨(h.idle hc).1, by simp⟩, fun hc => ⟨(h.waits hc).1, .inr ((h.waits hc).2.resolve_left (by simp [h1]))⟩,
      fun hc => absurd hc (hne h1)⟩
  | again h1 h2 => exact ⟨fun hc => ⟨(h.idle hc).1, by simp⟩, by simp [h2], by simp [h2]⟩
  | fail h1 =>
    exact ⟨fun hc => ⟨(h.idle hc).1, by simp⟩, fun hc => ⟨(h.waits hc).1, .inr ((h.waits hc).2.resolve_left (by simp [h1]))⟩,
      fun hc => absurd hc (hne h1)⟩
  | stop h1 h2 =>
    refine ⟨fun hc => absurd (h2 ▸ List.mem_cons_self) (h.idle hc).1, fun hc => ⟨(h.waits hc).1, .inl rfl⟩, fun hc => ⟨(h.ret hc).1, rfl⟩⟩
  | ret h1 h2 => exact ⟨by simp, by simp, fun _ => ⟨(h.waits h1).1, h2⟩⟩

theorem Inv.reach {s : S} (h : Star Step {} s) : Inv s := Star.keep (I := Inv) (fun _ _ hi r => Inv.step hi r) h (by constructor <;> simp)

/-- **C86, Windows, no events after Close.** -/
theorem C86_silent {s t : S} (h : Star Step {} s) (hr : s.closer = .returned) (h' : Star Step s t) : t = s := by
  obtain ⟨h1, h2⟩ := (Inv.reach h).ret hr
  have no : ∀ u, ¬ Step s u := by
    intro u r
    cases r <;> simp_all
  induction h' with
  | refl => rfl
  | tail _ r ih => subst ih; exact absurd r (no _)

/-- **C86, Windows, Close is never stuck.** -/
theorem C86_progress {s : S} (h : Star Step {} s) (hw : s.closer = .waits) : ∃ t, Step s t := by
  obtain ⟨-, h2⟩ := (Inv.reach h).waits hw
  cases hl : s.loop with
  | ended => exact ⟨_, .ret hw hl⟩
  | busy n =>
    cases n with
    | zero => exact ⟨_, .fail hl⟩
    | succ n => exact ⟨_, .send hl⟩
  | wait =>
    have hm : .close ∈ s.port := h2.resolve_left (by simp [hl])
    cases hp : s.port with
    | nil => simp [hp] at hm
    | cons x p =>
      cases x with
      | close => exact ⟨_, .stop hl hp⟩
      | handle n => exact ⟨_, .take 0 hl hp (by omega)⟩

def Packet.left : Packet → Nat
  | .handle n => 2 * n + 2
  | .close => 0

def Loop.left : Loop → Nat
  | .wait => 1
  | .busy n => n + 2
  | .ended => 0

def left (s : S) : Nat := (s.port.map Packet.left).sum + s.loop.left + (if s.closer = .waits then 1 else 0)

/-- **C86, Windows, Close returns.** -/
theorem C86_returns {s t : S} (h : Star Step {} s) (hc : s.closer ≠ .idle) (r : Step s t) : left t < left s := by
  have hi := Inv.reach h
  have hr0 : s.reads = 0 := by
    cases hs : s.closer with
    | idle => exact absurd hs hc
    | waits => exact (hi.waits hs).1
    | returned => exact (hi.ret hs).1
  cases r with
  | watch h => exact absurd h hc
  | kernel n h1 => omega
  | close h => exact absurd h hc
  | take k h1 h2 h3 => simp only [left, h1, h2, Loop.left, Packet.left, List.map_cons, List.sum_cons]; omega
  | send h1 => simp only [left, h1, Loop.left]; omega
  | again h1 h2 => exact absurd h2 hc
  | fail h1 => simp only [left, h1, Loop.left]; omega
  | stop h1 h2 => simp only [left, h1, h2, Loop.left, Packet.left, List.map_cons, List.sum_cons]; omega
  | ret h1 h2 => simp only [left, h1]; simp

/-- Close begins while records wait in the port: they are reported before it returns. -/
example : ∃ s t : S, Star Step {} s ∧ s.closer = .waits ∧ s.port = [.handle 1, .handle 0, .close] ∧ Star Step s t ∧ t.closer = .returned ∧ t.sent = 1 := by
  refine ⟨⟨[.handle 1, .handle 0, .close], 0, .wait, .waits, 0⟩, ⟨[], 0, .ended, .returned, 1⟩, ?_, rfl, rfl, ?_, rfl, rfl⟩
  · exact .tail (.tail (.tail (.tail (.refl _) (.watch rfl)) (.watch rfl)) (.kernel 1 (by decide))) (.close rfl)
  · exact .tail (.tail (.tail (.tail (.tail (.tail (.tail (.refl _) (.take 1 rfl rfl (by decide))) (.send rfl)) (.fail rfl)) (.take 0 rfl rfl (by decide))) (.fail rfl))
      (.stop rfl rfl)) (.ret rfl rfl)

end Dcw

/-! ### kqueue and FEN -/
namespace Trg

/-- `monitor`: at Wait, with a notification before it has the lock, with events to report (the lock is released), after the send on `t.s`. -/
inductive Mon
  | wait
  | got
  | busy (n : Nat)
  | ended
  deriving DecidableEq, Repr

structure S where
  /-- Notifications in the kernel. -/
  queue : Nat := 0
  mon : Mon := .wait
  /-- The stop notification is in the kernel. -/
  stop : Bool := false
  closer : Closer := .idle
  sent : Nat := 0
  deriving DecidableEq, Repr

/-- Close holds the lock exactly while it waits for `t.s` (from 119 to 139). -/
def locked (s : S) : Prop := s.closer = .waits

/-- On Solaris (`fen`) a port that was alerted hands out nothing but the alert; a kqueue hands out its notifications in any order. -/
inductive Step (fen : Bool) : S → S → Prop
  /-- A watched file changes; watches end when Close has returned. -/
  | kernel {s} : s.closer ≠ .returned → Step fen s { s with queue := s.queue + 1 }
  /-- Close takes the lock and calls Stop (119-120). -/
  | close {s} : s.closer = .idle → Step fen s { s with closer := .waits, stop := true }
  /-- Wait returns a notification (405). -/
  | wait {s} : s.mon = .wait → 0 < s.queue → (fen = true → s.stop = false) → Step fen s { s with mon := .got, queue := s.queue - 1 }
  /-- `process` from Lock to Unlock (420-452). -/
  | process {s} (k : Nat) : s.mon = .got → ¬ locked s → Step fen s { s with mon := .busy k }
  | send {s k} : s.mon = .busy (k + 1) → Step fen s { s with mon := .busy k, sent := s.sent + 1 }
  | back {s} : s.mon = .busy 0 → Step fen s { s with mon := .wait }
  /-- Wait returns the stop notification (407-409). -/
  | ended {s} : s.mon = .wait → s.stop = true → Step fen s { s with mon := .ended }
  /-- `<-t.s`, the watches are removed, the lock is released (124-141). -/
  | ret {s} : s.closer = .waits → s.mon = .ended → Step fen s { s with closer := .returned, queue := 0 }

structure Inv (s : S) : Prop where
  idle : s.closer = .idle → s.stop = false ∧ s.mon ≠ .ended
  waits : s.closer = .waits → s.stop = true
  ret : s.closer = .returned → s.mon = .ended

theorem Inv.step {fen : Bool} {s t : S} (h : Inv s) (r : Step fen s t) : Inv t := by
  have hne : s.mon ≠ .ended → s.closer ≠ .returned := fun hl hr => hl (h.ret hr)
  cases r with
  | kernel hc => exact ⟨h.idle, h.waits, h.ret⟩
  | close hc => exact ⟨by simp, by simp, by simp⟩
  | wait h1 h2 h3 => exact ⟨fun hc => ⟨(h.idle hc).1, by simp⟩, h.waits, fun hc => absurd hc (hne (by simp [h1]))⟩
  | process k h1 h2 => exact ⟨fun hc => ⟨(h.idle hc).1, by simp⟩, h.waits, fun hc => absurd hc (hne (by simp [h1]))⟩
  | send h1 => exact ⟨fun hc => ⟨(h.idle hc).1, by simp⟩, h.waits, fun hc => absurd hc (hne (by simp [h1]))⟩
  | back h1 => exact ⟨fun hc => ⟨(h.idle hc).1, by simp⟩, h.waits, fun hc => absurd hc (hne (by simp [h1]))⟩
  | ended h1 h2 => exact ⟨fun hc => by simp [(h.idle hc).1] at h2, h.waits, fun _ => rfl⟩
  | ret h1 h2 => exact ⟨by simp, by simp, fun _ => h2⟩

theorem Inv.reach {fen : Bool} {s : S} (h : Star (Step fen) {} s) : Inv s := Star.keep (I := Inv) (fun _ _ hi r => Inv.step hi r) h (by constructor <;> simp)

/-- **C86, kqueue and FEN, no events after Close.** -/
theorem C86_silent {fen : Bool} {s t : S} (h : Star (Step fen) {} s) (hr : s.closer = .returned) (h' : Star (Step fen) s t) : t = s := by
  have hm := (Inv.reach h).ret hr
  have no : ∀ u, ¬ Step fen s u := by
    intro u r
    cases r <;> simp_all
  induction h' with
  | refl => rfl
  | tail _ r ih => subst ih; exact absurd r (no _)

/-- **C86 is false with kqueue and FEN: Close may never return.**  It waits for the monitor with the lock in its hands; if the monitor gets a notification instead of the stop, it
waits for the lock.  This is so in every state in which Close waits and the monitor has a notification, whatever happens afterwards. -/
theorem C86_hangs_refuted {fen : Bool} {s t : S} (hw : s.closer = .waits) (hm : s.mon = .got) (h : Star (Step fen) s t) :
    t.closer = .waits ∧ t.mon = .got ∧ t.sent = s.sent := by
  refine Star.keep (I := fun t => t.closer = .waits ∧ t.mon = .got ∧ t.sent = s.sent) ?_ h ⟨hw, hm, rfl⟩
  rintro a b ⟨h1, h2, h3⟩ r
  cases r with
  | kernel hc => exact ⟨h1, h2, h3⟩
  | close hc => simp [h1] at hc
  | wait h4 => simp [h2] at h4
  | process k _ h5 => exact absurd h1 h5
  | send h4 => simp [h2] at h4
  | back h4 => simp [h2] at h4
  | ended h4 => simp [h2] at h4
  | ret _ h5 => simp [h2] at h5

/-- The state is reached by one change of a watched file just before Close.  With kqueue a change while Close waits for the monitor is enough. -/
theorem C86_reached_refuted :
    (∀ fen, ∃ s, Star (Step fen) {} s ∧ s.closer = .waits ∧ s.mon = .got) ∧
    (∀ s : S, s.closer = .waits → s.mon = .wait → ∃ t, Star (Step false) s t ∧ t.closer = .waits ∧ t.mon = .got) := by
  refine ⟨fun _ => ⟨_, .tail (.tail (.tail (.refl _) (.kernel (by simp))) (.wait rfl (by simp) (by simp))) (.close rfl), rfl, rfl⟩, fun s hw hm => ?_⟩
  exact ⟨_, .tail (.tail (.refl _) (.kernel (by simp [hw]))) (.wait (by simp [hm]) (by simp) (by simp)), hw, rfl⟩

def Mon.left : Mon → Nat
  | .wait => 1
  | .got => 0
  | .busy n => n + 2
  | .ended => 0

def left (s : S) : Nat := s.mon.left + (if s.closer = .waits then 1 else 0)

/-- **C86, kqueue and FEN, Close returns (partial).**  Suppose the monitor has no notification in its hands when Close has the lock and, with kqueue, the kernel has none and no
watched file changes any more.  Then every step of the watcher leaves less to do, and there is always one until Close has returned.  Missing: all other cases, in which it need not
return. -/
theorem C86_returns_partial {fen : Bool} {s t : S} (h : Star (Step fen) {} s) (hw : s.closer = .waits) (hm : s.mon ≠ .got)
    (hq : fen = false → s.queue = 0) (h' : Star (fun a b => Step fen a b ∧ (fen = false → b.queue ≤ a.queue)) s t) :
    (∀ u, Step fen t u → u.queue ≤ t.queue → left u < left t) ∧
    (t.closer = .returned ∨ ∃ u, Step fen t u ∧ u.queue ≤ t.queue) := by
  have hi : Inv t ∧ (fen = false → t.queue = 0) ∧ t.mon ≠ .got ∧ t.closer ≠ .idle ∧ t.stop = true := by
    refine Star.keep (I := fun t => Inv t ∧ (fen = false → t.queue = 0) ∧ t.mon ≠ .got ∧ t.closer ≠ .idle ∧ t.stop = true) ?_ h'
      ⟨Inv.reach h, hq, hm, by simp [hw], (Inv.reach h).waits hw⟩
    rintro a b ⟨h1, h2, h3, h4, h5⟩ ⟨r, hb⟩
    refine ⟨h1.step r, fun hf => by have := hb hf; have := h2 hf; omega, ?_, ?_, ?_⟩
    · cases r with
      | wait _ h6 h7 =>
        cases fen with
        | true => simp [h5] at h7
        | false => have := h2 rfl; omega
      | kernel => exact h3
      | close hc => exact h3
      | process k h5 => exact absurd h5 h3
      | send => simp
      | back => simp
      | ended => simp
      | ret => exact h3
    · cases r <;> simp_all
    · cases r <;> simp_all
  obtain ⟨h1, h2, h3, h4, h5⟩ := hi
  constructor
  · intro u r hb
    cases r with
    | kernel => exact absurd hb (by simp)
    | close hc => exact absurd hc h4
    | wait _ h6 h7 =>
      cases fen with
      | true => simp [h5] at h7
      | false => have := h2 rfl; omega
    | process k h5 => exact absurd h5 h3
    | send h5 => simp only [left, h5, Mon.left]; omega
    | back h5 => simp only [left, h5, Mon.left]; omega
    | ended h5 h6 => simp only [left, h5, Mon.left]; omega
    | ret h5 h6 => simp only [left, h5]; simp
  · cases hc : t.closer with
    | idle => exact absurd hc h4
    | returned => exact .inl rfl
    | waits =>
      right
      cases hm' : t.mon with
      | wait => exact ⟨_, .ended hm' (h1.waits hc), Nat.le_refl _⟩
      | got => exact absurd hm' h3
      | busy k =>
        cases k with
        | zero => exact ⟨_, .back hm', Nat.le_refl _⟩
        | succ k => exact ⟨_, .send hm', Nat.le_refl _⟩
      | ended => exact ⟨_, .ret hc hm', Nat.zero_le _⟩

example : ∃ s : S, Star (Step false) {} s ∧ s.closer = .waits ∧ s.queue = 0 ∧ s.mon = .busy 1 :=
  ⟨_, .tail (.tail (.tail (.tail (.refl _) (.kernel (by simp))) (.wait rfl (by simp) (by simp))) (.process 1 rfl (by simp [locked]))) (.close rfl), rfl, rfl, rfl⟩

end Trg
end Close

namespace Streams

/-- **C86 is false of FSEvents.**  When Close returns, a callback may have its function in hand; it forwards its events after that. -/
theorem C86_late_refuted : ∃ ops s, Hist (ops ++ [.close]) s ∧ (1, 0) ∈ s.busy := by
  refine ⟨_, _, .close (.take (k := 1) (w := 0) (p := Ex.a) (.watch Ex.a .ok .nil) (by decide)), by decide⟩

/-- **C86, FSEvents (partial).**  If every stream started, no callback finds its function after Close.  Missing: callbacks that have it already, and streams that did not start. -/
theorem C86_close_partial {ops : List Op} {s : S} (h : Hist ops s) (hs : ∀ op ∈ ops, ¬ op.failedStart) (k : Nat) : take (close s) k = close s := by
  have h' := Hist.close h
  have hs' : ∀ op ∈ ops ++ [.close], ¬ op.failedStart := by
    intro op ho
    rcases List.mem_append.1 ho with ho | ho
    · exact hs op ho
    · rw [List.mem_singleton.1 ho]; simp [Op.failedStart]
  unfold take
  cases hm : (close s).m.get? k with
  | none => rfl
  | some w =>
    obtain ⟨p, hp⟩ := (C76_clean_partial h' hs' k w).1 hm
    simp [close] at hp

end Streams
end Verif
