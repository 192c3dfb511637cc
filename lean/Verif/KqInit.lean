/-
Start-up of the watchers of the BSDs and of Solaris, which runs when the program starts (C84).

Models /repo/notify.go:22 (`var defaultTree = newTree()`), /repo/tree.go:15-22, /repo/watcher_trigger.go: newWatcher (102-115), Close (118-141) as far as it
is reached from there; /repo/watcher_kqueue.go: newTrigger (18-23), Stop (47-51), Close (54-56), Init (102-117); /repo/watcher_fen.go: newTrigger (17-22),
Stop (41-43), Init (88-91); /repo/watcher_fen_cgo.go: portCreate (122-125), portAlert (127-130).

The fields `fd` and `pipefds` of a new `kq` are zero, and stay so if the system call that sets them fails, except that `syscall.Kqueue` returns -1 then.
A goroutine is needed to receive from `t.s`, and it is started last (watcher_trigger.go:113), so that a receive before that waits for ever.

Simplifications: closing a descriptor that is open reports no error; writing a byte to a new pipe succeeds.  Whether a byte can be written to descriptor 0, which
belongs to the program, is a parameter.
-/
import Verif.InotifyInit

namespace Verif
namespace KqInit

/-- System calls that succeeded. -/
inductive Act
  | opened (n : Nat)
  | closed (n : Nat)
  | wrote (n : Nat)
  deriving DecidableEq, Repr

/-- The answers of the system while the watcher is set up; `none` and `false` are errors. -/
structure Sys where
  kqueue : Option Nat
  pipe : Option (Nat × Nat)
  kevent : Bool
  /-- Descriptor 0 can be written to. -/
  stdin : Bool
  deriving DecidableEq, Repr

/-- Descriptors that are open at the same time have different numbers, and 0 is in use if it can be written to. -/
def Sys.Fit (y : Sys) : Prop :=
  ((match y.pipe with | some (a, b) => [a, b] | none => []) ++ y.kqueue.toList).Nodup ∧
  (y.stdin = true → 0 ∉ (match y.pipe with | some (a, b) => [a, b] | none => []) ++ y.kqueue.toList)

instance (y : Sys) : Decidable y.Fit := by unfold Sys.Fit; infer_instance

/-- `kq.Init` (watcher_kqueue.go:102-117): the write end of the pipe (`none` if the field still has its zero), what was done, success. -/
def init (y : Sys) : Option Nat × List Act × Bool :=
  match y.kqueue with
  | none => (none, [], false)
  | some k =>
    match y.pipe with
    | none => (none, [.opened k, .closed k], false)
    | some (a, b) =>
      if y.kevent then (some b, [.opened k, .opened a, .opened b], true)
      else (some b, [.opened k, .opened a, .opened b, .closed k], false)

/-- How `newWatcher` ends. -/
inductive Res
  /-- A watcher, and its goroutine runs. -/
  | watcher
  /-- A stub all of whose calls fail (watcher_stub.go). -/
  | stub
  /-- It does not return. -/
  | never
  deriving DecidableEq, Repr

/-- `newWatcher` with kqueue (watcher_trigger.go:102-115): after a failed `Init`, `Close` calls `Stop` (watcher_trigger.go:118-124), which writes to the pipe, and, if
that succeeds, receives from `t.s` (121). -/
def newWatcher (y : Sys) : List Act × Res :=
  let i := init y
  if i.2.2 then (i.2.1, .watcher)
  else match i.1 with
    | some b => (i.2.1 ++ [.wrote b], .never)
    | none => if y.stdin then (i.2.1 ++ [.wrote 0], .never) else (i.2.1, .stub)

/-- `newWatcher` on Solaris: `f.p` is -1 if the port was not created, and `port_alert` fails for it. -/
def newWatcherFen (port : Option Nat) : List Act × Res :=
  match port with
  | some p => ([.opened p], .watcher)
  | none => ([], .stub)

/-- Descriptors the watcher has open after the acts; `none` if it closes or writes to one that it did not open. -/
def run : List Act → List Nat → Option (List Nat)
  | [], mine => some mine
  | .opened n :: l, mine => run l (n :: mine)
  | .closed n :: l, mine => if n ∈ mine then run l (mine.erase n) else none
  | .wrote n :: l, mine => if n ∈ mine then run l mine else none

/-- **C84, when all goes well.**  If the system refuses nothing, the watcher runs and has three descriptors. -/
theorem C84_runs {y : Sys} {k a b : Nat} (hk : y.kqueue = some k) (hp : y.pipe = some (a, b)) (hv : y.kevent = true) :
    (newWatcher y).2 = .watcher ∧ run (newWatcher y).1 [] = some [b, a, k] := by
  simp [newWatcher, init, hk, hp, hv, run]

/-- **C84, start of a program on the BSDs.**  If the system refuses a queue or a pipe, and descriptor 0 cannot be written to, the program starts, the watcher fails every
call, and everything that was opened is closed.  Missing for the full claim: the other refusals, for which it is false (C84_kevent_refuted, C84_stdin_refuted). -/
theorem C84_starts_partial {y : Sys} (h : y.kqueue = none ∨ y.pipe = none) (hs : y.stdin = false) :
    (newWatcher y).2 = .stub ∧ run (newWatcher y).1 [] = some [] := by
  obtain ⟨yk, yp, yv, ys⟩ := y
  simp only at h hs
  subst hs
  cases yk with
  | none => simp [newWatcher, init, run]
  | some k =>
    have : yp = none := by simpa using h
    subst this
    simp [newWatcher, init, run]

example : ∃ y : Sys, y.Fit ∧ (y.kqueue = none ∨ y.pipe = none) ∧ y.stdin = false ∧ (newWatcher y).1 = [.opened 3, .closed 3] :=
  ⟨⟨some 3, none, true, false⟩, by decide, by decide, rfl, by decide⟩

/-- **C84, exactly when the program starts.**  Otherwise it waits for ever before `main`. -/
theorem C84_iff (y : Sys) : (newWatcher y).2 ≠ .never ↔
    (y.kqueue ≠ none ∧ y.pipe ≠ none ∧ y.kevent = true) ∨ ((y.kqueue = none ∨ y.pipe = none) ∧ y.stdin = false) := by
  obtain ⟨yk, yp, yv, ys⟩ := y
  rcases yk with _ | k <;> rcases yp with _ | ⟨a, b⟩ <;> cases yv <;> cases ys <;>
    simp [newWatcher, init]

/-- **C84** is false: if the queue does not take the pipe, the program never starts, whatever descriptor 0 is. -/
theorem C84_kevent_refuted : ∃ k p, k ≠ none ∧ p ≠ none ∧ ∀ stdin, (Sys.mk k p false stdin).Fit ∧
    (newWatcher ⟨k, p, false, stdin⟩).2 = .never ∧ run (newWatcher ⟨k, p, false, stdin⟩).1 [] = some [5, 4] :=
  ⟨some 3, some (4, 5), by simp, by simp, by decide⟩

/-- **C84** is false: if the system refuses the queue, or the pipe, and descriptor 0 can be written to, as when it is a terminal, a byte is written to it, which is
not the watcher's, and the program never starts. -/
theorem C84_stdin_refuted : ∀ y : Sys, (y.kqueue = none ∨ y.pipe = none) → y.stdin = true →
    (newWatcher y).2 = .never ∧ .wrote 0 ∈ (newWatcher y).1 ∧ run (newWatcher y).1 [] = none := by
  rintro ⟨yk, yp, yv, ys⟩ h hs
  simp only at h hs
  subst hs
  cases yk with
  | none => simp [newWatcher, init, run]
  | some k =>
    have : yp = none := by simpa using h
    subst this
    simp [newWatcher, init, run]

example : (Sys.mk none none false true).Fit ∧ (Sys.mk (some 3) none true true).Fit := by decide

/-- **C84, Solaris.**  The program always starts, and only the port is opened. -/
theorem C84_fen (port : Option Nat) : (newWatcherFen port).2 ≠ .never ∧ ((newWatcherFen port).2 = .watcher ↔ port ≠ none) ∧
    run (newWatcherFen port).1 [] = some port.toList := by
  cases port <;> simp [newWatcherFen, run]

end KqInit
end Verif
