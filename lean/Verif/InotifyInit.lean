/-
Setting up and tearing down the inotify watcher: file descriptors (C74).

Models /repo/watcher_inotify.go: the fields `fd`, `epfd`, `pipefd` (43-49, as set by newWatcher 55-63), `lazyinit` (113-137), `epollinit`
(143-158), `epollclose` (162-179), the branch of `loop` that ends it (195-206).  All of it runs under the lock, or before and after everything else.

Simplifications: close(2) reports no error (for descriptors of these kinds it does not on Linux).  Goroutines are not modelled here.
`unix.Pipe` is a parameter: in the version of golang.org/x/sys that go.mod names (2018-09-26) it stores the two numbers also when
pipe2(2) fails, and then they are zero; later versions store them only on success.
-/
import Mathlib.Tactic.Tauto

namespace Verif
namespace InotifyInit

/-- The descriptors kept by the watcher; `none` is `invalidDescriptor`. -/
structure Fds where
  fd : Option Nat := none
  epfd : Option Nat := none
  p0 : Option Nat := none
  p1 : Option Nat := none
  deriving DecidableEq, Repr

/-- System calls that succeeded. -/
inductive Act
  | opened (n : Nat)
  | closed (n : Nat)
  deriving DecidableEq, Repr

/-- The answers of the system to one run of `lazyinit`: `none` and `false` are errors. -/
structure Sys where
  inotifyInit : Option Nat
  epollCreate : Option Nat
  pipe : Option (Nat × Nat)
  ctl1 : Bool
  ctl2 : Bool
  deriving DecidableEq, Repr

/-- Descriptors that are open at the same time have different numbers. -/
def Sys.Distinct (y : Sys) : Prop :=
  ((match y.pipe with | some (a, b) => [a, b] | none => []) ++ y.epollCreate.toList ++ y.inotifyInit.toList).Nodup

instance (y : Sys) : Decidable y.Distinct := by unfold Sys.Distinct; infer_instance

/-- Version of `unix.Pipe`: does it store zeros on failure? -/
abbrev PipeStores := Bool

/-- `unix.Close` of a descriptor, if it is not invalid. -/
def closeFd : Option Nat → List Act
  | none => []
  | some n => [.closed n]

/-- `epollclose` (watcher_inotify.go:162-179). -/
def epollclose (i : Fds) : Fds × List Act :=
  ({ i with epfd := none, p0 := none, p1 := none }, closeFd i.epfd ++ closeFd i.p0 ++ closeFd i.p1)

/-- `epollinit` (watcher_inotify.go:143-158). -/
def epollinit (v : PipeStores) (y : Sys) (i : Fds) : Fds × List Act × Bool :=
  match y.epollCreate with
  | none => ({ i with epfd := none }, [], false)
  | some e =>
    let i := { i with epfd := some e }
    match y.pipe with
    | none => (if v then { i with p0 := some 0, p1 := some 0 } else i, [.opened e], false)
    | some (a, b) => ({ i with p0 := some a, p1 := some b }, [.opened e, .opened a, .opened b], y.ctl1 && y.ctl2)

/-- `lazyinit` (watcher_inotify.go:113-137); `true` is success. -/
def lazyinit (v : PipeStores) (y : Sys) (i : Fds) : Fds × List Act × Bool :=
  match i.fd with
  | some _ => (i, [], true)
  | none =>
    match y.inotifyInit with
    | none => (i, [], false)
    | some n =>
      let r := epollinit v y { i with fd := some n }
      if r.2.2 then (r.1, .opened n :: r.2.1, true)
      else
        let c := epollclose r.1
        ({ c.1 with fd := none }, .opened n :: r.2.1 ++ c.2 ++ [.closed n], false)

/-- The end of `loop` (watcher_inotify.go:195-206). -/
def shutdown (i : Fds) : Fds × List Act :=
  let c := epollclose i
  ({ c.1 with fd := none }, closeFd i.fd ++ c.2)

/-- Histories of the descriptors of one watcher: any number of attempts to set it up, and, when it is set up, of ends. -/
inductive Hist (v : PipeStores) : Fds → List Act → Prop
  | nil : Hist v {} []
  | init {i : Fds} {l : List Act} (y : Sys) : Hist v i l → y.Distinct → Hist v (lazyinit v y i).1 (l ++ (lazyinit v y i).2.1)
  | down {i : Fds} {l : List Act} : Hist v i l → i.fd ≠ none → Hist v (shutdown i).1 (l ++ (shutdown i).2)

/-- The watcher's open descriptors after the acts, starting with `mine`; `none` if it closes one that it does not have open. -/
def run : List Act → List Nat → Option (List Nat)
  | [], mine => some mine
  | .opened n :: l, mine => run l (n :: mine)
  | .closed n :: l, mine => if n ∈ mine then run l (mine.erase n) else none

theorem run_append (l l' : List Act) (m : List Nat) : run (l ++ l') m = (run l m).bind (run l') := by
  induction l generalizing m with
  | nil => rfl
  | cons x l ih =>
    cases x with
    | opened n => exact ih _
    | closed n =>
      simp only [List.cons_append, run]
      split
      · exact ih _
      · rfl

/-- **C74, the descriptors of the Linux watcher.**  Any history of attempts to set the watcher up, with any system calls failing, and of ends.  The watcher closes only
descriptors that it has open.  After a failed attempt, and after the end, it has none open, and it is as new, so that the next Watch tries again; otherwise it
has the four it knows of.  Missing for the full claim: the version of `unix.Pipe` that stores zeros on failure (C74_stdin_refuted). -/
theorem C74_descriptors_partial {i : Fds} {l : List Act} (h : Hist false i l) :
    ∃ mine, run l [] = some mine ∧ ((i = {} ∧ mine = []) ∨
      ∃ n e a b, i = { fd := some n, epfd := some e, p0 := some a, p1 := some b } ∧ mine = [b, a, e, n] ∧ mine.Nodup) := by
  induction h with
  | nil => exact ⟨[], rfl, Or.inl ⟨rfl, rfl⟩⟩
  | @init i l y h hd ih =>
    obtain ⟨mine, hr, hi⟩ := ih
    rw [run_append, hr]
    simp only [Option.bind_some]
    rcases hi with ⟨rfl, rfl⟩ | ⟨n, e, a, b, rfl, rfl, hn⟩
    · obtain ⟨y1, y2, y3, y4, y5⟩ := y
      unfold Sys.Distinct at hd
      unfold lazyinit
      cases y1 with
      | none => exact ⟨[], rfl, Or.inl ⟨rfl, rfl⟩⟩
      | some n =>
        cases y2 with
        | none => exact ⟨[], by simp [epollinit, epollclose, closeFd, run], Or.inl ⟨rfl, rfl⟩⟩
        | some e =>
          cases y3 with
          | none => exact ⟨[], by simp [epollinit, epollclose, closeFd, run], Or.inl ⟨rfl, rfl⟩⟩
          | some p =>
            obtain ⟨a, b⟩ := p
            simp only [epollinit]
            by_cases hc : (y4 && y5) = true
            · simp only [hc, if_true]
              refine ⟨_, rfl, Or.inr ⟨n, e, a, b, rfl, rfl, ?_⟩⟩
              simp at hd
              simp
              tauto
            · simp only [hc, Bool.false_eq_true, if_false]
              refine ⟨[], ?_, Or.inl ⟨rfl, rfl⟩⟩
              simp at hd
              obtain ⟨⟨h1, h2, h3⟩, ⟨h4, h5⟩, h6⟩ := hd
              simp [epollclose, closeFd, run, List.erase_cons, h1, h2, h3, h4, h5, h6, Ne.symm h1, Ne.symm h2, Ne.symm h3, Ne.symm h4, Ne.symm h5, Ne.symm h6]
    · exact ⟨_, rfl, Or.inr ⟨n, e, a, b, rfl, rfl, hn⟩⟩
  | @down i l h hf ih =>
    obtain ⟨mine, hr, hi⟩ := ih
    rw [run_append, hr]
    simp only [Option.bind_some]
    rcases hi with ⟨rfl, rfl⟩ | ⟨n, e, a, b, rfl, rfl, hn⟩
    · exact absurd rfl hf
    · refine ⟨[], ?_, Or.inl ⟨rfl, rfl⟩⟩
      simp at hn
      obtain ⟨⟨h1, h2, h3⟩, ⟨h4, h5⟩, h6⟩ := hn
      simp [shutdown, epollclose, closeFd, run, List.erase_cons, h1, h2, h3, h4, h5, h6, Ne.symm h1, Ne.symm h2, Ne.symm h3, Ne.symm h4, Ne.symm h5, Ne.symm h6]

/-- **C74, the result.**  An attempt succeeds if and only if the watcher has an inotify descriptor afterwards; if it had one before, nothing is opened or closed. -/
theorem C74_result (v : PipeStores) (y : Sys) (i : Fds) :
    ((lazyinit v y i).2.2 = true ↔ (lazyinit v y i).1.fd ≠ none) ∧ (i.fd ≠ none → (lazyinit v y i).1 = i ∧ (lazyinit v y i).2.1 = []) := by
  obtain ⟨f, e, a, b⟩ := i
  obtain ⟨y1, y2, y3, y4, y5⟩ := y
  unfold lazyinit
  cases f with
  | some n => simp
  | none =>
    refine ⟨?_, fun h => absurd rfl h⟩
    cases y1 with
    | none => simp
    | some n =>
      simp only
      split
      · rename_i h
        refine ⟨fun _ => ?_, fun _ => rfl⟩
        clear h
        unfold epollinit
        cases y2 <;> cases y3 <;> cases v <;> simp
      · simp

namespace Ex

/-- Nothing fails; there is no descriptor left for the pipe; the last call fails. -/
def good : Sys := ⟨some 3, some 4, some (5, 6), true, true⟩
def full : Sys := ⟨some 3, some 4, none, true, true⟩
def late : Sys := ⟨some 3, some 4, some (5, 6), true, false⟩

end Ex

/-- Two failed attempts, one that succeeds, and the end. -/
example : Hist false (shutdown (lazyinit false Ex.good (lazyinit false Ex.late (lazyinit false Ex.full {}).1).1).1).1
    ((([] ++ (lazyinit false Ex.full {}).2.1) ++ (lazyinit false Ex.late (lazyinit false Ex.full {}).1).2.1) ++
      (lazyinit false Ex.good (lazyinit false Ex.late (lazyinit false Ex.full {}).1).1).2.1 ++
      (shutdown (lazyinit false Ex.good (lazyinit false Ex.late (lazyinit false Ex.full {}).1).1).1).2) :=
  .down (.init _ (.init _ (.init _ .nil (by decide)) (by decide)) (by decide)) (by decide)

/-- **C74 is false with the version of `unix.Pipe` of go.mod.**  When the process has no descriptors left for the pipe, Watch fails, and it closes descriptor 0, which is
not the watcher's: usually the standard input of the program, or whatever has this number by then (it is closed twice). -/
theorem C74_stdin_refuted : ∃ i l, Hist true i l ∧ run l [] = none ∧ Act.opened 0 ∉ l ∧ l.count (.closed 0) = 2 :=
  ⟨_, _, .init Ex.full .nil (by decide), by decide, by decide, by decide⟩

end InotifyInit
end Verif
