/-
The goroutines of the inotify watcher.

Models /repo/watcher_inotify.go: `loop` (185-214, the branch for the inotify descriptor), `read` as a whole (218-243; its work on the bytes
is in `Inotify`), `send` (248-257), `consumersCount` (30), and `watch` (86-106) and `Unwatch` (342-363) cut at the points where
other goroutines can come in between: after the system call and before the table is changed.

Simplifications: one call of Watch, Rewatch or Unwatch runs at a time (the tree holds its lock).  `transform` holds the read lock
and does not block, so it is one step.  Looking up the descriptor in `Unwatch` and inotify_rm_watch are one step, since nobody else
changes the table.  The channel `i.c` is received from at any time (the loop of the tree's `dispatch`); `out` lists what was sent on it, oldest first.
Closing is left out.
-/
import Verif.Inotify

namespace Verif
namespace Inotify

/-- `type event` (event_inotify.go:67-71): the kernel's record (the code keeps all but the name) and the rest. -/
structure Out where
  sys : Raw
  info : EventInfo
  deriving DecidableEq, Repr

/-- `transform` (watcher_inotify.go:263-289) with the records the events are made of, without the nil events that `send` skips. -/
def outs (m : Table) (es : List Raw) : List Out :=
  (es.map (fun r => (transform1 m r).1.map (Out.mk r)) ++
    es.flatMap (fun r => (transform1 m r).2.map (·.map (Out.mk r)))).filterMap id

/-- A goroutine that runs `send`: it waits for a batch, it has received one, or it has transformed one and still has to send these
events. -/
inductive Consumer
  | idle
  | got (es : List Raw)
  | sending (l : List Out)
  deriving DecidableEq, Repr

/-- The call that is running: none, `watch` after inotify_add_watch, `Unwatch` after inotify_rm_watch. -/
inductive Caller
  | idle
  | added (wd : Nat) (p : Path) (e : Event)
  | removed (wd : Nat)
  deriving DecidableEq, Repr

/-- Watcher, kernel and goroutines. -/
structure PSt where
  k : St
  /-- The kernel's queue of the inotify descriptor, oldest first. -/
  queue : List Raw := []
  /-- What `loop` has read and tries to hand on. -/
  batch : Option (List Raw) := none
  cons : List Consumer
  caller : Caller := .idle
  out : List Out := []

/-- `consumersCount` (watcher_inotify.go:30). -/
def consumersCount : Nat := 2

/-- After `lazyinit` (watcher_inotify.go:113-137). -/
def PSt.init (f : Path → Option Nat) (n : Nat) : PSt := { k := { inode := f }, cons := List.replicate n .idle }

/-- What the kernel reports (inotify(7)): one of the twelve events, IN_UNMOUNT, IN_Q_OVERFLOW or IN_IGNORED, possibly with
IN_ISDIR. -/
def FromKernel (r : Raw) : Prop :=
  ∃ (k : Nat) (d : Bool), (k < 12 ∨ k = 13 ∨ k = 14 ∨ k = 15) ∧ r.mask = BitVec.twoPow 32 k ||| (if d then inIsdir else 0)

/-- One step; the label lists the records that the kernel adds to its queue. -/
inductive PStep : PSt → List Raw → PSt → Prop
  /-- Something happens to a watched inode, or the queue overflows. -/
  | change {s : PSt} (r : Raw) : FromKernel r → PStep s [r] { s with queue := s.queue ++ [r] }
  /-- The file system changes. -/
  | fs {s : PSt} (k' : St) : FsStep s.k k' → PStep s [] { s with k := k' }
  /-- The range order of the table changes (only `Unwatch` ranges over it, so changes during a call make no difference). -/
  | reorder {s : PSt} (k' : St) : s.caller = .idle → Reorder s.k k' → PStep s [] { s with k := k' }
  /-- `watch` up to and with inotify_add_watch (lines 87-96). -/
  | add {s : PSt} (p : Path) (e : Event) (wd : Nat) (k' : St) : s.caller = .idle → accepts e = true →
      addWatch s.k p (encode e) = some (wd, k') → PStep s [] { s with k := k', caller := .added wd p e }
  /-- The rest of `watch` (lines 97-105). -/
  | table {s : PSt} (wd : Nat) (p : Path) (e : Event) : s.caller = .added wd p e →
      PStep s [] { s with k := { s.k with m := s.k.m.set wd ⟨p, e⟩ }, caller := .idle }
  /-- `Unwatch` up to and with inotify_rm_watch (lines 343-358), which makes the kernel report IN_IGNORED if the descriptor was in
  use. -/
  | rm {s : PSt} (p : Path) (wd : Nat) (w : Watched) (l : List Raw) : s.caller = .idle →
      s.k.m.find? (fun x => decide (x.2.path = p)) = some (wd, w) → (l = [] ∨ l = [{ wd := wd, mask := inIgnored }]) →
      PStep s l { s with k := { s.k with watches := s.k.watches.del wd }, queue := s.queue ++ l, caller := .removed wd }
  /-- The rest of `Unwatch` (lines 359-362). -/
  | forget {s : PSt} (wd : Nat) : s.caller = .removed wd →
      PStep s [] { s with k := { s.k with m := s.k.m.del wd }, caller := .idle }
  /-- `loop` reads (lines 189-193): the kernel gives some of the records, in order. -/
  | read {s : PSt} (n : Nat) : s.batch = none → PStep s [] { s with queue := s.queue.drop n, batch := some (s.queue.take n) }
  /-- `esch <- i.read()` (line 189): some consumer receives. -/
  | hand {s : PSt} (i : Nat) (es : List Raw) : s.batch = some es → s.cons[i]? = some .idle →
      PStep s [] { s with batch := none, cons := s.cons.set i (.got es) }
  /-- `transform` (line 250). -/
  | transform {s : PSt} (i : Nat) (es : List Raw) : s.cons[i]? = some (.got es) →
      PStep s [] { s with cons := s.cons.set i (.sending (outs s.k.m es)) }
  /-- `i.c <- e` (line 252). -/
  | send {s : PSt} (i : Nat) (o : Out) (l : List Out) : s.cons[i]? = some (.sending (o :: l)) →
      PStep s [] { s with cons := s.cons.set i (.sending l), out := s.out ++ [o] }
  /-- The end of a batch. -/
  | next {s : PSt} (i : Nat) : s.cons[i]? = some (.sending []) → PStep s [] { s with cons := s.cons.set i .idle }

/-- `Runs I s tr s'`: an execution from `s` to `s'` in which all states, including these two, meet `I`; the kernel queued the records
`tr` meanwhile, oldest first. -/
inductive Runs (I : PSt → Prop) (s : PSt) : List Raw → PSt → Prop
  | refl : I s → Runs I s [] s
  | step {tr l : List Raw} {s' s'' : PSt} : Runs I s tr s' → PStep s' l s'' → I s'' → Runs I s (tr ++ l) s''

/-- Nothing is on its way. -/
def PSt.Quiet (s : PSt) : Prop := s.queue = [] ∧ s.batch = none ∧ ∀ c ∈ s.cons, c = .idle

end Inotify
end Verif
