/-
The Windows watcher.

Models /repo/watcher_readdcw.go: the event masks (lines 27-46), `grip` (53-61), `newGrip` (74-88), `register` (91-108),
`readDirChanges` (113-129), `encode` (134-153), `watched` (159-165), `newWatched` (172-185), `recreate` (188-199),
`updateGrip` (202-223), `closeHandle` (228-255), `watch` (297-324), `loop` (344-374), `loopstate` (377-398), `send` (424-453),
`RecursiveRewatch` (461-470), `rewatch` (473-494), `nonStateWatchedLocked` (497-508), `unwatch` (521-548), `decode` (579-595),
`gensys` (601-612), and the constants of /repo/event_readdcw.go (17-71).

Of the kernel: open handles, outstanding calls of ReadDirectoryChangesW and the queue of the completion port.  Closing a
handle completes the reads on it.  Handle numbers are not used again.  A read with an empty filter or on a closed handle
fails; whether other calls succeed is up to the kernel.  Methods that hold the lock are one step; the loop makes three
steps (take a packet and send its events; read again; look at the state), between which methods may run.
Not modelled: `lazyinit` (the loop runs from the start), `Close`, UTF-16, the contents of the buffer.
-/
import Verif.Watchpoint
import Verif.GoMap

namespace Verif
namespace Dcw
open Platform (readdcw)

/-! ### Constants -/

def fileName : Event := 0x1
def dirName : Event := 0x2
def attributes : Event := 0x4
def size : Event := 0x8
def lastWrite : Event := 0x10
def lastAccess : Event := 0x20
def creation : Event := 0x40
def security : Event := 0x100
def changeAll : Event := 0x17f
def dirmarker : Event := 0x4000000
/-- `stateRewatch`, `stateUnwatch` (watcher_readdcw.go:30-31). -/
def stRewatch : Event := 0x10000000
def stUnwatch : Event := 0x20000000
/-- `onlyNotifyChanges`, `onlyNGlobalEvents`, `onlyMachineStates` (watcher_readdcw.go:43-45). -/
def onlyChanges : Event := 0x00000FFF
def onlyGlobal : Event := 0x0FF00000
def onlyStates : Event := 0xF0000000

/-- `Event(x) << n` for the actions (event_readdcw.go:63-69). -/
def actionAdded : Event := 0x1000
def actionRemoved : Event := 0x2000
def actionModified : Event := 0xC000
def actionRenamedOld : Event := 0x20000
def actionRenamedNew : Event := 0x50000

/-! ### Filters and translation -/

/-- `func encode` (watcher_readdcw.go:134-153). -/
def encode (filter : Event) : Event :=
  let e := filter &&& (onlyGlobal ||| onlyChanges)
  if e &&& dirmarker ≠ 0 then dirName
  else
    let e := if e &&& readdcw.create ≠ 0 then (e ^^^ readdcw.create) ||| fileName else e
    let e := if e &&& readdcw.remove ≠ 0 then (e ^^^ readdcw.remove) ||| fileName else e
    let e := if e &&& readdcw.write ≠ 0 then (e ^^^ readdcw.write) ||| attributes ||| size ||| creation ||| security else e
    let e := if e &&& readdcw.rename ≠ 0 then (e ^^^ readdcw.rename) ||| fileName else e
    e

/-- The filter of the first grip, and whether there is one (watcher_readdcw.go:189-190). -/
def fileFilter (filter : Event) : Event := filter &^ dirName
def hasFile (filter : Event) : Bool := decide (fileFilter filter ≠ 0)
/-- The filter of the second grip, and whether there is one (watcher_readdcw.go:193-194). -/
def dirFilter (filter : Event) : Event := filter ||| dirmarker
def hasDir (filter : Event) : Bool := decide (filter &&& (dirName ||| readdcw.create ||| readdcw.remove) ≠ 0)

/-- What the kernel reports (winnt.h, FILE_ACTION_*). -/
inductive Action
  | added | removed | modified | renamedOld | renamedNew
  | other
  deriving DecidableEq, Repr

/-- `func gensys` (watcher_readdcw.go:601-612): generic and system event. -/
def gensys (filter ge se : Event) : Event × Event :=
  let isdir := decide (filter &&& dirmarker ≠ 0)
  let syse := if (isdir && decide (filter &&& dirName ≠ 0)) || (!isdir && decide (filter &&& fileName ≠ 0)) ||
    decide (filter &&& readdcw.changeModified ≠ 0) then se else 0
  (if filter &&& ge ≠ 0 then ge else 0, syse)

/-- `func decode` (watcher_readdcw.go:579-595). -/
def decode (filter : Event) : Action → Event × Event
  | .added => gensys filter readdcw.create actionAdded
  | .removed => gensys filter readdcw.remove actionRemoved
  | .modified => gensys filter readdcw.write actionModified
  | .renamedOld => gensys filter readdcw.rename actionRenamedOld
  | .renamedNew => gensys filter readdcw.rename actionRenamedNew
  | .other => (0, 0)

/-- `ftype` as set by `send` (watcher_readdcw.go:430-437). -/
def ftype (filter : Event) (a : Action) : FType :=
  if a = .modified then .unknown else if filter &&& dirmarker ≠ 0 then .directory else .file

/-- `func (r *readdcw) send` (watcher_readdcw.go:424-453) for one event of the buffer: what is sent, in order. -/
def send (filter : Event) (a : Action) (p : Path) : List EventInfo :=
  let d := decode filter a
  let ei (e : Event) : EventInfo := { event := e, path := p, ftype := ftype filter a }
  if d.1 = 0 ∧ d.2 = 0 then []
  else if d.1 = 0 then [ei d.2]
  else if d.2 ≠ 0 then [ei d.2, ei d.1]
  else [ei d.1]

/-! ### The state -/

/-- `grip` with its `overlappedEx` (watcher_readdcw.go:53-69); `handle` is none for InvalidHandle, `linked` says whether
`ovlapped.parent` is set. -/
structure Grip where
  handle : Option Nat := none
  filter : Event := 0
  recursive : Bool := false
  path : Path := []
  parent : Nat := 0
  linked : Bool := false

/-- `watched` (watcher_readdcw.go:159-165). -/
structure Wd where
  filter : Event := 0
  recursive : Bool := false
  count : BitVec 8 := 0
  path : Path := []
  g0 : Option Nat := none
  g1 : Option Nat := none

/-- An outstanding call of ReadDirectoryChangesW. -/
structure Read where
  h : Nat
  g : Nat
  native : Event
  sub : Bool
  deriving DecidableEq

/-- Where the loop is: waiting for a packet; before the call of `readDirChanges`; before `loopstate`. -/
inductive Loop
  | idle
  | got (g : Nat)
  | st (g : Nat)
  deriving DecidableEq

structure St where
  grips : Nat → Grip := fun _ => {}
  ng : Nat := 0
  wds : Nat → Wd := fun _ => {}
  nw : Nat := 0
  m : GoMap Path Nat := []
  nh : Nat := 0
  opened : List Nat := []
  reads : List Read := []
  queue : List Nat := []
  loop : Loop := .idle

def St.init : St := {}

def upd {α : Type} (f : Nat → α) (k : Nat) (v : α) : Nat → α := fun x => if x = k then v else f x

def St.setGrip (s : St) (g : Nat) (v : Grip) : St := { s with grips := upd s.grips g v }
def St.setWd (s : St) (w : Nat) (v : Wd) : St := { s with wds := upd s.wds w v }

/-- The answers of the kernel to one `register`: CreateFile, CreateIoCompletionPort, ReadDirectoryChanges; `early`: an event
completes the read and the loop takes the packet before `newGrip` has set `ovlapped.parent`. -/
structure Ans where
  create : Bool := true
  port : Bool := true
  read : Bool := true
  early : Bool := false

/-- `readDirChanges` (watcher_readdcw.go:113-129). -/
def readDirChanges (s : St) (g : Nat) (ok : Bool) : St × Bool :=
  match (s.grips g).handle with
  | none => (s, true)
  | some h =>
    if ok = true ∧ encode (s.grips g).filter ≠ 0 ∧ h ∈ s.opened then
      ({ s with reads := s.reads ++ [⟨h, g, encode (s.grips g).filter, (s.grips g).recursive⟩] }, true)
    else (s, false)

/-- `register` (watcher_readdcw.go:91-108). -/
def register (s : St) (g : Nat) (a : Ans) : St × Bool :=
  if a.create then
    let s1 := { s.setGrip g { s.grips g with handle := some s.nh } with nh := s.nh + 1 }
    if a.port then readDirChanges { s1 with opened := s.nh :: s.opened } g a.read
    else (s1, false)
  else (s.setGrip g { s.grips g with handle := none }, false)

/-- `newGrip` (watcher_readdcw.go:74-88): the new state, and the grip if there was no error. -/
def newGrip (s : St) (w : Nat) (filter : Event) (a : Ans) : St × Option Nat :=
  let g := s.ng
  let s1 := { s.setGrip g { filter := filter, recursive := (s.wds w).recursive, path := (s.wds w).path, parent := w } with
    ng := s.ng + 1 }
  let r := register s1 g a
  if r.2 then
    let s2 := if a.early then { r.1 with reads := r.1.reads.filter (·.g ≠ g) } else r.1
    (s2.setGrip g { s2.grips g with linked := true }, some g)
  else (r.1, none)

/-- CloseHandle: the reads on the handle complete. -/
def closeOne (s : St) (g : Option Nat) : St × Bool :=
  match g with
  | none => (s, true)
  | some g =>
    match (s.grips g).handle with
    | none => (s, true)
    | some h =>
      ({ s.setGrip g { s.grips g with handle := none } with
          opened := s.opened.filter (· ≠ h)
          reads := s.reads.filter (·.h ≠ h)
          queue := s.queue ++ (s.reads.filter (·.h = h)).map (·.g) }, decide (h ∈ s.opened))

/-- `closeHandle` (watcher_readdcw.go:228-255). -/
def closeHandle (s : St) (w : Nat) : St × Bool :=
  let r := closeOne s (s.wds w).g0
  let q := closeOne r.1 (s.wds w).g1
  (q.1, r.2 && q.2)

def Wd.slot (wd : Wd) : Bool → Option Nat
  | false => wd.g0
  | true => wd.g1

def Wd.setSlot (wd : Wd) (i : Bool) (g : Option Nat) : Wd :=
  match i with
  | false => { wd with g0 := g }
  | true => { wd with g1 := g }

/-- `updateGrip` (watcher_readdcw.go:202-223). -/
def updateGrip (s : St) (w : Nat) (i : Bool) (reset : Bool) (newflag : Event) (a : Ans) : St × Bool :=
  if reset then (s.setWd w ((s.wds w).setSlot i none), true)
  else
    match (s.wds w).slot i with
    | none =>
      let r := newGrip s w newflag a
      let s1 := r.1.setWd w ((r.1.wds w).setSlot i r.2)
      if r.2.isSome then (s1.setWd w { s1.wds w with count := (s1.wds w).count + 1 }, true)
      else ((closeHandle s1 w).1, false)
    | some g =>
      let r := register (s.setGrip g { s.grips g with filter := newflag, recursive := (s.wds w).recursive }) g a
      if r.2 then (r.1.setWd w { r.1.wds w with count := (r.1.wds w).count + 1 }, true)
      else ((closeHandle r.1 w).1, false)

/-- `recreate` (watcher_readdcw.go:188-199). -/
def recreate (s : St) (w : Nat) (a0 a1 : Ans) : St × Bool :=
  let r := updateGrip s w false (!hasFile (s.wds w).filter) (fileFilter (s.wds w).filter) a0
  if r.2 then
    let q := updateGrip r.1 w true (!hasDir (r.1.wds w).filter) (dirFilter (r.1.wds w).filter) a1
    if q.2 then (q.1.setWd w { q.1.wds w with filter := (q.1.wds w).filter &^ onlyStates }, true)
    else (q.1, false)
  else (r.1, false)

/-- Whether `watch` and `rewatch` accept the set (watcher_readdcw.go:298-300, 474-476). -/
def valid (e : Event) : Bool := decide (e &^ (readdcw.All ||| changeAll) = 0)

/-- `watch` (watcher_readdcw.go:297-324) with `newWatched` (172-185): the new state, and whether there was no error. -/
def watch (s : St) (p : Path) (e : Event) (isrec : Bool) (a0 a1 : Ans) : St × Bool :=
  if valid e then
    match s.m.get? p with
    | some w => (s.setWd w { s.wds w with filter := (s.wds w).filter &^ stUnwatch }, true)
    | none =>
      let w := s.nw
      let r := recreate ({ s.setWd w { filter := e, recursive := isrec, path := p } with nw := s.nw + 1 }) w a0 a1
      if r.2 then ({ r.1 with m := r.1.m.set p w }, true) else (r.1, false)
  else (s, false)

/-- `nonStateWatchedLocked` (watcher_readdcw.go:497-508). -/
def nonState (s : St) (p : Path) : Option Nat :=
  match s.m.get? p with
  | none => none
  | some w => if (s.wds w).filter &&& onlyStates ≠ 0 then none else some w

/-- `rewatch` (watcher_readdcw.go:473-494); none is a panic. -/
def rewatch (s : St) (p : Path) (old new : Event) (isrec : Bool) : Option (St × Bool) :=
  if valid new then
    match nonState s p with
    | none => some (s, false)
    | some w =>
      if (s.wds w).filter &&& (onlyChanges ||| onlyGlobal) = old then
        let s1 := s.setWd w { s.wds w with filter := stRewatch ||| new, recursive := isrec }
        let r := closeHandle s1 w
        if r.2 then some (r.1, true)
        else some (r.1.setWd w { r.1.wds w with filter := old, recursive := (s.wds w).recursive }, false)
      else none
  else some (s, false)

/-- `unwatch` (watcher_readdcw.go:521-548).  `gone`: the directory has no attributes any more, so a packet is posted for
each grip (posting succeeds; `unwatchPost` in PropsReaddcw8 has the failures). -/
def unwatch (s : St) (p : Path) (gone : Bool) : St × Bool :=
  match nonState s p with
  | none => (s, false)
  | some w =>
    let s1 := s.setWd w { s.wds w with filter := (s.wds w).filter ||| stUnwatch }
    (if gone then { s1 with queue := s1.queue ++ (s.wds w).g0.toList ++ (s.wds w).g1.toList } else s1, true)

/-- The loop takes a packet (watcher_readdcw.go:348-368). -/
def take (s : St) : St :=
  match s.loop, s.queue with
  | .idle, g :: q =>
    if (s.grips g).linked then { s with queue := q, loop := .got g } else { s with queue := q }
  | _, _ => s

/-- The loop reads again (watcher_readdcw.go:369). -/
def again (s : St) (ok : Bool) : St :=
  match s.loop with
  | .got g => { (readDirChanges s g ok).1 with loop := .st g }
  | _ => s

/-- `loopstate` (watcher_readdcw.go:377-398); none is a panic. -/
def loopstate (s : St) (a0 a1 : Ans) : Option St :=
  match s.loop with
  | .st g =>
    let w := (s.grips g).parent
    let wd := s.wds w
    let s := { s with loop := .idle }
    if wd.filter &&& onlyStates = 0 then some s
    else
      let s1 := s.setWd w { wd with count := wd.count - 1 }
      if wd.count - 1 = 0 then
        if wd.filter &&& onlyStates = stRewatch then some (recreate s1 w a0 a1).1
        else if wd.filter &&& onlyStates = stUnwatch then
          let s2 := (closeHandle s1 w).1
          some { s2 with m := s2.m.del (s.grips g).path }
        else none
      else some s1
  | _ => some s

/-- The kernel completes a read. -/
def complete (s : St) (r : Read) : St := { s with reads := s.reads.erase r, queue := s.queue ++ [r.g] }

/-! ### Executions -/

/-- What happens, with the outcome of calls. -/
inductive Op
  | watch (p : Path) (e : Event) (isrec ok : Bool)
  | rewatch (p : Path) (old new : Event) (isrec ok : Bool)
  | unwatch (p : Path) (ok : Bool)
  | tau

inductive Step : St → Op → St → Prop
  | watch (s : St) (p : Path) (e : Event) (isrec : Bool) (a0 a1 : Ans) :
      Step s (.watch p e isrec (watch s p e isrec a0 a1).2) (watch s p e isrec a0 a1).1
  | rewatch (s : St) (p : Path) (old new : Event) (isrec : Bool) (s' : St) (ok : Bool)
      (h : rewatch s p old new isrec = some (s', ok)) : Step s (.rewatch p old new isrec ok) s'
  | unwatch (s : St) (p : Path) (gone : Bool) : Step s (.unwatch p (unwatch s p gone).2) (unwatch s p gone).1
  | complete (s : St) (r : Read) (h : r ∈ s.reads) : Step s .tau (complete s r)
  | take (s : St) : Step s .tau (take s)
  | again (s : St) (ok : Bool) : Step s .tau (again s ok)
  | state (s : St) (a0 a1 : Ans) (s' : St) (h : loopstate s a0 a1 = some s') : Step s .tau s'

/-- Executions from the start, oldest operation first. -/
inductive Hist : List Op → St → Prop
  | nil : Hist [] St.init
  | snoc {l : List Op} {s s' : St} {op : Op} : Hist l s → Step s op s' → Hist (l ++ [op]) s'

end Dcw
end Verif
