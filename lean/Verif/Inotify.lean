/-
The inotify watcher.

Models: /repo/watcher_inotify.go (watch 86-106, read 218-243, send 248-257, transform 263-289, encode
293-307, decode 314-336, Unwatch 342-363, Close 369-392, removeInotifyWatch 395-400) and /repo/event_inotify.go.

Simplifications: `lazyinit`, epoll and the goroutines that pass batches on are not modelled here; the
table `i.m` is changed by one call at a time (the calls come from a tree that holds its lock).  Strings are
lists of characters, one per byte.  Numbers in the buffer are little endian.  Watch descriptors are natural
numbers; the descriptor -1 of an overflow record is 2^32-1, which the kernel never hands out.
-/
import Verif.Watcher

namespace Verif
namespace Inotify

/-! ### Constants (inotify(7), event_inotify.go:13-41) -/

def inAccess : Event := 0x1
def inModify : Event := 0x2
def inAttrib : Event := 0x4
def inOpen : Event := 0x20
def inMovedFrom : Event := 0x40
def inMovedTo : Event := 0x80
def inCreate : Event := 0x100
def inDelete : Event := 0x200
def inDeleteSelf : Event := 0x400
def inMoveSelf : Event := 0x800
/-- `unix.IN_ALL_EVENTS`. -/
def inAllEvents : Event := 0xfff
/-- `unix.IN_Q_OVERFLOW`. -/
def inQOverflow : Event := 0x4000
/-- `unix.IN_IGNORED`. -/
def inIgnored : Event := 0x8000
/-- `unix.IN_ISDIR`. -/
def inIsdir : Event := 0x40000000

def create : Event := Platform.inotify.create
def remove : Event := Platform.inotify.remove
def write : Event := Platform.inotify.write
def rename : Event := Platform.inotify.rename

/-! ### Pure functions -/

/-- The test of `watch` (watcher_inotify.go:87): `e &^ (All|IN_ALL_EVENTS) == 0`. -/
def accepts (e : Event) : Bool := e &^ (Platform.inotify.All ||| inAllEvents) == 0

/-- `func encode` (watcher_inotify.go:293-307). -/
def encode (e : Event) : Event :=
  let e := if e &&& create ≠ 0 then (e ^^^ create) ||| inCreate ||| inMovedTo else e
  let e := if e &&& remove ≠ 0 then (e ^^^ remove) ||| inDelete ||| inDeleteSelf else e
  let e := if e &&& write ≠ 0 then (e ^^^ write) ||| inModify else e
  let e := if e &&& rename ≠ 0 then (e ^^^ rename) ||| inMovedFrom ||| inMoveSelf else e
  e

/-- What `read` extracts from one kernel record: the fields of `unix.InotifyEvent` that are kept, and the
name (watcher_inotify.go:233-240). -/
structure Raw where
  wd : Nat
  mask : Event
  cookie : Nat := 0
  name : Comp := []
  deriving DecidableEq, Repr

/-- The value `decode` stores in `e.event` (watcher_inotify.go:322-334). -/
def decodeGeneric (mask : Event) (raw : Event) : Event :=
  let imask := encode mask
  if mask &&& create ≠ 0 ∧ imask &&& (inCreate ||| inMovedTo) &&& raw ≠ 0 then create
  else if mask &&& remove ≠ 0 ∧ imask &&& (inDelete ||| inDeleteSelf) &&& raw ≠ 0 then remove
  else if mask &&& write ≠ 0 ∧ imask &&& inModify &&& raw ≠ 0 then write
  else if mask &&& rename ≠ 0 ∧ imask &&& (inMovedFrom ||| inMoveSelf) &&& raw ≠ 0 then rename
  else 0

/-- The event of the result of `decode`, or `none` for nil (watcher_inotify.go:315-321). -/
def decodeSys (mask : Event) (raw : Event) : Option Event :=
  if mask &&& raw ≠ 0 then some (mask &&& raw) else none

/-- A `watched` (watcher_inotify.go:36-39): path and requested events. -/
structure Watched where
  path : Path
  mask : Event
  deriving DecidableEq, Repr

/-- The table `i.m` (watcher_inotify.go:44). -/
abbrev Table := GoMap Nat Watched

/-- `filepath.Join(dir, name)` for a single name; `/` is `[""]`. -/
def join (dir : Path) (name : Comp) : Path := if dir = [[]] then [name] else dir ++ [name]

/-- `isDir` (event_inotify.go:76). -/
def mkInfo (ev : Event) (p : Path) (r : Raw) : EventInfo :=
  { event := ev, path := p, isDir := some (decide (r.mask &&& inIsdir ≠ 0)) }

/-- One iteration of the loop of `transform` (watcher_inotify.go:266-285): the new value of `es[idx]`
and what is appended to `multi` (nothing, or a possibly nil event). -/
def transform1 (m : Table) (r : Raw) : Option EventInfo × List (Option EventInfo) :=
  if r.mask &&& (inIgnored ||| inQOverflow) ≠ 0 then (none, [])
  else
    match m.get? r.wd with
    | none => (none, [])
    | some wd =>
      if r.mask &&& encode wd.mask = 0 then (none, [])
      else
        let p := if r.name = [] then wd.path else join wd.path r.name
        let g := decodeGeneric wd.mask r.mask
        (if g = 0 then none else some (mkInfo g p r),
          [(decodeSys wd.mask r.mask).map (mkInfo · p r)])

/-- `transform` (watcher_inotify.go:263-289). -/
def transform (m : Table) (es : List Raw) : List (Option EventInfo) :=
  es.map (fun r => (transform1 m r).1) ++ es.flatMap (fun r => (transform1 m r).2)

/-- What `send` sends to the tree's channel for one batch (watcher_inotify.go:248-257). -/
def sent (m : Table) (es : List Raw) : List EventInfo := (transform m es).filterMap id

/-! ### Parsing a buffer -/

/-- `eventBufferSize` (watcher_inotify.go:25). -/
def eventBufferSize : Nat := 64 * (16 + 4096 + 1)

/-- Four bytes, little endian. -/
def le32 (b : List UInt8) : Nat :=
  match b with
  | [a, b, c, d] => a.toNat + 256 * (b.toNat + 256 * (c.toNat + 256 * d.toNat))
  | _ => 0

/-- `bytes.TrimRight(b, "\x00")`. -/
def trimNul (b : List UInt8) : List UInt8 := (b.reverse.dropWhile (· == 0)).reverse

/-- A byte string as a list of characters. -/
def chars (b : List UInt8) : Comp := b.map (fun x => Char.ofNat x.toNat)

/-- The loop of `read` (watcher_inotify.go:224-241).  `buf` is the whole array `i.buffer`, `n` the number of
bytes read from the kernel.  The result is `none` if an index or slice expression is out of range, which in
Go is a panic (or, for the unsafe pointer, a read outside the array). -/
def readLoop (buf : List UInt8) (n : Nat) (pos : Nat) : Option (List Raw) :=
  if pos + 16 ≤ n then
    if pos + 16 ≤ buf.length then
      let len := le32 ((buf.drop (pos + 12)).take 4)
      if pos + 16 + len ≤ buf.length then
        (readLoop buf n (pos + 16 + len)).map
          ({ wd := le32 ((buf.drop pos).take 4),
             mask := BitVec.ofNat 32 (le32 ((buf.drop (pos + 4)).take 4)),
             cookie := le32 ((buf.drop (pos + 8)).take 4),
             name := if len > 0 then chars (trimNul ((buf.drop (pos + 16)).take len)) else [] } :: ·)
      else none
    else none
  else some []
termination_by n - pos

/-- `read` (watcher_inotify.go:218-243) for a successful read(2) of `n` bytes. -/
def read (buf : List UInt8) (n : Nat) : Option (List Raw) := if n < 16 then some [] else readLoop buf n 0

/-! ### The kernel's side -/

/-- A kernel watch: the inode, the mask, and (a ghost field, not seen by any code) the path given in the
last inotify_add_watch that returned this descriptor. -/
structure KWatch where
  inode : Nat
  mask : Event
  madeFor : Path
  deriving DecidableEq, Repr

/-- File system and kernel watches, and the table of the watcher. -/
structure St where
  /-- The inode a path leads to. -/
  inode : Path → Option Nat
  watches : GoMap Nat KWatch := []
  next : Nat := 1
  m : Table := []

/-- The descriptor of the kernel's watch on an inode. -/
def wdOf (ws : GoMap Nat KWatch) (ino : Nat) : Option Nat :=
  match ws.find? (fun p => p.2.inode == ino) with
  | some p => some p.1
  | none => none

/-- inotify_add_watch(2): an existing watch on the inode gets the new mask, otherwise there is a new
descriptor. -/
def addWatch (s : St) (path : Path) (mask : Event) : Option (Nat × St) :=
  if mask &&& inAllEvents = 0 then none
  else
    match s.inode path with
    | none => none
    | some ino =>
      match wdOf s.watches ino with
      | some wd => some (wd, { s with watches := s.watches.set wd ⟨ino, mask, path⟩ })
      | none => some (s.next, { s with watches := s.watches.set s.next ⟨ino, mask, path⟩, next := s.next + 1 })

/-- `watch` (watcher_inotify.go:86-106), used by Watch and Rewatch.  `fail` is a failure of
inotify_add_watch for another reason (permissions, limit of watches). -/
def watch (fail : Bool) (s : St) (path : Path) (e : Event) : St × Bool :=
  if accepts e = false then (s, false)
  else if fail then (s, false)
  else
    match addWatch s path (encode e) with
    | none => (s, false)
    | some (wd, s') => ({ s' with m := s'.m.set wd ⟨path, e⟩ }, true)

/-- `Unwatch` (watcher_inotify.go:342-363).  The table is searched in its range order.
`removeInotifyWatch` ignores EINVAL, the answer for a descriptor that is not in use. -/
def unwatch (s : St) (path : Path) : St × Bool :=
  match s.m.find? (fun p => decide (p.2.path = path)) with
  | none => (s, false)
  | some (wd, _) => ({ s with watches := s.watches.del wd, m := s.m.del wd }, true)

/-- The file system changes: paths come to lead to other inodes.  The kernel drops the watches of inodes
that no path leads to any more. -/
inductive FsStep : St → St → Prop
  | mk (s : St) (f : Path → Option Nat) (keep : Nat → Bool) : (∀ ino, keep ino = true ↔ ∃ p, f p = some ino) →
      FsStep s { s with inode := f, watches := s.watches.filter (fun p => keep p.2.inode) }

/-- The range order of the table changes. -/
inductive Reorder : St → St → Prop
  | mk (s : St) (m' : Table) : m'.Perm s.m → Reorder s { s with m := m' }

end Inotify
end Verif
