/-
The FSEvents watcher.

Models: /repo/watcher_fsevents.go (splitflags 31-38, strip 87-115, Dispatch 119-163, watch 189-206, unwatch
208-216, Rewatch 234-244, RecursiveRewatch 271-303, Close 305-311) and /repo/event_fsevents.go.

Simplifications: `gostream` and the stream registry (watcher_fsevents_cgo.go) are represented by the batches
given to `Dispatch` and by whether `stream.Start` succeeds.  Fields read with sync/atomic are read once per batch, as
in the code.  Strings are lists of characters.
-/
import Verif.PathStr
import Verif.Rec

namespace Verif
namespace Fsevents
open PathStr (Str)

/-! ### Constants (event_fsevents.go:24-44, watcher_fsevents.go:16-20) -/

def created : Event := 0x100
def removed : Event := 0x200
def inodeMetaMod : Event := 0x400
def modified : Event := 0x1000
def historyDone : Event := 0x10
def isDirFlag : Event := 0x20000
/-- `failure`: MustScanSubDirs, UserDropped, KernelDropped. -/
def failure : Event := 0x1 ||| 0x2 ||| 0x4

/-! ### Flags -/

theorem shift_lt {set : Event} (h : set ≠ 0) : (set >>> 1).toNat < set.toNat := by
  rw [BitVec.toNat_ushiftRight, Nat.shiftRight_eq_div_pow]
  have : set.toNat ≠ 0 := fun h0 => h (BitVec.eq_of_toNat_eq (by simpa using h0))
  omega

/-- The loop of `splitflags` (watcher_fsevents.go:32-36). -/
def splitLoop (i set : Event) : List Event :=
  if set ≠ 0 then
    if set &&& 1 ≠ 0 then i :: splitLoop (i <<< 1) (set >>> 1) else splitLoop (i <<< 1) (set >>> 1)
  else []
termination_by set.toNat
decreasing_by all_goals exact shift_lt (by assumption)

/-- `func splitflags` (watcher_fsevents.go:31-38). -/
def splitflags (set : Event) : List Event := splitLoop 1 set

/-- `func (w *watch) strip` (watcher_fsevents.go:87-115) on the value of `w.prev[base]` (0 if absent): the
stripped set and the new value. -/
def stripVal (prev set : Event) : Event × Event :=
  if prev = created then
    let set := set &^ created
    if set &&& removed ≠ 0 then (set &^ (modified ||| inodeMetaMod), removed) else (set, prev)
  else if prev = removed then
    let set := set &^ removed
    if set &&& created ≠ 0 then (set, created) else (set, prev)
  else if set &&& (created ||| removed) = created then (set, created)
  else if set &&& (created ||| removed) = removed then (set &^ (modified ||| inodeMetaMod), removed)
  else (set, prev)

/-- A `watch` (watcher_fsevents.go:44-56) without channel and stream. -/
structure Watch where
  prev : GoMap Str Event := []
  path : Str
  events : Event
  isrec : Bool
  flushed : Bool := false

/-- `strip` on the map.  The map is only written if the value changes. -/
def Watch.strip (w : Watch) (base : Str) (set : Event) : Watch × Event :=
  let r := stripVal ((w.prev.get? base).getD 0) set
  (if r.2 = (w.prev.get? base).getD 0 then w else { w with prev := w.prev.set base r.2 }, r.1)

/-- `FSEvent` (watcher_fsevents.go:24-28). -/
structure FSEvent where
  path : Str
  flags : Event
  deriving DecidableEq

/-- `strings.HasPrefix`. -/
def hasPrefix : Str → Str → Bool
  | _, [] => true
  | [], _ :: _ => false
  | a :: s, b :: p => a == b && hasPrefix s p

/-- The part of `Dispatch` that selects by path (watcher_fsevents.go:136-149): the base, or `none` for `continue`. -/
def Watch.base (w : Watch) (p : Str) : Option Str :=
  if hasPrefix p w.path = false then none
  else if p.length > w.path.length then
    if p[w.path.length]? ≠ some '/' then none
    else
      let base := p.drop (w.path.length + 1)
      if w.isrec = false ∧ '/' ∈ base then none else some base
  else some []

/-- One iteration of `Dispatch` (watcher_fsevents.go:122-162): the events sent to `w.c`. -/
def Watch.dispatch1 (w : Watch) (ev : FSEvent) : Watch × List (FSEvent × Event) :=
  if ev.flags &&& historyDone ≠ 0 then ({ w with flushed := true }, [])
  else if w.flushed = false then (w, [])
  else if ev.flags &&& failure ≠ 0 ∧ failure &&& w.events = 0 then (w, [])
  else
    match w.base ev.path with
    | none => (w, [])
    | some base =>
      let r := w.strip base ev.flags
      let e := r.2 &&& w.events
      (r.1, if e = 0 then [] else (splitflags e).map (fun f => (ev, f)))

/-- `Dispatch` (watcher_fsevents.go:119-163). -/
def Watch.dispatch (w : Watch) : List FSEvent → Watch × List (FSEvent × Event)
  | [] => (w, [])
  | ev :: evs =>
    let r := w.dispatch1 ev
    let r' := r.1.dispatch evs
    (r'.1, r.2 ++ r'.2)

/-! ### The table of watches -/

/-- `fsevents.watches` (watcher_fsevents.go:177-180). -/
abbrev Table := GoMap Path Watch

/-- `func (fse *fsevents) watch` (watcher_fsevents.go:189-206); `start` tells whether `stream.Start` succeeds. -/
def watch (start : Bool) (t : Table) (p : Path) (e : Event) (isrec : Bool) : Table × Bool :=
  match t.get? p with
  | some _ => (t, false)
  | none => if start then (t.set p { path := PathStr.str p, events := e, isrec := isrec }, true) else (t, false)

/-- `unwatch` (watcher_fsevents.go:208-216). -/
def unwatch (t : Table) (p : Path) : Table × Bool :=
  match t.get? p with
  | none => (t, false)
  | some _ => (t.del p, true)

/-- `Rewatch` (watcher_fsevents.go:234-244). -/
def rewatch (t : Table) (p : Path) (old new : Event) : Table × Bool :=
  match t.get? p with
  | none => (t, false)
  | some w => if w.events = old then (t.set p { w with events := new, isrec := false }, true) else (t, false)

/-- `RecursiveRewatch` (watcher_fsevents.go:271-303). -/
def recRewatch (start : Bool) (t : Table) (oldp newp : Path) (olde newe : Event) : Table × Bool :=
  if oldp = newp then
    if olde = newe then
      match t.get? oldp with
      | none => (t, false)
      | some w => (t.set oldp { w with isrec := true }, true)
    else
      match t.get? oldp with
      | none => (t, false)
      | some w => if w.events = olde then (t.set oldp { w with events := newe, isrec := true }, true) else (t, false)
  else
    match t.get? newp with
    | some _ => (t, false)
    | none =>
      let r := unwatch t oldp
      if r.2 = false then (r.1, false) else watch start r.1 newp newe true

/-- The answer to a call of the interface. -/
def serve (start : Bool) (t : Table) : Call → Table × Bool
  | .watch p e => watch start t p e false
  | .unwatch p => unwatch t p
  | .rewatch p old new => rewatch t p old new
  | .recWatch p e => watch start t p e true
  | .recUnwatch p => unwatch t p
  | .recRewatch p p' e e' => recRewatch start t p p' e e'

end Fsevents
end Verif
