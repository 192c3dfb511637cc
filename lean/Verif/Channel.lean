/-
Channels of the users.

Models: the `select` with `default` of /repo/watchpoint.go:87-92 and Go's buffered channels.  A channel has a
capacity, a buffer, the number of receivers blocked on it and what was received so far.  (Go never has
receivers blocked on a channel whose buffer is not empty.)  Sending on a channel closed by its owner panics
in Go and is not modelled.
-/
import Verif.NonRec

namespace Verif

/-- A `chan EventInfo`. -/
structure Chan where
  cap : Nat
  buf : List EventInfo := []
  waiting : Nat := 0
  got : List EventInfo := []

/-- `select { case ch <- ei: default: }` (watchpoint.go:87-92). -/
def Chan.offer (ch : Chan) (ei : EventInfo) : Chan :=
  if 0 < ch.waiting then { ch with waiting := ch.waiting - 1, got := ch.got ++ [ei] }
  else if ch.buf.length < ch.cap then { ch with buf := ch.buf ++ [ei] }
  else ch

/-- All channels, by watchpoint key. -/
abbrev Chans := Key → Chan

/-- One send attempt. -/
def Chans.offer (cs : Chans) (ei : EventInfo) (k : Key) : Chans := fun k' => if k' = k then (cs k).offer ei else cs k'

/-- The send attempts of one dispatch goroutine, one after the other (watchpoint.go:81-95). -/
def Chans.deliver (cs : Chans) (ei : EventInfo) (ks : List Key) : Chans := ks.foldl (fun cs k => cs.offer ei k) cs

end Verif
