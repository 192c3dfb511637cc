/-
The buffer that ReadDirectoryChangesW fills.

Models /repo/watcher_readdcw.go: `loopevent` (401-421) and the size of the buffer (23).  Simplifications: names stay lists of
UTF-16 units (`UTF16ToString` ends the string at the first zero unit; for the rest of it see Utf16.lean).  Numbers are little
endian, as on all machines that run Windows.  `maxLong` is `syscall.MAX_LONG_PATH`, the length of the array type through which
the name is sliced.
-/
import Verif.Inotify

namespace Verif
namespace Dcw
open Inotify (le32)

/-- `readBufferSize` (watcher_readdcw.go:23). -/
def readBufferSize : Nat := 4096

/-- Bytes as 16-bit units, little endian. -/
def units : List UInt8 → List Nat
  | a :: b :: l => (a.toNat + 256 * b.toNat) :: units l
  | _ => []

/-- What `loopevent` keeps of a record: `action` and `name` of the `event`; `pathw` and `filter` are those of the grip
(watcher_readdcw.go:407-412). -/
structure Raw where
  action : Nat
  name : List Nat
  deriving DecidableEq, Repr

/-- The loop of `loopevent` (watcher_readdcw.go:404-419).  `buf` is the array of the grip, `n` the number of bytes the kernel
reports, `off` is `currOffset`.  The result is none if an index or slice expression is out of range, which is a panic, or if
memory outside of the array is read through the unsafe pointers. -/
def loopevent (maxLong : Nat) (buf : List UInt8) (n off : Nat) : Option (List Raw) :=
  if off + 12 ≤ buf.length then
    let next := le32 ((buf.drop off).take 4)
    let action := le32 ((buf.drop (off + 4)).take 4)
    let len := le32 ((buf.drop (off + 8)).take 4) / 2
    if len ≤ maxLong ∧ off + 12 + 2 * len ≤ buf.length then
      let r : Raw := ⟨action, (units ((buf.drop (off + 12)).take (2 * len))).takeWhile (· ≠ 0)⟩
      if h : next = 0 then some [r]
      else if h2 : n ≤ off + next then some [r]
      else (loopevent maxLong buf n (off + next)).map (r :: ·)
    else none
  else none
termination_by n - off
decreasing_by omega

end Dcw
end Verif
