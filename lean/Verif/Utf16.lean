/-
File names and paths on Windows as UTF-16 (C104).

Models what /repo/watcher_readdcw.go and /repo/event_readdcw.go do with names: `newWatched` encodes the watched path (watcher_readdcw.go:178), `loopevent`
decodes names (406), `loopstate` decodes the path to delete the entry (392), `event.Path` decodes the path (event_readdcw.go:107).  The functions of Go's
library are `syscall.UTF16FromString` and `syscall.UTF16ToString`, up to Go 1.20 with `utf16.Encode` and `utf16.Decode`, since Go 1.21 with surrogates kept
(`wtf = true`).  Simplifications: a Go string is a list of what `range` finds in its bytes: characters, byte triples that WTF-8 uses for a lone surrogate, and
other bytes that are no UTF-8.
-/
import Verif.PropsReaddcw4

namespace Verif
namespace Utf16

/-- An element of a Go string. -/
inductive GoCh
  | ch (c : Char)
  /-- The three bytes of a surrogate 0xD800-0xDFFF in WTF-8. -/
  | sur (u : Nat)
  /-- Another byte that is no UTF-8. -/
  | bad (b : UInt8)
  deriving DecidableEq, Repr

/-- The UTF-16 units of a code point (`utf16.AppendRune`). -/
def encRune (n : Nat) : List Nat :=
  if n < 0x10000 then [n] else [0xd800 + (n - 0x10000) / 1024, 0xdc00 + (n - 0x10000) % 1024]

/-- U+FFFD, which stands for what cannot be encoded or decoded (`utf8.RuneError`, `utf16.replacementChar`). -/
def repl : Nat := 0xfffd

/-- `utf16.Encode([]rune(s))`, and since Go 1.21 `encodeWTF16`.  Up to Go 1.20 each of the three bytes of a surrogate is an error. -/
def encode (wtf : Bool) : List GoCh → List Nat
  | [] => []
  | .ch c :: s => encRune c.toNat ++ encode wtf s
  | .sur u :: s => (if wtf then [u] else [repl, repl, repl]) ++ encode wtf s
  | .bad _ :: s => repl :: encode wtf s

/-- `syscall.UTF16FromString`: the units with a zero at the end; EINVAL if the string contains a zero byte. -/
def fromString (wtf : Bool) (s : List GoCh) : Option (List Nat) :=
  if .ch '\x00' ∈ s then none else some (encode wtf s ++ [0])

/-- A character by its number (`string(rune)`: U+FFFD if there is none). -/
def chr (n : Nat) : GoCh := .ch (if n.isValidChar then Char.ofNat n else Char.ofNat repl)

/-- `utf16.Decode`, and since Go 1.21 `decodeWTF16`. -/
def decode (wtf : Bool) : List Nat → List GoCh
  | [] => []
  | [u] => [if u < 0xd800 ∨ 0xe000 ≤ u then chr u else if wtf then .sur u else chr repl]
  | u :: v :: l =>
    if u < 0xd800 ∨ 0xe000 ≤ u then chr u :: decode wtf (v :: l)
    else if u < 0xdc00 ∧ 0xdc00 ≤ v ∧ v < 0xe000 then chr ((u - 0xd800) * 1024 + (v - 0xdc00) + 0x10000) :: decode wtf l
    else (if wtf then .sur u else chr repl) :: decode wtf (v :: l)

/-- `syscall.UTF16ToString`: up to the first zero. -/
def toString (wtf : Bool) (l : List Nat) : List GoCh := decode wtf (l.takeWhile (· ≠ 0))

end Utf16
end Verif
