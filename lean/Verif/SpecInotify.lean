/-
Specification vocabulary for inotify: which kernel notifications stand for which events, and the layout of
the kernel's records.  Written from inotify(7) and doc.go, without the functions of the watcher.
-/
import Verif.Event

namespace Verif
namespace Spec
namespace Inotify

/-- The twelve kernel event bits, IN_ACCESS to IN_MOVE_SELF (inotify(7)). -/
def kernelBits : List Event :=
  [0x1, 0x2, 0x4, 0x8, 0x10, 0x20, 0x40, 0x80, 0x100, 0x200, 0x400, 0x800]

/-- `(E, b)`: a kernel event `b` is an event `E`.  The portable events (Create, Remove, Write, Rename are
0x100000 to 0x800000) stand for IN_CREATE and IN_MOVED_TO; IN_DELETE and IN_DELETE_SELF; IN_MODIFY;
IN_MOVED_FROM and IN_MOVE_SELF.  A kernel bit stands for itself. -/
def means : List (Event × Event) :=
  [(0x100000, 0x100), (0x100000, 0x80), (0x200000, 0x200), (0x200000, 0x400), (0x400000, 0x2),
   (0x800000, 0x40), (0x800000, 0x800)] ++ kernelBits.map (fun b => (b, b))

/-- One number as four bytes, little endian. -/
def bytes32 (n : Nat) : List UInt8 :=
  [UInt8.ofNat n, UInt8.ofNat (n / 256), UInt8.ofNat (n / 65536), UInt8.ofNat (n / 16777216)]

/-- A record as the kernel writes it: `name` followed by `pad` zero bytes (struct inotify_event). -/
structure Record where
  wd : Nat
  mask : Event
  cookie : Nat
  name : List UInt8
  pad : Nat

/-- What the kernel guarantees: 32 bit fields, no zero byte in the name. -/
structure Record.Ok (r : Record) : Prop where
  wd : r.wd < 2 ^ 32
  cookie : r.cookie < 2 ^ 32
  len : r.name.length + r.pad < 2 ^ 32
  name : (0 : UInt8) ∉ r.name

/-- The bytes of a record. -/
def Record.bytes (r : Record) : List UInt8 :=
  bytes32 r.wd ++ bytes32 r.mask.toNat ++ bytes32 r.cookie ++ bytes32 (r.name.length + r.pad) ++
    r.name ++ List.replicate r.pad 0

end Inotify
end Spec
end Verif
