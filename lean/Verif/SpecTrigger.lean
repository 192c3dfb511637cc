/-
Specification vocabulary for kqueue and FEN: which native flags stand for which events.  Written from kqueue(2),
port_associate(3C) and doc.go, without the functions of the watcher.  Create, Remove, Write and Rename are 0x100, 0x200,
0x400 and 0x800 on both platforms; Create has no native flag.
-/
import Verif.Event

namespace Verif
namespace Spec
namespace Trg

/-- NOTE_DELETE, NOTE_WRITE, NOTE_EXTEND, NOTE_ATTRIB, NOTE_LINK, NOTE_RENAME, NOTE_REVOKE. -/
def kqFlags : List Event := [0x1, 0x2, 0x4, 0x8, 0x10, 0x20, 0x40]

/-- `(E, f)`: the native flag `f` is an event `E`. -/
def kqMeans : List (Event × Event) := [(0x200, 0x1), (0x400, 0x2), (0x800, 0x20)] ++ kqFlags.map fun b => (b, b)

/-- FILE_ACCESS, FILE_MODIFIED, FILE_ATTRIB, FILE_TRUNC, FILE_NOFOLLOW: flags that can be asked for. -/
def fenAsked : List Event := [0x1, 0x2, 0x4, 0x100000, 0x10000000]

/-- FILE_DELETE, FILE_RENAME_TO, FILE_RENAME_FROM, UNMOUNTED, MOUNTEDOVER: always reported, must not be asked for. -/
def fenExceptions : List Event := [0x10, 0x20, 0x40, 0x20000000, 0x40000000]

def fenMeans : List (Event × Event) :=
  [(0x200, 0x10), (0x400, 0x2), (0x800, 0x40)] ++ (fenAsked ++ fenExceptions).map fun b => (b, b)

end Trg
end Spec
end Verif
