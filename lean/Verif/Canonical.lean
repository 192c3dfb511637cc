/-
Symlink resolution.

Models: /repo/util.go:50-62 `cleanpath` and 67-99 `canonical`, and `filepath.Clean`, `filepath.Abs` for absolute
paths on Unix.  A string is a list of characters (see `PathStr`).  `canonical` asks the OS with `os.Lstat` and
`os.Readlink`; these are an oracle, which may answer differently each time.  A second part models what a static file
system with links answers.
-/
import Verif.PathStr

namespace Verif
namespace Canon
open PathStr (Str sep indexSep str ofStr)

/-! ### Lexical cleaning -/

def dot : Comp := ['.']
def dotdot : Comp := ['.', '.']

/-- The components left by `filepath.Clean` for a rooted path, starting after `cur`. -/
def lex (cur : Path) : Path → Path
  | [] => cur
  | c :: r =>
    if c = [] ∨ c = dot then lex cur r
    else if c = dotdot then lex cur.dropLast r
    else lex (cur ++ [c]) r

/-- The string of a list of components; the root is `/`. -/
def pathStr (p : Path) : Str := if p = [] then [sep] else str p

/-- `filepath.Clean(p)` for a path that begins with a separator; also `filepath.Abs`. -/
def clean (p : Str) : Str := pathStr (lex [] (ofStr p))

/-- `filepath.IsAbs`. -/
def isAbs : Str → Bool
  | c :: _ => c = sep
  | [] => false

/-! ### `canonical` -/

/-- The answers of the OS to the n-th question: whether there is something under the name and whether it is a
symbolic link; the target of a link. -/
structure Os where
  lstat : Nat → Str → Option Bool
  readlink : Nat → Str → Option Str

/-- The end of the component that begins at `i` (util.go:73-77). -/
def compEnd (p : Str) (i : Nat) : Nat :=
  match indexSep (p.drop i) with
  | none => p.length
  | some k => i + k

/-- The loop of `canonical` (util.go:72-98): the result and the number of calls of Lstat. -/
def loop (O : Os) (p : Str) (i depth : Nat) : Option Str × Nat :=
  if i < p.length then
    if h : depth > 128 then (none, 0)
    else
      let i' := compEnd p i
      match O.lstat depth (p.take i') with
      | none => (none, 1)
      | some false => let r := loop O p (i' + 1) (depth + 1); (r.1, r.2 + 1)
      | some true =>
        match O.readlink depth (p.take i') with
        | none => (none, 1)
        | some s =>
          let r := loop O (if isAbs s then sep :: s ++ p.drop i' else p.take i ++ s ++ p.drop i') 2 (depth + 1)
          (r.1, r.2 + 1)
  else (some (clean p), 0)
termination_by 129 - depth

/-- `func canonical` (util.go:67-99) on an absolute path. -/
def canonical (O : Os) (p : Str) : Option Str × Nat := loop O (clean p) 1 1

/-- `func cleanpath` (util.go:50-62); `cwd` is the working directory. -/
def cleanpath (O : Os) (cwd : Str) (p : Str) : Option (Str × Bool) :=
  let isrec := decide (3 ≤ p.length ∧ p.drop (p.length - 3) = ['.', '.', '.'])
  let p := if isrec then p.take (p.length - 3) else p
  let p := if isAbs p then clean p else clean (cwd ++ sep :: p)
  (canonical O p).1.map (·, isrec)

/-! ### A file system with links -/

inductive Kind
  | dir | file
  | link (target : Str)
  deriving DecidableEq

/-- A file system: what is at the end of a path of real directories. -/
structure Fs where
  at_ : Path → Option Kind
  root : at_ [] = some .dir
  wf : ∀ q b, at_ (q ++ [b]) ≠ none → at_ q = some .dir

/-- What a link target stands for: absolute, or from the directory of the link. -/
def start (cur : Path) (t : Str) : Path := if isAbs t then [] else cur

/-- The components of a link target. -/
def comps (t : Str) : Path := if isAbs t then ofStr t else (PathStr.cut t).1 :: (PathStr.cut t).2

/-- How the OS walks: from the real directory `cur` along the components, following links, of which there may be at most
`n`.  The result is a path of real directories. -/
def walk (F : Fs) (n : Nat) (cur : Path) : Path → Option Path
  | [] => some cur
  | c :: r =>
    if F.at_ cur ≠ some .dir then none
    else if c = [] ∨ c = dot then walk F n cur r
    else if c = dotdot then walk F n cur.dropLast r
    else
      match F.at_ (cur ++ [c]) with
      | none => none
      | some (.link t) =>
        match n with
        | 0 => none
        | n + 1 => walk F n (start cur t) (comps t ++ r)
      | some _ => walk F n (cur ++ [c]) r
termination_by p => (n, p.length)

/-- `os.Lstat`: all components but the last are followed. -/
def kind (F : Fs) (n : Nat) (p : Str) : Option Kind :=
  match (ofStr p).getLast? with
  | none => some .dir
  | some c =>
    match walk F n [] (ofStr p).dropLast with
    | none => none
    | some r =>
      if F.at_ r ≠ some .dir then none
      else if c = [] ∨ c = dot then F.at_ r
      else if c = dotdot then F.at_ r.dropLast
      else F.at_ (r ++ [c])

/-- The OS on a file system that does not change; `n` is its limit of links in a path (40 on Linux). -/
def Fs.os (F : Fs) (n : Nat) : Os where
  lstat := fun _ p => (kind F n p).map fun k => match k with
    | .link _ => true
    | _ => false
  readlink := fun _ p => match kind F n p with
    | some (.link t) => some t
    | _ => none

end Canon
end Verif
