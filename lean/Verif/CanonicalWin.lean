/-
Symlink resolution on Windows (C71).

Models: /repo/util.go:67-99 `canonical`, as compiled on Windows.  The loop looks for `/`, also on Windows, where `filepath.Abs` and
`filepath.Clean` give paths with `\` only.  `filepath.Clean` is an arbitrary function here; `filepath.IsAbs` is modelled for paths
with a drive letter.
-/
import Verif.Canonical

namespace Verif
namespace CanonWin
open PathStr (Str)
open Canon (Os)

def slash : Char := '/'
def backslash : Char := '\\'

/-- `strings.IndexRune(s, '/')` (util.go:76). -/
def indexSlash : Str → Option Nat
  | [] => none
  | c :: s => if c = slash then some 0 else (indexSlash s).map (· + 1)

/-- `filepath.IsAbs` for paths with a drive letter: `X:\…`, `X:/…`. -/
def isAbs : Str → Bool
  | _ :: ':' :: c :: _ => c == backslash || c == slash
  | _ => false

/-- The loop of `canonical` (util.go:72-98), as in `Canon.loop`: the result, and the names that Lstat was asked about. -/
def loop (O : Os) (clean : Str → Str) (p : Str) (i depth : Nat) : Option Str × List Str :=
  if i < p.length then
    if h : depth > 128 then (none, [])
    else
      let i' := match indexSlash (p.drop i) with
        | none => p.length
        | some k => i + k
      match O.lstat depth (p.take i') with
      | none => (none, [p.take i'])
      | some false => let r := loop O clean p (i' + 1) (depth + 1); (r.1, p.take i' :: r.2)
      | some true =>
        match O.readlink depth (p.take i') with
        | none => (none, [p.take i'])
        | some s =>
          let r := loop O clean (if isAbs s then slash :: s ++ p.drop i' else p.take i ++ s ++ p.drop i') 2 (depth + 1)
          (r.1, p.take i' :: r.2)
  else (some (clean p), [])
termination_by 129 - depth

/-- `func canonical` (util.go:67-99) on Windows, after `filepath.Abs`. -/
def canonical (O : Os) (clean : Str → Str) (p : Str) : Option Str × List Str := loop O clean p 1 1

theorem indexSlash_none : ∀ {s : Str}, slash ∉ s → indexSlash s = none
  | [], _ => rfl
  | c :: s, h => by
    have h1 : ¬ c = slash := fun hc => h (by simp [hc])
    have h2 := indexSlash_none (s := s) (fun hc => h (List.mem_cons_of_mem _ hc))
    simp [indexSlash, h1, h2]

theorem noslash_drop {p : Str} (h : slash ∉ p) (i : Nat) : slash ∉ p.drop i := fun hc => h (List.mem_of_mem_drop hc)

/-- **C71, paths that are no links.**  A path with `\` only is asked about once, as a whole; if it is not a link itself, the result is the path.
(Links among the directories above it stay, so the result names the same file but need not be free of links.)  Missing for the full
claim: paths that are links, for which it is false. -/
theorem C71_plain_partial (O : Os) (clean : Str → Str) {p : Str} (hp : slash ∉ p) (hlen : 2 ≤ p.length) (h : O.lstat 1 p = some false) :
    canonical O clean p = (some (clean p), [p]) := by
  unfold canonical
  rw [loop, if_pos (by omega)]
  simp only [indexSlash_none (noslash_drop hp 1), List.take_length, h]
  rw [dif_neg (by omega), loop, if_neg (by omega)]

/-- **C71 is false for links with an absolute target.**  `p` is a link to `s`; after it the code asks about `/` followed by `s`, such as `/C:\d`, which
is no name on Windows (a colon may only follow the drive letter).  So the Watch of any such link fails. -/
theorem C71_absolute_refuted (O : Os) (clean : Str → Str) {p s : Str} (hp : slash ∉ p) (hs : slash ∉ s) (hlen : 2 ≤ p.length)
    (h : O.lstat 1 p = some true) (hl : O.readlink 1 p = some s) (ha : isAbs s = true)
    (hcolon : ∀ n q, (∃ a b r, q = a :: b :: ':' :: r) → O.lstat n q = none) :
    canonical O clean p = (none, [p, slash :: s]) := by
  obtain ⟨a, c, r, rfl⟩ : ∃ a c r, s = a :: ':' :: c :: r := by
    unfold isAbs at ha
    split at ha
    · exact ⟨_, _, _, rfl⟩
    · cases ha
  unfold canonical
  rw [loop, if_pos (by omega), dif_neg (by omega)]
  simp only [indexSlash_none (noslash_drop hp 1), List.take_length, h, hl, ha, if_true, List.drop_length, List.append_nil]
  rw [loop, if_pos (by simp), dif_neg (by omega)]
  have hd : slash ∉ (slash :: a :: ':' :: c :: r).drop 2 := by
    intro hc
    exact hs (List.mem_cons_of_mem _ hc)
  simp only [indexSlash_none hd, List.take_length]
  rw [hcolon 2 _ ⟨slash, a, _, rfl⟩]

/-- **C71 is false for links with a relative target.**  The target is taken after the first letter of the path: the link `C:\l` to `d` becomes
`Cd`.  If there is no such file, the Watch fails; if there is one, it is watched instead. -/
theorem C71_relative_refuted (O : Os) (clean : Str → Str) {p s : Str} (hp : slash ∉ p) (hs : slash ∉ s) (hlen : 2 ≤ p.length) (hs2 : 2 ≤ s.length)
    (h : O.lstat 1 p = some true) (hl : O.readlink 1 p = some s) (ha : isAbs s = false) :
    (O.lstat 2 (p.take 1 ++ s) = none → canonical O clean p = (none, [p, p.take 1 ++ s])) ∧
    (O.lstat 2 (p.take 1 ++ s) = some false → canonical O clean p = (some (clean (p.take 1 ++ s)), [p, p.take 1 ++ s])) := by
  have hn : slash ∉ p.take 1 ++ s := by
    intro hc
    rcases List.mem_append.1 hc with hc | hc
    · exact hp (List.mem_of_mem_take hc)
    · exact hs hc
  have hl2 : 2 < (p.take 1 ++ s).length := by
    rw [List.length_append, List.length_take]; omega
  unfold canonical
  rw [loop, if_pos (by omega), dif_neg (by omega)]
  simp only [indexSlash_none (noslash_drop hp 1), List.take_length, h, hl, ha, Bool.false_eq_true, if_false, List.drop_length, List.append_nil]
  rw [loop, if_pos hl2, dif_neg (by omega)]
  simp only [indexSlash_none (noslash_drop hn 2), List.take_length]
  constructor
  · intro h2; simp only [h2]
  · intro h2
    simp only [h2]
    rw [loop, if_neg (by omega)]

namespace Ex

/-- `C:\l` is a link to `C:\d`, `C:\m` is a link to `dd`; there is a file `Cdd` in the working directory. -/
def O : Os where
  lstat := fun _ p => if p = "C:\\l".toList ∨ p = "C:\\m".toList then some true
    else if p = "C:\\d".toList ∨ p = "Cdd".toList then some false else none
  readlink := fun _ p => if p = "C:\\l".toList then some "C:\\d".toList else if p = "C:\\m".toList then some "dd".toList else none

theorem colon (n : Nat) (q : Str) (h : ∃ a b r, q = a :: b :: ':' :: r) : O.lstat n q = none := by
  obtain ⟨a, b, r, rfl⟩ := h
  simp [O]

example : canonical O id "C:\\l".toList = (none, ["C:\\l".toList, "/C:\\d".toList]) :=
  C71_absolute_refuted O id (s := "C:\\d".toList) (by decide) (by decide) (by decide) (by decide) (by decide) (by decide) colon

example : canonical O id "C:\\m".toList = (some "Cdd".toList, ["C:\\m".toList, "Cdd".toList]) :=
  (C71_relative_refuted O id (s := "dd".toList) (by decide) (by decide) (by decide) (by decide) (by decide) (by decide) (by decide)).2 (by decide)

example : canonical O id "C:\\d".toList = (some "C:\\d".toList, ["C:\\d".toList]) :=
  C71_plain_partial O id (by decide) (by decide) (by decide)

end Ex
end CanonWin
end Verif
