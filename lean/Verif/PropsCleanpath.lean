/-
C57: what the path handed to `Watch` asks for.

The three dots at the end of a path (/repo/util.go:50-62 `cleanpath`) ask for the directory before them with everything
below it; a path without them asks for itself alone.
-/
import Verif.PropsCanonical

namespace Verif
namespace Canon
open PathStr

/-- The three dots. -/
def dots : Str := ['.', '.', '.']

/-- A path written relative to a directory: the components separated by slashes. -/
def relStr (y : Path) : Str := (str y).drop 1

theorem rec_iff (p : Str) : (3 ≤ p.length ∧ p.drop (p.length - 3) = ['.', '.', '.']) ↔ dots <:+ p := by
  rw [List.suffix_iff_eq_drop]
  constructor
  · rintro ⟨_, h⟩; exact h.symm
  · intro h
    refine ⟨?_, h.symm⟩
    have := congrArg List.length h
    simp [dots] at this
    omega

theorem cleanpath_plain (O : Os) (cwd : Str) {p : Str} (h : ¬ dots <:+ p) :
    cleanpath O cwd p = (canonical O (if isAbs p then clean p else clean (cwd ++ sep :: p))).1.map (·, false) := by
  unfold cleanpath
  simp only [rec_iff, h, decide_false]
  rfl

theorem cleanpath_dots (O : Os) (cwd p : Str) :
    cleanpath O cwd (p ++ dots) = (canonical O (if isAbs p then clean p else clean (cwd ++ sep :: p))).1.map (·, true) := by
  have h : dots <:+ p ++ dots := List.suffix_append _ _
  have ht : (p ++ dots).take ((p ++ dots).length - 3) = p := by simp [dots]
  unfold cleanpath
  simp only [rec_iff, h, decide_true, ht]
  rfl

theorem names_comps {x : Path} (h : ∀ c ∈ x, Name c) : Comps x := fun c hc => (h c hc).2.2.2

theorem lex_app : ∀ (x y cur : Path), (∀ c ∈ x, Name c) → lex cur (x ++ y) = lex (cur ++ x) y
  | [], y, cur, _ => by simp
  | c :: x, y, cur, h => by
    obtain ⟨n1, n2, n3, _⟩ := h c (by simp)
    rw [List.cons_append, lex, if_neg (by simp [n1, n2]), if_neg n3, lex_app x y _ (fun d hd => h d (by simp [hd]))]
    simp

theorem clean_str {x : Path} (h : ∀ c ∈ x, Name c) : clean (str x) = pathStr x := by
  unfold clean
  rw [ofStr_str (names_comps h), lex_name _ _ h]; rfl

theorem clean_pathStr {x : Path} (h : ∀ c ∈ x, Name c) : clean (pathStr x) = pathStr x := by
  cases x with
  | nil => decide
  | cons c x => exact clean_str h

/-- Empty components between and behind names are dropped. -/
theorem clean_gap {x y : Path} (hx : ∀ c ∈ x, Name c) (hy : ∀ c ∈ y, Name c) : clean (str (x ++ [] :: y)) = pathStr (x ++ y) := by
  have hc : Comps (x ++ [] :: y) := by
    intro c hc
    simp only [List.mem_append, List.mem_cons] at hc
    rcases hc with h | h | h
    · exact names_comps hx c h
    · subst h; simp
    · exact names_comps hy c h
  unfold clean
  rw [ofStr_str hc, lex_app _ _ _ hx, lex, if_pos (.inl rfl), lex_name _ _ hy]; simp

theorem clean_slash {x : Path} (h : ∀ c ∈ x, Name c) : clean (pathStr x ++ [sep]) = pathStr x := by
  cases x with
  | nil => decide
  | cons c x =>
    have := clean_gap (y := []) h (by simp)
    rw [str_snoc, List.append_nil] at this
    exact this

theorem rel_str {y : Path} (h : y ≠ []) : sep :: relStr y = str y := by
  cases y with
  | nil => exact absurd rfl h
  | cons c y => rw [relStr, str_cons]; rfl

theorem clean_rel {w y : Path} (hw : ∀ c ∈ w, Name c) (hy : ∀ c ∈ y, Name c) :
    clean (pathStr w ++ sep :: relStr y) = pathStr (w ++ y) := by
  by_cases hy0 : y = []
  · subst hy0
    have := clean_slash hw
    simpa [relStr, str_nil] using this
  · rw [rel_str hy0]
    cases w with
    | nil =>
      have h1 := clean_gap (x := []) (y := y) (by simp) hy
      rw [List.nil_append, str_cons] at h1
      exact h1
    | cons c w =>
      have h1 : pathStr (c :: w) ++ str y = str (c :: w ++ y) := by rw [str_append]; rfl
      rw [h1, clean_str (fun d hd => by
        rcases List.mem_append.1 hd with h | h
        · exact hw d h
        · exact hy d h)]

theorem clean_rel_slash {w y : Path} (hw : ∀ c ∈ w, Name c) (hy : ∀ c ∈ y, Name c) :
    clean (pathStr w ++ sep :: (relStr y ++ [sep])) = pathStr (w ++ y) := by
  by_cases hy0 : y = []
  · subst hy0
    have hc : Comps (w ++ [[], []]) := by
      intro c hc
      simp only [List.mem_append, List.mem_cons] at hc
      rcases hc with h | h | h | h
      · exact names_comps hw c h
      · subst h; simp
      · subst h; simp
      · cases h
    cases w with
    | nil => decide
    | cons c w =>
      have h1 : pathStr (c :: w) ++ sep :: (relStr [] ++ [sep]) = str (c :: w ++ [[], []]) := by
        rw [str_append]; rfl
      rw [h1]
      unfold clean
      rw [ofStr_str hc, lex_app _ _ _ hw]
      simp [lex]
  · have h0 : sep :: (relStr y ++ [sep]) = str (y ++ [[]]) := by rw [str_snoc, ← rel_str hy0]; rfl
    rw [h0]
    cases w with
    | nil =>
      have h2 : lex [] ([] :: (y ++ [[]])) = y := by
        rw [lex, if_pos (.inl rfl), lex_app _ _ _ hy]; simp [lex]
      have hc : Comps ([] :: (y ++ [[]])) := by
        intro c hc
        simp only [List.mem_append, List.mem_cons] at hc
        rcases hc with h | h | h | h
        · subst h; simp
        · exact names_comps hy c h
        · subst h; simp
        · cases h
      have h3 : pathStr [] ++ str (y ++ [[]]) = str ([] :: (y ++ [[]])) := by rw [str_cons]; rfl
      rw [h3]
      unfold clean
      rw [ofStr_str hc, h2]; rfl
    | cons c w =>
      have hwy : ∀ d ∈ c :: w ++ y, Name d := fun d hd => by
        rcases List.mem_append.1 hd with h | h
        · exact hw d h
        · exact hy d h
      have h1 : pathStr (c :: w) ++ str (y ++ [[]]) = str (c :: w ++ y ++ [[]]) := by
        rw [List.append_assoc, str_append (c :: w)]; rfl
      rw [h1, clean_gap (y := []) hwy (by simp), List.append_nil]

/-- A path ends in three dots only if its last name does. -/
theorem dots_last {x : Path} (h : dots <:+ str x) : ∃ c, x.getLast? = some c ∧ dots <:+ c := by
  rcases List.eq_nil_or_concat x with rfl | ⟨z, c, rfl⟩
  · rw [str_nil] at h; simp [dots] at h
  · refine ⟨c, by simp, ?_⟩
    simp only [List.concat_eq_append] at h
    rw [str_snoc] at h
    rcases List.suffix_or_suffix_of_suffix h (show c <:+ str z ++ sep :: c from ⟨str z ++ [sep], by simp⟩) with h1 | h1
    · exact h1
    · obtain ⟨a, ha⟩ := h
      obtain ⟨b, hb⟩ := h1
      rcases List.eq_nil_or_concat b with rfl | ⟨b', s, rfl⟩
      · rw [List.nil_append] at hb
        rw [hb]; exact List.suffix_refl _
      · exfalso
        simp only [List.concat_eq_append] at hb
        have h2 : (a ++ b' ++ [s]) ++ c = (str z ++ [sep]) ++ c := by
          rw [List.append_assoc (a ++ b'), List.append_assoc a b', ← List.append_assoc b', hb, ha]; simp
        have h3 := List.append_cancel_right h2
        have h4 : s = sep := by
          have := congrArg List.getLast? h3
          simpa using this
        have h5 : s ∈ dots := by rw [← hb]; simp
        rw [h4] at h5
        exact absurd h5 (by decide)

theorem abs_pathStr (x : Path) : isAbs (pathStr x) = true := by
  cases x with
  | nil => rfl
  | cons c x => show isAbs (str (c :: x)) = true; rw [str_cons]; rfl

theorem abs_append {s t : Str} (h : s ≠ []) : isAbs (s ++ t) = isAbs s := by
  cases s with
  | nil => exact absurd rfl h
  | cons a s => rfl

theorem pathStr_ne (x : Path) : pathStr x ≠ [] := by
  intro h
  have := abs_pathStr x
  rw [h] at this
  cases this

theorem abs_rel {y : Path} (hy : ∀ c ∈ y, Name c) : isAbs (relStr y) = false := by
  cases y with
  | nil => rfl
  | cons c y =>
    obtain ⟨n1, _, _, n4⟩ := hy c (by simp)
    rw [relStr, str_cons]
    cases c with
    | nil => exact absurd rfl n1
    | cons a c =>
      simp only [List.mem_cons, not_or] at n4
      simpa [isAbs] using Ne.symm n4.1

theorem canonical_of_clean (F : Fs) (n : Nat) {p : Str} {x : Path} (hp : p = pathStr x) (hx : ∀ c ∈ x, Name c)
    (hr : ∀ y, y <+: x → Real F y) (hl : x.length ≤ 128) : (canonical (F.os n) p).1 = some (pathStr x) := by
  rw [hp, C24_depth F n x hx hr, if_pos hl]

/-- The last name does not end in three dots. -/
def Undotted (x : Path) : Prop := ∀ c, x.getLast? = some c → ¬ dots <:+ c

/-- **C57 (partial).**  In every file system, from every working directory, for every path without links of at most 128
components whose last name does not end in three dots: written absolutely, or relative to the working directory, the
path asks for itself alone; with `/...` behind it, for itself and everything below it. -/
theorem C57_dots_partial (F : Fs) (n : Nat) (w x : Path) (hw : ∀ c ∈ w, Name c) (hx : ∀ c ∈ x, Name c)
    (hd : Undotted x) :
    (x.length ≤ 128 → (∀ y, y <+: x → Real F y) →
      cleanpath (F.os n) (pathStr w) (pathStr x) = some (pathStr x, false) ∧
      cleanpath (F.os n) (pathStr w) (pathStr x ++ sep :: dots) = some (pathStr x, true)) ∧
    ((w ++ x).length ≤ 128 → (∀ y, y <+: w ++ x → Real F y) →
      cleanpath (F.os n) (pathStr w) (relStr x) = some (pathStr (w ++ x), false) ∧
      (x ≠ [] → cleanpath (F.os n) (pathStr w) (relStr x ++ sep :: dots) = some (pathStr (w ++ x), true))) := by
  have hnd : ¬ dots <:+ str x := fun h => by
    obtain ⟨c, h1, h2⟩ := dots_last h
    exact hd c h1 h2
  have hwx : ∀ c ∈ w ++ x, Name c := fun d hd => by
    rcases List.mem_append.1 hd with h | h
    · exact hw d h
    · exact hx d h
  refine ⟨fun hl hr => ⟨?_, ?_⟩, fun hl hr => ⟨?_, fun h0 => ?_⟩⟩
  · have hnp : ¬ dots <:+ pathStr x := by
      cases x with
      | nil => decide
      | cons c x => exact hnd
    rw [cleanpath_plain _ _ hnp, if_pos (abs_pathStr x), canonical_of_clean F n (clean_pathStr hx) hx hr hl]; rfl
  · have := cleanpath_dots (F.os n) (pathStr w) (pathStr x ++ [sep])
    rw [abs_append (pathStr_ne x), if_pos (abs_pathStr x), canonical_of_clean F n (clean_slash hx) hx hr hl] at this
    simpa using this
  · have hnp : ¬ dots <:+ relStr x := fun h => hnd (h.trans (List.drop_suffix 1 _))
    rw [cleanpath_plain _ _ hnp, abs_rel hx, if_neg (by simp), canonical_of_clean F n (clean_rel hw hx) hwx hr hl]; rfl
  · have hne : relStr x ≠ [] := by
      intro h
      have h1 := rel_str h0
      rw [h] at h1
      cases x with
      | nil => exact h0 rfl
      | cons c x =>
        rw [str_cons] at h1
        have : c = [] := by
          have h2 := congrArg List.length h1
          simp at h2
          exact h2.1
        exact (hx c (by simp)).1 this
    have := cleanpath_dots (F.os n) (pathStr w) (relStr x ++ [sep])
    rw [abs_append hne, abs_rel hx, if_neg (by simp), canonical_of_clean F n (clean_rel_slash hw hx) hwx hr hl] at this
    simpa using this

/-- The three dots alone stand for the working directory and everything below it. -/
theorem C57_alone (F : Fs) (n : Nat) (w : Path) (hw : ∀ c ∈ w, Name c) (hl : w.length ≤ 128)
    (hr : ∀ y, y <+: w → Real F y) : cleanpath (F.os n) (pathStr w) dots = some (pathStr w, true) := by
  have := cleanpath_dots (F.os n) (pathStr w) []
  rw [if_neg (by decide), canonical_of_clean F n (clean_slash hw) hw hr hl] at this
  simpa using this

namespace Ex

theorem F3_real : ∀ y, y <+: [['d'], ['g']] → Real F3 y := by
  intro y hy
  have hl : y.length ≤ 2 := hy.length_le
  rw [List.prefix_iff_eq_take.1 hy]
  have : y.length = 0 ∨ y.length = 1 ∨ y.length = 2 := by omega
  unfold Real
  rcases this with h | h | h <;> (rw [h]; decide)

/-- From `/d`, the path `g/...` asks for `/d/g` and everything below. -/
example : cleanpath (F3.os 40) "/d".toList "g/...".toList = some ("/d/g".toList, true) :=
  ((C57_dots_partial F3 40 [['d']] [['g']] (by unfold Name; decide) (by unfold Name; decide)
    (by intro c h; cases h; decide)).2 (by decide) F3_real).2 (by decide)

/-- From `/d/g`, the three dots ask for `/d/g` and everything below. -/
example : cleanpath (F3.os 40) "/d/g".toList "...".toList = some ("/d/g".toList, true) :=
  C57_alone F3 40 [['d'], ['g']] (by unfold Name; decide) (by decide) F3_real

/-- A directory `/a` and beside it a directory `/a...`. -/
def F8 : Fs := mkFs [([['a']], .dir), ([['a', '.', '.', '.']], .dir)] (by decide)

end Ex

/-- **C57 is false of the code**: the three dots are cut off a name, too.  With directories `/a` and `/a...`, the path
`/a...` asks for `/a` and everything below it; there is no way to ask for `/a...` alone (other than `/a.../.`). -/
theorem C57_refuted : ¬ ∀ (F : Fs) (n : Nat) (w x : Path), (∀ c ∈ w, Name c) → (∀ c ∈ x, Name c) → x.length ≤ 128 →
    (∀ y, y <+: x → Real F y) → cleanpath (F.os n) (pathStr w) (pathStr x) = some (pathStr x, false) := by
  intro h
  have h1 := h Ex.F8 40 [] [['a', '.', '.', '.']] (by simp) (by unfold Name; decide) (by decide) (by
    intro y hy
    have hl : y.length ≤ 1 := hy.length_le
    rw [List.prefix_iff_eq_take.1 hy]
    have : y.length = 0 ∨ y.length = 1 := by omega
    unfold Real
    rcases this with h | h <;> (rw [h]; decide))
  have h2 := cleanpath_dots (Ex.F8.os 40) (pathStr []) ['/', 'a']
  have h3 : ['/', 'a'] ++ dots = pathStr [['a', '.', '.', '.']] := by decide
  rw [h3, h1] at h2
  cases hc : (canonical (Ex.F8.os 40) (if isAbs ['/', 'a'] then clean ['/', 'a'] else clean (pathStr [] ++ sep :: ['/', 'a']))).1 with
  | none => rw [hc] at h2; cases h2
  | some q => rw [hc] at h2; simp at h2

end Canon
end Verif
