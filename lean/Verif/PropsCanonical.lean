/-
C24 and C51: symlink resolution.
-/
import Verif.Canonical
import Verif.PropsPath

namespace Verif
namespace Canon
open PathStr

/-! ### C24: at most 128 probes -/

/-- One iteration of the loop, for some end of the component at `i`. -/
theorem loop_cases (O : Os) (p : Str) (i d : Nat) : ∃ i', loop O p i d =
    if i < p.length then
      if d > 128 then (none, 0)
      else match O.lstat d (p.take i') with
        | none => (none, 1)
        | some false => ((loop O p (i' + 1) (d + 1)).1, (loop O p (i' + 1) (d + 1)).2 + 1)
        | some true =>
          match O.readlink d (p.take i') with
          | none => (none, 1)
          | some s =>
            ((loop O (if isAbs s then sep :: s ++ p.drop i' else p.take i ++ s ++ p.drop i') 2 (d + 1)).1,
              (loop O (if isAbs s then sep :: s ++ p.drop i' else p.take i ++ s ++ p.drop i') 2 (d + 1)).2 + 1)
    else (some (clean p), 0) := by
  conv => enter [1, i', 1]; rw [loop]
  exact ⟨_, rfl⟩

theorem loop_probes (O : Os) : ∀ k d, 129 - d ≤ k → ∀ p i, (loop O p i d).2 ≤ 129 - d
  | k, d, hk, p, i => by
    obtain ⟨i', he⟩ := loop_cases O p i d
    rw [he]
    split
    · split
      · simp
      · rename_i hd
        cases k with
        | zero => omega
        | succ k =>
          have ih := loop_probes O k (d + 1) (by omega)
          cases O.lstat d (p.take i') with
          | none => simp only; omega
          | some b =>
            cases b with
            | false =>
              simp only
              have := ih p (i' + 1); omega
            | true =>
              simp only
              cases O.readlink d (p.take i') with
              | none => simp only; omega
              | some s =>
                simp only
                have := ih (if isAbs s then sep :: s ++ p.drop i' else p.take i ++ s ++ p.drop i') 2; omega
    · simp

/-- **C24, probes.**  Whatever the OS answers, also if it answers differently each time, `canonical` asks it at most 128
times. -/
theorem C24_probes (O : Os) (p : Str) : (canonical O p).2 ≤ 128 := loop_probes O 128 1 (by omega) _ _

/-! ### Lexical facts -/

/-- A name of an entry of a directory: not empty, not `.` or `..`, without separator. -/
def Name (c : Comp) : Prop := c ≠ [] ∧ c ≠ dot ∧ c ≠ dotdot ∧ sep ∉ c

theorem lex_names {cur : Path} : ∀ {p : Path}, (∀ c ∈ cur, Name c) → Comps p → ∀ c ∈ lex cur p, Name c
  | [], hc, _ => hc
  | c :: r, hc, hp => by
    have hr : Comps r := fun x hx => hp x (by simp [hx])
    rw [lex]
    split
    · exact lex_names hc hr
    · rename_i h1
      split
      · exact lex_names (fun x hx => hc x (List.dropLast_subset _ hx)) hr
      · rename_i h2
        refine lex_names (fun x hx => ?_) hr
        rcases List.mem_append.1 hx with hx | hx
        · exact hc x hx
        · have : x = c := by simpa using hx
          subst this
          exact ⟨fun h => h1 (.inl h), fun h => h1 (.inr h), h2, hp x (by simp)⟩

/-- A successful result is the string of a list of proper names (or `/`), whatever the OS answers: the tree never sees
empty components, dots or a trailing separator. -/
theorem loop_names (O : Os) : ∀ k d, 129 - d ≤ k → ∀ p i q, (loop O p i d).1 = some q →
    ∃ x, q = pathStr x ∧ ∀ c ∈ x, Name c
  | k, d, hk, p, i, q => by
    obtain ⟨i', he⟩ := loop_cases O p i d
    rw [he]
    split
    · split
      · intro h; cases h
      · cases k with
        | zero => omega
        | succ k =>
          have ih := loop_names O k (d + 1) (by omega)
          cases O.lstat d (p.take i') with
          | none => intro h; cases h
          | some b =>
            cases b with
            | false => exact ih p (i' + 1) q
            | true =>
              simp only
              cases O.readlink d (p.take i') with
              | none => intro h; cases h
              | some s => exact ih _ 2 q
    · intro h
      cases h
      exact ⟨_, rfl, lex_names (by simp) (str_ofStr p).2.1⟩

/-- **C24, form.**  The path given to the tree is `/` or a sequence of proper names. -/
theorem C24_form (O : Os) (cwd p : Str) {q : Str} {isrec : Bool} (h : cleanpath O cwd p = some (q, isrec)) :
    ∃ x, q = pathStr x ∧ ∀ c ∈ x, Name c := by
  unfold cleanpath at h
  simp only [Option.map_eq_some_iff] at h
  obtain ⟨a, h1, h2⟩ := h
  cases h2
  exact loop_names O 128 1 (by omega) _ _ _ h1

/-! ### The loop on components -/

theorem str_len_append (P : Path) (c : Comp) : (str (P ++ [c])).length = (str P).length + 1 + c.length := by
  rw [str_snoc]; simp; omega

/-- One iteration of the loop at the beginning of a component. -/
theorem loop_at (O : Os) (P : Path) (c : Comp) (rest : Path) (d : Nat) (hc : sep ∉ c) :
    loop O (str (P ++ c :: rest)) ((str P).length + 1) d =
      if c = [] ∧ rest = [] then (some (clean (str (P ++ c :: rest))), 0)
      else if d > 128 then (none, 0)
      else match O.lstat d (str (P ++ [c])) with
        | none => (none, 1)
        | some false =>
          ((loop O (str (P ++ c :: rest)) ((str (P ++ [c])).length + 1) (d + 1)).1,
            (loop O (str (P ++ c :: rest)) ((str (P ++ [c])).length + 1) (d + 1)).2 + 1)
        | some true =>
          match O.readlink d (str (P ++ [c])) with
          | none => (none, 1)
          | some s =>
            ((loop O (if isAbs s then sep :: s ++ str rest else str P ++ sep :: s ++ str rest) 2 (d + 1)).1,
              (loop O (if isAbs s then sep :: s ++ str rest else str P ++ sep :: s ++ str rest) 2 (d + 1)).2 + 1) := by
  have hstr : str (P ++ c :: rest) = str P ++ sep :: c ++ str rest := by rw [str_append, str_cons]; simp
  have hstr' : str (P ++ c :: rest) = str (P ++ [c]) ++ str rest := by rw [hstr, str_snoc]
  have hdrop : (str (P ++ c :: rest)).drop ((str P).length + 1) = c ++ str rest := drop_str P rest c
  conv => lhs; rw [loop]
  have hlen : (str P).length + 1 < (str (P ++ c :: rest)).length ↔ ¬ (c = [] ∧ rest = []) := by
    rw [hstr]
    simp only [List.length_append, List.length_cons]
    cases c with
    | nil =>
      cases rest with
      | nil => simp [str_nil]
      | cons x r => simp [str_cons]
    | cons x c => simp; omega
  by_cases h0 : c = [] ∧ rest = []
  · rw [if_neg (fun h => hlen.1 h h0), if_pos h0]
  · rw [if_pos (hlen.2 h0), if_neg h0]
    by_cases hd : d > 128
    · rw [dif_pos hd, if_pos hd]
    · rw [dif_neg hd, if_neg hd]
      have hi' : compEnd (str (P ++ c :: rest)) ((str P).length + 1) = (str (P ++ [c])).length := by
        unfold compEnd
        rw [hdrop]
        cases rest with
        | nil => rw [str_nil, List.append_nil, indexSep_none hc]
        | cons x r =>
          rw [str_cons, List.cons_append, indexSep_some hc]
          rw [str_len_append]
      simp only [hi']
      have htake : (str (P ++ c :: rest)).take (str (P ++ [c])).length = str (P ++ [c]) := by
        rw [hstr', List.take_append, Nat.sub_self]; simp
      have hdrop2 : (str (P ++ c :: rest)).drop (str (P ++ [c])).length = str rest := by
        rw [hstr', List.drop_append, Nat.sub_self]; simp
      have htake2 : (str (P ++ c :: rest)).take ((str P).length + 1) = str P ++ [sep] := by
        rw [hstr]
        rw [show str P ++ sep :: c ++ str rest = (str P ++ [sep]) ++ (c ++ str rest) by simp]
        exact List.take_left' (by simp)
      rw [htake, hdrop2, htake2]
      have : ∀ s, str P ++ [sep] ++ s ++ str rest = str P ++ sep :: s ++ str rest := by intro s; simp
      simp only [this]
      rfl

/-- The loop behind the last component. -/
theorem loop_end (O : Os) (P : Path) (d : Nat) : loop O (str P) ((str P).length + 1) d = (some (clean (str P)), 0) := by
  rw [loop, if_neg (by omega)]

theorem sep_comps (s : Str) (h : isAbs s = false) : sep :: s = str (comps s) ∧ Comps (comps s) ∧ comps s ≠ [] := by
  obtain ⟨h1, h2, h3⟩ := str_ofStr s
  unfold comps
  rw [if_neg (by simp [h])]
  refine ⟨?_, ?_, by simp⟩
  · rw [str_cons]
    rw [show (cut s).2 = ofStr s from rfl, List.cons_append, h1]
  · intro c hc
    rcases List.mem_cons.1 hc with rfl | hc
    · exact h3
    · exact h2 c hc

theorem abs_comps (s : Str) (h : isAbs s = true) : s = str (comps s) ∧ Comps (comps s) := by
  obtain ⟨h1, h2, _⟩ := str_ofStr s
  unfold comps
  rw [if_pos h]
  refine ⟨?_, h2⟩
  cases s with
  | nil => simp [isAbs] at h
  | cons c s =>
    have hc : c = sep := by simpa [isAbs] using h
    subst hc
    have : (cut (sep :: s)).1 = [] := by simp [cut]
    rw [this] at h1
    exact h1.symm

/-! ### Real paths -/

/-- The walk along real directories and files only. -/
def realWalk (F : Fs) (cur : Path) : Path → Option Path
  | [] => some cur
  | c :: r =>
    if F.at_ cur ≠ some .dir then none
    else if c = [] ∨ c = dot then realWalk F cur r
    else if c = dotdot then realWalk F cur.dropLast r
    else
      match F.at_ (cur ++ [c]) with
      | none => none
      | some (.link _) => none
      | some _ => realWalk F (cur ++ [c]) r

theorem real_append (F : Fs) : ∀ (a b cur : Path), realWalk F cur (a ++ b) = (realWalk F cur a).bind (realWalk F · b)
  | [], b, cur => rfl
  | c :: a, b, cur => by
    rw [List.cons_append, realWalk, realWalk]
    split
    · rfl
    split
    · exact real_append F a b cur
    · split
      · exact real_append F a b _
      · cases hk : F.at_ (cur ++ [c]) with
        | none => rfl
        | some k => cases k <;> first | exact real_append F a b _ | rfl

theorem real_lex (F : Fs) : ∀ (p cur r : Path), realWalk F cur p = some r → r = lex cur p
  | [], cur, r, h => by simpa [realWalk, lex] using h.symm
  | c :: p, cur, r, h => by
    rw [realWalk] at h
    rw [lex]
    split at h
    · cases h
    split at h
    · rename_i h1; rw [if_pos h1]; exact real_lex F p _ _ h
    · rename_i h1
      rw [if_neg h1]
      split at h
      · rename_i h2; rw [if_pos h2]; exact real_lex F p _ _ h
      · rename_i h2
        rw [if_neg h2]
        cases hk : F.at_ (cur ++ [c]) with
        | none => rw [hk] at h; cases h
        | some k => cases k <;> (rw [hk] at h; first | exact real_lex F p _ _ h | cases h)

theorem real_walk (F : Fs) (n : Nat) : ∀ (p cur r rest : Path), realWalk F cur p = some r →
    walk F n cur (p ++ rest) = walk F n r rest
  | [], cur, r, rest, h => by
    have : r = cur := by simpa [realWalk] using h.symm
    rw [this]; rfl
  | c :: p, cur, r, rest, h => by
    rw [realWalk] at h
    rw [List.cons_append, walk]
    split at h
    · cases h
    rename_i h0
    rw [if_neg h0]
    split at h
    · rename_i h1
      rw [if_pos h1]; exact real_walk F n p _ _ _ h
    · rename_i h1
      rw [if_neg h1]
      split at h
      · rename_i h2
        rw [if_pos h2]; exact real_walk F n p _ _ _ h
      · rename_i h2
        rw [if_neg h2]
        cases hk : F.at_ (cur ++ [c]) with
        | none => rw [hk] at h; cases h
        | some k =>
          rw [hk] at h
          cases k with
          | link t => cases h
          | dir => exact real_walk F n p _ _ _ h
          | file => exact real_walk F n p _ _ _ h

/-- Something is there and it is not a link. -/
def Real (F : Fs) (q : Path) : Prop := F.at_ q = some .dir ∨ F.at_ q = some .file

theorem real_real (F : Fs) : ∀ (p cur r : Path), (∀ q, q <+: cur → Real F q) → realWalk F cur p = some r →
    ∀ q, q <+: r → Real F q
  | [], cur, r, hc, h => by
    have : r = cur := by simpa [realWalk] using h.symm
    rw [this]; exact hc
  | c :: p, cur, r, hc, h => by
    rw [realWalk] at h
    split at h
    · cases h
    split at h
    · exact real_real F p _ _ hc h
    · split at h
      · exact real_real F p _ _ (fun q hq => hc q (hq.trans (List.dropLast_prefix _))) h
      · have hext : ∀ k, F.at_ (cur ++ [c]) = some k → (k = .dir ∨ k = .file) →
            ∀ q, q <+: cur ++ [c] → Real F q := by
          intro k hk hk' q hq
          rcases List.prefix_concat_iff.1 hq with rfl | hq
          · rcases hk' with rfl | rfl
            · exact .inl hk
            · exact .inr hk
          · exact hc q hq
        cases hk : F.at_ (cur ++ [c]) with
        | none => rw [hk] at h; cases h
        | some k =>
          cases k with
          | link t => rw [hk] at h; cases h
          | dir => rw [hk] at h; exact real_real F p _ _ (hext _ hk (.inl rfl)) h
          | file => rw [hk] at h; exact real_real F p _ _ (hext _ hk (.inr rfl)) h

/-- What Lstat says about the next component of a real path. -/
theorem kind_step (F : Fs) (n : Nat) {P : Path} {c : Comp} {r : Path} (hP : Comps (P ++ [c])) (hr : realWalk F [] P = some r)
    {k : Kind} (hk : kind F n (str (P ++ [c])) = some k) :
    F.at_ r = some .dir ∧
    (∀ t, k = .link t → F.at_ (r ++ [c]) = some (.link t) ∧ c ≠ [] ∧ c ≠ dot ∧ c ≠ dotdot) ∧
    ((∀ t, k ≠ .link t) → ∃ r', realWalk F [] (P ++ [c]) = some r') := by
  unfold kind at hk
  rw [ofStr_str hP] at hk
  rw [List.getLast?_concat, List.dropLast_concat] at hk
  simp only at hk
  have hra : realWalk F [] (P ++ [c]) = realWalk F r [c] := by rw [real_append, hr]; rfl
  have hrr := real_real F P [] r (fun q hq => by
    have : q = [] := List.prefix_nil.1 hq
    rw [this]; exact .inl F.root) hr
  have hw : walk F n [] P = some r := by
    have := real_walk F n P [] r [] hr
    rw [List.append_nil] at this
    rw [this, walk]
  rw [hw] at hk
  simp only at hk
  split at hk
  · cases hk
  rename_i hdir
  refine ⟨Decidable.byContradiction hdir, ?_⟩
  rw [hra, realWalk, if_neg hdir]
  split at hk
  · rename_i h1
    refine ⟨fun t ht => ?_, fun _ => ⟨r, by rw [if_pos h1]; rfl⟩⟩
    subst ht
    rw [hk] at hdir; simp at hdir
  · rename_i h1
    rw [if_neg h1]
    split at hk
    · rename_i h2
      refine ⟨fun t ht => ?_, fun _ => ⟨r.dropLast, by rw [if_pos h2]; rfl⟩⟩
      subst ht
      rcases hrr r.dropLast (List.dropLast_prefix _) with h | h <;> (rw [hk] at h; cases h)
    · rename_i h2
      rw [if_neg h2]
      refine ⟨fun t ht => ?_, fun hne => ⟨r ++ [c], ?_⟩⟩
      · subst ht
        exact ⟨hk, fun h => h1 (.inl h), fun h => h1 (.inr h), h2⟩
      · rw [hk]
        cases k with
        | link t => exact absurd rfl (hne t)
        | dir => rfl
        | file => rfl

/-- No link in the root directory is relative. -/
def NoTopRel (F : Fs) : Prop := ∀ c t, F.at_ [c] = some (.link t) → isAbs t = true

/-- A restart at index 2 is as good as one at index 1, on a path that begins with a name of at least two letters or that
has more components. -/
theorem loop_two (F : Fs) (n : Nat) (hF : NoTopRel F) {c : Comp} {rest : Path} (hc : Comps (c :: rest)) (h0 : c ≠ [])
    (h1 : rest ≠ [] ∨ 2 ≤ c.length) (d : Nat) :
    loop (F.os n) (str (c :: rest)) 2 d = loop (F.os n) (str (c :: rest)) 1 d := by
  have hs : sep ∉ c := hc c (by simp)
  have ha := loop_at (F.os n) [] c rest d hs
  rw [List.nil_append, str_nil, List.length_nil, List.nil_append] at ha
  rw [Nat.zero_add] at ha
  rw [ha, if_neg (fun h => h0 h.1), loop]
  have hstr : str (c :: rest) = sep :: c ++ str rest := str_cons c rest
  have hlen : 2 < (str (c :: rest)).length := by
    rw [hstr]
    simp only [List.length_append, List.length_cons]
    rcases h1 with h1 | h1
    · cases rest with
      | nil => exact absurd rfl h1
      | cons x r =>
        cases c with
        | nil => exact absurd rfl h0
        | cons y c => rw [str_cons]; simp; omega
    · omega
  rw [if_pos hlen]
  by_cases hd : d > 128
  · rw [dif_pos hd, if_pos hd]
  · rw [dif_neg hd, if_neg hd]
    have hend : compEnd (str (c :: rest)) 2 = (str [c]).length := by
      have h1' : (str [c]).length = 1 + c.length := by rw [str_cons, str_nil]; simp; omega
      cases c with
      | nil => exact absurd rfl h0
      | cons y c =>
        have hs' : sep ∉ c := fun h => hs (by simp [h])
        unfold compEnd
        have : (str ((y :: c) :: rest)).drop 2 = c ++ str rest := by rw [hstr]; rfl
        rw [this, h1']
        cases rest with
        | nil => rw [str_nil, List.append_nil, indexSep_none hs', hstr, str_nil]; simp; omega
        | cons x r =>
          rw [str_cons x, List.cons_append, indexSep_some hs']
          simp; omega
    have htake : (str (c :: rest)).take (str [c]).length = str [c] := by
      rw [show str (c :: rest) = str [c] ++ str rest by rw [← str_append]; rfl]
      exact List.take_left' rfl
    have hdrop : (str (c :: rest)).drop (str [c]).length = str rest := by
      rw [show str (c :: rest) = str [c] ++ str rest by rw [← str_append]; rfl]
      exact List.drop_left' rfl
    simp only [hend, htake, hdrop]
    cases hk : kind F n (str [c]) with
    | none => simp [Fs.os, hk]
    | some k =>
      cases k with
      | dir => simp [Fs.os, hk]
      | file => simp [Fs.os, hk]
      | link t =>
        have hc1 : Comps [c] := fun x hx => hc x (by simp at hx; simp [hx])
        have := (kind_step F n (P := []) (c := c) (r := []) (by simpa using hc1) rfl hk).2.1 t rfl
        have := hF c t (by simpa using this.1)
        simp [Fs.os, hk, this]

/-- `x` is where the OS arrives: nowhere else, and there if it is a directory. -/
def Denotes (F : Fs) (p x : Path) : Prop :=
  (∀ m y, walk F m [] p = some y → y = x) ∧ (F.at_ x = some .dir → ∃ m, walk F m [] p = some x)

theorem real_root {F : Fs} {P r : Path} (hr : realWalk F [] P = some r) : ∀ y, y <+: r → Real F y :=
  real_real F P [] r (fun y hy => by
      have : y = [] := List.prefix_nil.1 hy
      rw [this]; exact .inl F.root) hr

/-- The path after a link has been replaced denotes the same. -/
theorem denotes_link {F : Fs} {P : Path} {c : Comp} {rest r : Path} {s : Str} (hr : realWalk F [] P = some r)
    (hd : F.at_ r = some .dir) (hs : F.at_ (r ++ [c]) = some (.link s)) (h1 : c ≠ []) (h2 : c ≠ dot) (h3 : c ≠ dotdot) {x : Path}
    (h : Denotes F ((if isAbs s then [[]] else P) ++ comps s ++ rest) x) : Denotes F (P ++ c :: rest) x := by
  have hstep : ∀ m, walk F (m + 1) [] (P ++ c :: rest) = walk F m [] ((if isAbs s then [[]] else P) ++ comps s ++ rest) := by
    intro m
    rw [real_walk F (m + 1) P [] r _ hr]
    rw [walk, if_neg (by simp [hd]), if_neg (by simp [h1, h2]), if_neg h3, hs]
    simp only
    unfold start
    split
    · rw [List.append_assoc, List.cons_append, walk, if_neg (by simp [F.root]), if_pos (.inl rfl)]
      rfl
    · rw [List.append_assoc, real_walk F m P [] r _ hr]
  have hzero : walk F 0 [] (P ++ c :: rest) = none := by
    rw [real_walk F 0 P [] r _ hr]
    rw [walk, if_neg (by simp [hd]), if_neg (by simp [h1, h2]), if_neg h3, hs]
  constructor
  · intro m y hy
    cases m with
    | zero => rw [hzero] at hy; cases hy
    | succ m => rw [hstep] at hy; exact h.1 m y hy
  · intro hx
    obtain ⟨m, hm⟩ := h.2 hx
    exact ⟨m + 1, by rw [hstep]; exact hm⟩

theorem real_names {F : Fs} {P r : Path} (hr : realWalk F [] P = some r) (hP : Comps P) : ∀ c ∈ r, Name c := by
  rw [real_lex F P [] r hr]; exact lex_names (by simp) hP

theorem main (F : Fs) (n : Nat) (hF : NoTopRel F) : ∀ k d, 129 - d ≤ k → ∀ P todo r q, Comps (P ++ todo) →
    realWalk F [] P = some r → (loop (F.os n) (str (P ++ todo)) ((str P).length + 1) d).1 = some q →
    ∃ x, q = pathStr x ∧ (∀ c ∈ x, Name c) ∧ (∀ y, y <+: x → Real F y) ∧ Denotes F (P ++ todo) x
  | k, d, hk, P, [], r, q, hc, hr, h => by
    rw [List.append_nil] at h hc ⊢
    have hCP := hc
    rw [loop_end] at h
    simp only [Option.some.injEq] at h
    refine ⟨r, ?_, real_names hr hCP, real_root hr, ?_⟩
    · rw [← h, clean, ofStr_str hc, real_lex F P [] r hr]
    · have hw : ∀ m, walk F m [] P = some r := fun m => by
        have := real_walk F m P [] r [] hr
        rw [List.append_nil] at this
        rw [this, walk]
      exact ⟨fun m y hy => by rw [hw] at hy; exact (Option.some.inj hy).symm, fun _ => ⟨0, hw 0⟩⟩
  | k, d, hk, P, c :: rest, r, q, hc, hr, h => by
    have hcc : sep ∉ c := hc c (by simp)
    have hPc : Comps (P ++ [c]) := fun x hx => hc x (by
      rcases List.mem_append.1 hx with hx | hx
      · simp [hx]
      · simp at hx; simp [hx])
    have hCP : Comps P := fun x hx => hc x (by simp [hx])
    have hCr : Comps rest := fun x hx => hc x (by simp [hx])
    rw [loop_at _ _ _ _ _ hcc] at h
    split at h
    · rename_i h0
      obtain ⟨rfl, rfl⟩ := h0
      simp only [Option.some.injEq] at h
      refine ⟨r, ?_, real_names hr hCP, real_root hr, ?_⟩
      · rw [← h, clean, ofStr_str hc, real_lex F P [] r hr]
        have : ∀ cur (p : Path), lex cur (p ++ [[]]) = lex cur p := by
          intro cur p
          induction p generalizing cur with
          | nil => simp [lex]
          | cons a p ih => rw [List.cons_append, lex, lex, ih, ih, ih]
        rw [this]
      · constructor
        · intro m y hy
          rw [real_walk F m P [] r _ hr, walk] at hy
          split at hy
          · cases hy
          · rw [if_pos (.inl rfl), walk] at hy
            exact (Option.some.inj hy).symm
        · intro hd
          refine ⟨0, ?_⟩
          rw [real_walk F 0 P [] r _ hr, walk, if_neg (by simp [hd]), if_pos (.inl rfl), walk]
    · rename_i h0
      split at h
      · cases h
      · cases k with
        | zero => omega
        | succ k =>
          have ih := main F n hF k (d + 1) (by omega)
          cases hkd : kind F n (str (P ++ [c])) with
          | none => simp [Fs.os, hkd] at h
          | some kd =>
            obtain ⟨hdir, hlink, hreal⟩ := kind_step F n hPc hr hkd
            have hreal' : (∀ t, kd ≠ .link t) →
                (loop (F.os n) (str (P ++ c :: rest)) ((str (P ++ [c])).length + 1) (d + 1)).1 = some q →
                ∃ x, q = pathStr x ∧ (∀ c ∈ x, Name c) ∧ (∀ y, y <+: x → Real F y) ∧ Denotes F (P ++ c :: rest) x := by
              intro hne hq
              obtain ⟨r', hr'⟩ := hreal hne
              have hsp : P ++ c :: rest = (P ++ [c]) ++ rest := by simp
              rw [hsp] at hq hc ⊢
              exact ih (P ++ [c]) rest r' q hc hr' hq
            cases kd with
            | dir => exact hreal' (by simp) (by simpa [Fs.os, hkd] using h)
            | file => exact hreal' (by simp) (by simpa [Fs.os, hkd] using h)
            | link s =>
              obtain ⟨hl, hn1, hn2, hn3⟩ := hlink s rfl
              have h' : (loop (F.os n) (if isAbs s then sep :: s ++ str rest else str P ++ sep :: s ++ str rest) 2
                  (d + 1)).1 = some q := by simpa [Fs.os, hkd] using h
              clear h
              suffices ∃ x, q = pathStr x ∧ (∀ c ∈ x, Name c) ∧ (∀ y, y <+: x → Real F y) ∧
                  Denotes F ((if isAbs s then [[]] else P) ++ comps s ++ rest) x by
                obtain ⟨x, hx1, hx0, hx2, hx3⟩ := this
                exact ⟨x, hx1, hx0, hx2, denotes_link hr hdir hl hn1 hn2 hn3 hx3⟩
              -- beginning with an empty component
              have hempty : ∀ cs, Comps cs → (loop (F.os n) (str ([] :: cs)) 2 (d + 1)).1 = some q →
                  ∃ x, q = pathStr x ∧ (∀ c ∈ x, Name c) ∧ (∀ y, y <+: x → Real F y) ∧ Denotes F ([] :: cs) x := by
                intro cs hcs hq
                refine ih [[]] cs [] q ?_ ?_ hq
                · intro x hx
                  rcases List.mem_cons.1 hx with rfl | hx
                  · simp
                  · exact hcs x hx
                · rw [realWalk, if_neg (by simp [F.root]), if_pos (.inl rfl), realWalk]
              cases hs : isAbs s with
              | true =>
                obtain ⟨e1, e2⟩ := abs_comps s hs
                rw [hs, if_pos rfl] at h'
                rw [if_pos rfl]
                refine hempty (comps s ++ rest) ?_ ?_
                · intro x hx
                  rcases List.mem_append.1 hx with hx | hx
                  · exact e2 x hx
                  · exact hCr x hx
                · rw [str_cons, str_append, ← e1]
                  simpa using h'
              | false =>
                obtain ⟨e1, e2, e3⟩ := sep_comps s hs
                rw [hs, if_neg (by simp)] at h'
                rw [if_neg (by simp)]
                have hC : Comps (P ++ comps s ++ rest) := by
                  intro x hx
                  rcases List.mem_append.1 hx with hx | hx
                  · rcases List.mem_append.1 hx with hx | hx
                    · exact hCP x hx
                    · exact e2 x hx
                  · exact hCr x hx
                have h'' : (loop (F.os n) (str (P ++ comps s ++ rest)) 2 (d + 1)).1 = some q := by
                  rw [str_append, str_append, ← e1]
                  simpa using h'
                clear h'
                -- the link is not in the root directory
                cases P with
                | nil =>
                  have : r = [] := by simpa [realWalk] using hr.symm
                  subst this
                  have := hF c s (by simpa using hl)
                  rw [hs] at this; cases this
                | cons p0 P' =>
                  by_cases hp0 : p0 = []
                  · subst hp0
                    rw [List.cons_append, List.cons_append] at h'' ⊢
                    exact hempty (P' ++ comps s ++ rest) (fun x hx => hC x (List.mem_cons_of_mem _ hx)) h''
                  · rw [List.cons_append, List.cons_append] at h'' hC ⊢
                    rw [loop_two F n hF hC hp0 (.inl (by simp [e3]))] at h''
                    exact ih [] (p0 :: (P' ++ comps s ++ rest)) [] q hC rfl h''

/-- The cleaned path has the components that remain after lexical cleaning. -/
theorem ofStr_clean (p : Str) : ofStr (clean p) = lex [] (ofStr p) ∨ (lex [] (ofStr p) = [] ∧ clean p = [sep]) := by
  unfold clean pathStr
  split
  · rename_i h; exact .inr ⟨by simpa using h, rfl⟩
  · exact .inl (ofStr_str (fun c hc => (lex_names (by simp) (str_ofStr p).2.1 c hc).2.2.2))

theorem canonical_real (F : Fs) (n : Nat) (hF : NoTopRel F) {p q : Str} (h : (canonical (F.os n) p).1 = some q) :
    ∃ x, q = pathStr x ∧ (∀ c ∈ x, Name c) ∧ (∀ y, y <+: x → Real F y) ∧ Denotes F (lex [] (ofStr p)) x := by
  unfold canonical at h
  rcases ofStr_clean p with h1 | ⟨h1, h2⟩
  · have hn := lex_names (cur := []) (by simp) (str_ofStr p).2.1
    by_cases h0 : lex [] (ofStr p) = []
    · have hcl : clean p = [sep] := by unfold clean pathStr; rw [h0]; rfl
      rw [hcl, loop, if_neg (by simp)] at h
      rw [h0]
      refine ⟨[], ?_, by simp, fun y hy => ?_, ?_, fun _ => ⟨0, by rw [walk]⟩⟩
      · simp only [Option.some.injEq] at h
        rw [← h]; decide
      · rw [List.prefix_nil.1 hy]; exact .inl F.root
      · intro m y hy
        rw [walk] at hy; exact (Option.some.inj hy).symm
    · have hcl : clean p = str (lex [] (ofStr p)) := by
        unfold clean pathStr
        rw [if_neg (by simpa using h0)]
      rw [hcl] at h
      exact main F n hF 128 1 (by omega) [] (lex [] (ofStr p)) [] q (fun c hc => (hn c hc).2.2.2) rfl h
  · rw [h2, loop, if_neg (by simp)] at h
    rw [h1]
    refine ⟨[], ?_, by simp, fun y hy => ?_, ?_, fun _ => ⟨0, by rw [walk]⟩⟩
    · simp only [Option.some.injEq] at h
      rw [← h]; decide
    · rw [List.prefix_nil.1 hy]; exact .inl F.root
    · intro m y hy
      rw [walk] at hy; exact (Option.some.inj hy).symm

/-- **C24 (partial).**  If no entry of the root directory is a relative link, the result of `canonical` is a path in which
no component is a link.  Without the condition the claim is false: `C24_refuted`. -/
theorem C24_linkfree_partial (F : Fs) (n : Nat) (hF : NoTopRel F) {p q : Str} (h : (canonical (F.os n) p).1 = some q) :
    ∃ x, q = pathStr x ∧ (∀ c ∈ x, Name c) ∧ ∀ y, y <+: x → ∃ k, F.at_ y = some k ∧ ∀ t, k ≠ .link t := by
  obtain ⟨x, h1, h0, h2, _⟩ := canonical_real F n hF h
  refine ⟨x, h1, h0, fun y hy => ?_⟩
  rcases h2 y hy with h | h
  · exact ⟨_, h, by simp⟩
  · exact ⟨_, h, by simp⟩

/-- **C51 (partial).**  On the same condition the result is the place where the OS arrives when it walks along the
(lexically cleaned) argument: it arrives nowhere else, and if the result is a directory, it does arrive there. -/
theorem C51_same_partial (F : Fs) (n : Nat) (hF : NoTopRel F) {p q : Str} (h : (canonical (F.os n) p).1 = some q) :
    ∃ x, q = pathStr x ∧ (∀ c ∈ x, Name c) ∧ (∀ m y, walk F m [] (lex [] (ofStr p)) = some y → y = x) ∧
      (F.at_ x = some .dir → ∃ m, walk F m [] (lex [] (ofStr p)) = some x) := by
  obtain ⟨x, h1, h0, _, h2⟩ := canonical_real F n hF h
  exact ⟨x, h1, h0, h2⟩

/-! ### Paths without links -/

theorem loop_real (F : Fs) (n : Nat) : ∀ todo d P r, Comps (P ++ todo) → (∀ c ∈ todo, Name c) → F.at_ r = some .dir →
    realWalk F [] P = some r → (∀ y, y <+: todo → Real F (r ++ y)) → d ≤ 129 →
    (loop (F.os n) (str (P ++ todo)) ((str P).length + 1) d).1 =
      if d + todo.length ≤ 129 then some (clean (str (P ++ todo))) else none
  | [], d, P, r, _, _, _, _, _, hd => by
    rw [List.append_nil, loop_end, if_pos (by simpa using hd)]
  | c :: todo, d, P, r, hc, hn, hdir, hr, hreal, hd => by
    obtain ⟨n1, n2, n3, n4⟩ := hn c (by simp)
    rw [loop_at _ _ _ _ _ n4, if_neg (fun h => n1 h.1)]
    by_cases hd' : d > 128
    · rw [if_pos hd', if_neg (by simp; omega)]
    · rw [if_neg hd']
      have hPc : Comps (P ++ [c]) := fun x hx => hc x (by
        rcases List.mem_append.1 hx with hx | hx
        · simp [hx]
        · simp at hx; simp [hx])
      have hw : walk F n [] P = some r := by
        have := real_walk F n P [] r [] hr
        rw [List.append_nil] at this
        rw [this, walk]
      have hkd : kind F n (str (P ++ [c])) = F.at_ (r ++ [c]) := by
        unfold kind
        rw [ofStr_str hPc, List.getLast?_concat, List.dropLast_concat]
        simp only [hw]
        rw [if_neg (by simp [hdir]), if_neg (by simp [n1, n2]), if_neg n3]
      have hrc : Real F (r ++ [c]) := hreal [c] (by simp)
      have hls : (F.os n).lstat d (str (P ++ [c])) = some false := by
        rcases hrc with h | h <;> simp [Fs.os, hkd, h]
      rw [hls]
      simp only
      have hsp : P ++ c :: todo = (P ++ [c]) ++ todo := by simp
      have hrw : realWalk F [] (P ++ [c]) = some (r ++ [c]) := by
        rw [real_append, hr]
        simp only [Option.bind_some]
        rw [realWalk, if_neg (by simp [hdir]), if_neg (by simp [n1, n2]), if_neg n3]
        rcases hrc with h | h <;> (rw [h]; rfl)
      cases todo with
      | nil =>
        rw [loop_end (F.os n) (P ++ [c]) (d + 1), if_pos (by simp; omega)]
      | cons e todo =>
        have hdir' : F.at_ (r ++ [c]) = some .dir := by
          have h2 : Real F (r ++ [c] ++ [e]) := by simpa using hreal [c, e] (by simp)
          exact F.wf (r ++ [c]) e (by rcases h2 with h | h <;> rw [h] <;> exact Option.some_ne_none _)
        rw [hsp] at hc ⊢
        rw [loop_real F n (e :: todo) (d + 1) (P ++ [c]) (r ++ [c]) hc (fun x hx => hn x (by simp at hx ⊢; exact .inr hx))
          hdir' hrw (fun y hy => by
            have := hreal (c :: y) (by simpa using hy)
            simpa using this) (by omega)]
        have : d + 1 + (e :: todo).length = d + (c :: e :: todo).length := by simp; omega
        rw [this]

theorem lex_name : ∀ (x cur : Path), (∀ c ∈ x, Name c) → lex cur x = cur ++ x
  | [], cur, _ => by simp [lex]
  | c :: x, cur, h => by
    obtain ⟨n1, n2, n3, _⟩ := h c (by simp)
    rw [lex, if_neg (by simp [n1, n2]), if_neg n3, lex_name x _ (fun d hd => h d (by simp [hd]))]
    simp

/-- **C24, fixed points.**  A path without links comes out unchanged if it has at most 128 components, and is refused if
it has more. -/
theorem C24_depth (F : Fs) (n : Nat) (x : Path) (hx : ∀ c ∈ x, Name c) (hr : ∀ y, y <+: x → Real F y) :
    (canonical (F.os n) (pathStr x)).1 = if x.length ≤ 128 then some (pathStr x) else none := by
  cases x with
  | nil =>
    have hcl : clean (pathStr []) = [sep] := by decide
    unfold canonical
    rw [hcl, loop, if_neg (by simp)]
    decide
  | cons c x =>
    have hcs : Comps (c :: x) := fun d hd => (hx d hd).2.2.2
    have hp : pathStr (c :: x) = str (c :: x) := rfl
    have hcl : clean (str (c :: x)) = str (c :: x) := by
      unfold clean
      rw [ofStr_str hcs, lex_name _ _ hx]; rfl
    unfold canonical
    rw [hp, hcl]
    have := loop_real F n (c :: x) 1 [] [] hcs hx F.root rfl (by simpa using hr) (by omega)
    rw [List.nil_append] at this
    rw [hcl] at this
    rw [str_nil] at this
    rw [show ([] : Str).length + 1 = 1 from rfl] at this
    rw [this]
    by_cases h : (c :: x).length ≤ 128
    · rw [if_pos h, if_pos (by omega)]
    · rw [if_neg h, if_neg (by omega)]

/-! ### Witnesses -/

theorem names_inj {x y : Path} (hx : ∀ c ∈ x, Name c) (hy : ∀ c ∈ y, Name c) (h : pathStr x = pathStr y) : x = y := by
  have hC : ∀ {z : Path}, (∀ c ∈ z, Name c) → Comps z := fun hz c hc => (hz c hc).2.2.2
  have hroot : ∀ {z : Path}, (∀ c ∈ z, Name c) → pathStr z = [sep] → z = [] := by
    intro z hz h
    cases z with
    | nil => rfl
    | cons c z =>
      have h' : str (c :: z) = [sep] := h
      rw [str_cons] at h'
      cases c with
      | nil => exact absurd rfl (hz [] (by simp)).1
      | cons a c => simp at h'
  cases x with
  | nil => exact (hroot hy h.symm).symm
  | cons c x =>
    cases y with
    | nil => exact hroot hx h
    | cons d y => exact str_inj (hC hx) (hC hy) h

/-- A file system given by its top level and one directory. -/
def table (l : List (Path × Kind)) (p : Path) : Option Kind := if p = [] then some .dir else (l.find? (·.1 = p)).map (·.2)

theorem table_wf {l : List (Path × Kind)} (h : ∀ e ∈ l, table l e.1.dropLast = some .dir) (q : Path) (b : Comp)
    (hq : table l (q ++ [b]) ≠ none) : table l q = some .dir := by
  unfold table at hq
  rw [if_neg (by simp)] at hq
  cases hf : l.find? (·.1 = q ++ [b]) with
  | none => rw [hf] at hq; exact absurd rfl hq
  | some e =>
    have h1 := h e (List.mem_of_find?_eq_some hf)
    have h2 : e.1 = q ++ [b] := by simpa using List.find?_some hf
    rw [h2, List.dropLast_concat] at h1
    exact h1

def mkFs (l : List (Path × Kind)) (h : ∀ e ∈ l, table l e.1.dropLast = some .dir) : Fs where
  at_ := table l
  root := rfl
  wf := table_wf h

theorem mkFs_top {l : List (Path × Kind)} {h} (hl : ∀ e ∈ l, e.1.length = 1 → ∀ t, e.2 = .link t → isAbs t = true) :
    NoTopRel (mkFs l h) := by
  intro c t ht
  have ht' : table l [c] = some (.link t) := ht
  unfold table at ht'
  rw [if_neg (by simp)] at ht'
  cases hf : l.find? (·.1 = [c]) with
  | none => rw [hf] at ht'; cases ht'
  | some e =>
    rw [hf] at ht'
    have h2 : e.1 = [c] := by simpa using List.find?_some hf
    exact hl e (List.mem_of_find?_eq_some hf) (by simp [h2]) t (by simpa using ht')

/-- Lstat of an entry of a real directory. -/
theorem kind_in (F : Fs) (n : Nat) {P r : Path} {c : Comp} (hc : Comps (P ++ [c])) (hr : realWalk F [] P = some r)
    (hd : F.at_ r = some .dir) (hn : Name c) : kind F n (str (P ++ [c])) = F.at_ (r ++ [c]) := by
  have hw : walk F n [] P = some r := by
    have := real_walk F n P [] r [] hr
    rw [List.append_nil] at this
    rw [this, walk]
  unfold kind
  rw [ofStr_str hc, List.getLast?_concat, List.dropLast_concat]
  simp only [hw]
  rw [if_neg (by simp [hd]), if_neg (by simp [hn.1, hn.2.1]), if_neg hn.2.2.1]

/-- One step of the loop over something that is not a link. -/
theorem loop_go (O : Os) (p : Str) (i d i' : Nat) (h1 : i < p.length) (h2 : d ≤ 128) (h3 : compEnd p i = i')
    (h4 : O.lstat d (p.take i') = some false) : (loop O p i d).1 = (loop O p (i' + 1) (d + 1)).1 := by
  rw [loop, if_pos h1, dif_neg (by omega)]
  simp only [h3, h4]

/-- One step of the loop over a link. -/
theorem loop_jump (O : Os) (p : Str) (i d i' : Nat) {s : Str} (h1 : i < p.length) (h2 : d ≤ 128) (h3 : compEnd p i = i')
    (h4 : O.lstat d (p.take i') = some true) (h5 : O.readlink d (p.take i') = some s) :
    (loop O p i d).1 = (loop O (if isAbs s then sep :: s ++ p.drop i' else p.take i ++ s ++ p.drop i') 2 (d + 1)).1 := by
  rw [loop, if_pos h1, dif_neg (by omega)]
  simp only [h3, h4, h5]

theorem os_real {F : Fs} {n d : Nat} {p : Str} {k : Kind} (h : kind F n p = some k) (hk : k = .dir ∨ k = .file) :
    (F.os n).lstat d p = some false := by
  rcases hk with rfl | rfl <;> simp [Fs.os, h]

theorem os_link {F : Fs} {n d : Nat} {p s : Str} (h : kind F n p = some (.link s)) :
    (F.os n).lstat d p = some true ∧ (F.os n).readlink d p = some s := by
  simp [Fs.os, h]

namespace Ex

/-- `/a -> d`, `/d -> x`, and a directory `/x`. -/
def F1 : Fs := mkFs [([['a']], .link ['d']), ([['d']], .link ['x']), ([['x']], .dir)] (by decide)

/-- `/a -> b`, `/b -> cc`, directories `/cc` and `/bcc`, both with a file `f`. -/
def F2 : Fs := mkFs [([['a']], .link ['b']), ([['b']], .link ['c', 'c']), ([['c', 'c']], .dir), ([['b', 'c', 'c']], .dir),
  ([['c', 'c'], ['f']], .file), ([['b', 'c', 'c'], ['f']], .file)] (by decide)

/-- A directory `/d` with a file `/d/g` and a link `/d/l -> /x`, and a directory `/x`. -/
def F3 : Fs := mkFs [([['d']], .dir), ([['d'], ['g']], .file), ([['x']], .dir),
  ([['d'], ['l']], .link ['/', 'x'])] (by decide)

theorem kind_top (F : Fs) (n : Nat) {c : Comp} (hc : Name c) : kind F n (str [c]) = F.at_ [c] := by
  have := kind_in F n (P := []) (r := []) (c := c) (by intro x hx; simp at hx; rw [hx]; exact hc.2.2.2) rfl F.root hc
  simpa using this

theorem F1_canonical : (canonical (F1.os 40) "/a".toList).1 = some "/d".toList := by
  have hk : kind F1 40 (str [['a']]) = some (.link ['d']) := by rw [kind_top _ _ (by unfold Name; decide)]; decide
  have hcl : clean "/a".toList = ['/', 'a'] := by decide
  unfold canonical
  rw [hcl, loop_jump _ _ 1 1 2 (by decide) (by decide) (by decide) (os_link hk).1 (os_link hk).2, loop, if_neg (by decide)]
  decide

theorem F2_canonical : (canonical (F2.os 40) "/a/f".toList).1 = some "/bcc/f".toList := by
  have hcl : clean "/a/f".toList = ['/', 'a', '/', 'f'] := by decide
  have ha : kind F2 40 (str [['a']]) = some (.link ['b']) := by rw [kind_top _ _ (by unfold Name; decide)]; decide
  have hb : kind F2 40 (str [['b']]) = some (.link ['c', 'c']) := by rw [kind_top _ _ (by unfold Name; decide)]; decide
  have hbcc : kind F2 40 (str [['b', 'c', 'c']]) = some .dir := by rw [kind_top _ _ (by unfold Name; decide)]; decide
  have hf : kind F2 40 (str [['b', 'c', 'c'], ['f']]) = some .file := by
    have := kind_in F2 40 (P := [['b', 'c', 'c']]) (r := [['b', 'c', 'c']]) (c := ['f']) (by unfold Comps; decide) (by decide)
      (by decide) (by unfold Name; decide)
    simpa using this.trans (by decide : _ = some Kind.file)
  unfold canonical
  rw [hcl, loop_jump _ _ 1 1 2 (by decide) (by decide) (by decide) (os_link ha).1 (os_link ha).2]
  rw [show (if isAbs ['b'] then sep :: ['b'] ++ List.drop 2 ['/', 'a', '/', 'f'] else
    List.take 1 ['/', 'a', '/', 'f'] ++ ['b'] ++ List.drop 2 ['/', 'a', '/', 'f']) = ['/', 'b', '/', 'f'] by decide]
  rw [loop_jump _ _ 2 2 2 (by decide) (by decide) (by decide) (os_link hb).1 (os_link hb).2]
  rw [show (if isAbs ['c', 'c'] then sep :: ['c', 'c'] ++ List.drop 2 ['/', 'b', '/', 'f'] else
    List.take 2 ['/', 'b', '/', 'f'] ++ ['c', 'c'] ++ List.drop 2 ['/', 'b', '/', 'f']) =
      ['/', 'b', 'c', 'c', '/', 'f'] by decide]
  rw [loop_go _ _ 2 3 4 (by decide) (by decide) (by decide) (os_real hbcc (.inl rfl))]
  rw [loop_go _ _ 5 4 6 (by decide) (by decide) (by decide) (os_real hf (.inr rfl))]
  rw [loop, if_neg (by decide)]
  decide

theorem F3_canonical : (canonical (F3.os 40) "/d/l".toList).1 = some "/x".toList := by
  have hcl : clean "/d/l".toList = ['/', 'd', '/', 'l'] := by decide
  have hd : kind F3 40 (str [['d']]) = some .dir := by rw [kind_top _ _ (by unfold Name; decide)]; decide
  have hl : kind F3 40 (str [['d'], ['l']]) = some (.link ['/', 'x']) := by
    have := kind_in F3 40 (P := [['d']]) (r := [['d']]) (c := ['l']) (by unfold Comps; decide) (by decide)
      (by decide) (by unfold Name; decide)
    simpa using this.trans (by decide : _ = some (Kind.link ['/', 'x']))
  have hx : kind F3 40 (str [[], ['x']]) = some .dir := by
    have := kind_in F3 40 (P := [[]]) (r := []) (c := ['x']) (by unfold Comps; decide) (by decide)
      (by decide) (by unfold Name; decide)
    simpa using this.trans (by decide : _ = some Kind.dir)
  unfold canonical
  rw [hcl, loop_go _ _ 1 1 2 (by decide) (by decide) (by decide) (os_real hd (.inl rfl))]
  rw [loop_jump _ _ 3 2 4 (by decide) (by decide) (by decide) (os_link hl).1 (os_link hl).2]
  rw [show (if isAbs ['/', 'x'] then sep :: ['/', 'x'] ++ List.drop 4 ['/', 'd', '/', 'l'] else
    List.take 3 ['/', 'd', '/', 'l'] ++ ['/', 'x'] ++ List.drop 4 ['/', 'd', '/', 'l']) = ['/', '/', 'x'] by decide]
  rw [loop_go _ _ 2 3 3 (by decide) (by decide) (by decide) (os_real hx (.inl rfl))]
  rw [loop, if_neg (by decide)]
  decide

theorem F3_top : NoTopRel F3 := mkFs_top (by
  intro e he h1 t ht
  simp only [List.mem_cons, List.not_mem_nil, or_false] at he
  rcases he with rfl | rfl | rfl | rfl <;> simp_all)

/-- The hypotheses of `C24_linkfree_partial` and `C51_same_partial` hold of a path through a link. -/
example : NoTopRel F3 ∧ (canonical (F3.os 40) "/d/l".toList).1 = some "/x".toList := ⟨F3_top, F3_canonical⟩

/-- The hypotheses of `C24_depth` hold of `/d/g`. -/
example : (canonical (F3.os 40) (pathStr [['d'], ['g']])).1 = some (pathStr [['d'], ['g']]) :=
  C24_depth F3 40 [['d'], ['g']] (by unfold Name; decide) (by
    intro y hy
    have hl : y.length ≤ 2 := hy.length_le
    rw [List.prefix_iff_eq_take.1 hy]
    have : y.length = 0 ∨ y.length = 1 ∨ y.length = 2 := by omega
    unfold Real
    rcases this with h | h | h <;> (rw [h]; decide))

end Ex

/-- **C24, second half, is false of the code**: the result may be a link.  After a relative link the loop goes on at index
2 (util.go:95 sets `i = 1`, which the loop increments), so the first letter behind the slash is not looked at; with
`/a -> d` and `/d -> x` the result of `canonical("/a")` is `/d`, a link. -/
theorem C24_refuted : ¬ ∀ (F : Fs) (n : Nat) (p q : Str), (canonical (F.os n) p).1 = some q →
    ∃ x, q = pathStr x ∧ (∀ c ∈ x, Name c) ∧ ∀ y, y <+: x → ∃ k, F.at_ y = some k ∧ ∀ t, k ≠ .link t := by
  intro h
  obtain ⟨x, h1, h0, h2⟩ := h Ex.F1 40 _ _ Ex.F1_canonical
  obtain ⟨k, h3, h4⟩ := h2 x (List.prefix_refl x)
  have hx : x = [['d']] := names_inj h0 (by unfold Name; decide) (h1.symm.trans (by decide))
  subst hx
  have : Ex.F1.at_ [['d']] = some (.link ['x']) := by decide
  rw [this] at h3
  exact h4 _ (Option.some.inj h3).symm

/-- **C51 is false of the code**: the result may be another file.  With `/a -> b`, `/b -> cc`, the result of
`canonical("/a/f")` is `/bcc/f`, not `/cc/f`: after the first link the loop goes on behind the letter `b` and splices the
second target there. -/
theorem C51_refuted : ¬ ∀ (F : Fs) (n : Nat) (p q : Str), (canonical (F.os n) p).1 = some q →
    ∃ x, q = pathStr x ∧ (∀ c ∈ x, Name c) ∧ ∀ m y, walk F m [] (lex [] (ofStr p)) = some y → y = x := by
  intro h
  obtain ⟨x, h1, h0, h2⟩ := h Ex.F2 40 _ _ Ex.F2_canonical
  have hx : x = [['b', 'c', 'c'], ['f']] := names_inj h0 (by unfold Name; decide) (h1.symm.trans (by decide))
  subst hx
  have hp : lex [] (ofStr "/a/f".toList) = [['a'], ['f']] := by decide
  have hw : walk Ex.F2 40 [] [['a'], ['f']] = some [['c', 'c'], ['f']] := by
    rw [walk, if_neg (by decide), if_neg (by decide), if_neg (by decide)]
    rw [show Ex.F2.at_ ([] ++ [['a']]) = some (.link ['b']) by decide]
    simp only
    rw [show comps ['b'] ++ [['f']] = [['b'], ['f']] by decide, show start [] ['b'] = [] by decide]
    rw [walk, if_neg (by decide), if_neg (by decide), if_neg (by decide)]
    rw [show Ex.F2.at_ ([] ++ [['b']]) = some (.link ['c', 'c']) by decide]
    simp only
    rw [show comps ['c', 'c'] ++ [['f']] = [['c', 'c'], ['f']] by decide, show start [] ['c', 'c'] = [] by decide]
    rw [walk, if_neg (by decide), if_neg (by decide), if_neg (by decide)]
    rw [show Ex.F2.at_ ([] ++ [['c', 'c']]) = some .dir by decide]
    simp only
    rw [walk, if_neg (by decide), if_neg (by decide), if_neg (by decide)]
    rw [show Ex.F2.at_ ([] ++ [['c', 'c']] ++ [['f']]) = some .file by decide]
    simp only
    rw [walk]; rfl
  have := h2 40 _ (by rw [hp]; exact hw)
  exact absurd this (by decide)

end Canon
end Verif
