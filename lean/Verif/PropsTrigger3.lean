/-
kqueue and FEN: new entries of a watched directory (C53).

These systems only tell that a directory has changed; the watcher then reads the directory and compares it with its table.
-/
import Verif.PropsTrigger2

namespace Verif
namespace Trg
open Spec.Trg Event WP

theorem join_inj {p : Path} {c c' : Comp} (h : join p c = join p c') : c = c' := by
  unfold join at h
  split at h
  · simpa using h
  · simpa using h

theorem join_ne {p : Path} {c : Comp} (hc : c ≠ []) : join p c ≠ p := by
  unfold join
  split
  · rename_i h
    rw [h]; simpa using hc
  · intro h
    have := congrArg List.length h
    simp at this

/-- `singlewatch` changes no other entry. -/
theorem singlewatch_other (N : Native) (E : Env) (s : St) (p : Path) (e : Event) (m : Mode) (d : Bool) {q : Path} (hq : p ≠ q) :
    (singlewatch N E s p e m d).1.lkp.get? q = s.lkp.get? q := by
  unfold singlewatch
  split
  · split
    · rfl
    · rfl
    · simp only
      split
      · simp [GoMap.get?_set, hq]
      · rfl
  · simp only
    split <;> simp [GoMap.get?_set, hq]

/-- A directory that can be scanned without errors: every entry can be opened and registered, names are distinct. -/
structure Scannable (E : Env) (p : Path) (l : List (Comp × Bool)) : Prop where
  stat : E.stat p = some true
  list : E.list p = .ok l
  nodup : (l.map (·.1)).Nodup
  names : ∀ x ∈ l, x.1 ≠ []
  opn : ∀ x ∈ l, E.opn (join p x.1) = .ok
  reg : ∀ q, E.reg q = true

theorem singlewatch_new (N : Native) (E : Env) (s : St) (p : Path) (e : Event) (m : Mode) (d : Bool)
    (ho : E.opn p = .ok) (hr : E.reg p = true) (h : s.lkp.get? p = none) :
    (singlewatch N E s p e m d).2 = .ok ∧ ((singlewatch N E s p e m d).1.lkp.get? p).isSome = true := by
  unfold singlewatch
  rw [h, ho]
  simp [hr, GoMap.get?_set]

theorem singlewatch_old (N : Native) (E : Env) (s : St) (p : Path) (e : Event) (m : Mode) (d : Bool)
    (hr : E.reg p = true) {w : W} (h : s.lkp.get? p = some w) :
    (singlewatch N E s p e m d).2 = .already ∧ ((singlewatch N E s p e m d).1.lkp.get? p).isSome = true := by
  unfold singlewatch
  rw [h]
  simp [hr, GoMap.get?_set]

/-- The fold of a scan. -/
theorem scan_exact (N : Native) (E : Env) (p : Path) (w : W) (hc : w.eDir &&& N.P.create ≠ 0) : ∀ (l : List (Comp × Bool))
    (n : St × List Ev), (l.map (·.1)).Nodup → (∀ x ∈ l, E.opn (join p x.1) = .ok) → (∀ q, E.reg q = true) →
    (l.foldl (fun n x => (scanKid N E p w n x).1) n).2 =
      n.2 ++ (l.filter fun x => (n.1.lkp.get? (join p x.1)).isNone).map (fun x => (⟨join p x.1, N.P.create, x.2⟩ : Ev)) ∧
    (∀ x ∈ l, ((l.foldl (fun n x => (scanKid N E p w n x).1) n).1.lkp.get? (join p x.1)).isSome = true) ∧
    (∀ q, (∀ x ∈ l, join p x.1 ≠ q) → (l.foldl (fun n x => (scanKid N E p w n x).1) n).1.lkp.get? q = n.1.lkp.get? q)
  | [], n, _, _, _ => by simp
  | x :: l, n, hn, ho, hr => by
    rw [List.foldl_cons]
    simp only [List.map_cons, List.nodup_cons] at hn
    obtain ⟨h1, h2, h3⟩ := scan_exact N E p w hc l (scanKid N E p w n x).1 hn.2
      (fun y hy => ho y (List.mem_cons_of_mem _ hy)) hr
    rw [scanKid_eq] at h1 h2 h3 ⊢
    have hdiff : ∀ y ∈ l, join p x.1 ≠ join p y.1 := by
      intro y hy h
      exact hn.1 (List.mem_map.2 ⟨y, hy, (join_inj h).symm⟩)
    have hother : ∀ y ∈ l, (singlewatch N E n.1 (join p x.1) w.eDir .ndir x.2).1.lkp.get? (join p y.1) =
        n.1.lkp.get? (join p y.1) := fun y hy => singlewatch_other N E n.1 _ _ _ _ (hdiff y hy)
    have hfil : (l.filter fun y => ((singlewatch N E n.1 (join p x.1) w.eDir .ndir x.2).1.lkp.get? (join p y.1)).isNone) =
        l.filter fun y => (n.1.lkp.get? (join p y.1)).isNone := by
      apply List.filter_congr
      intro y hy
      rw [hother y hy]
    simp only at h1 h2 h3
    have hx := ho x List.mem_cons_self
    have hself : (n.2 ++ scanEvents N E p w n.1 x = n.2 ++ (if (n.1.lkp.get? (join p x.1)).isNone then
          [(⟨join p x.1, N.P.create, x.2⟩ : Ev)] else [])) ∧
        ((singlewatch N E n.1 (join p x.1) w.eDir .ndir x.2).1.lkp.get? (join p x.1)).isSome = true := by
      unfold scanEvents
      cases hg : n.1.lkp.get? (join p x.1) with
      | none =>
        obtain ⟨ha, hb⟩ := singlewatch_new N E n.1 _ w.eDir .ndir x.2 hx (hr _) hg
        rw [ha]
        simp only [if_pos hc, hb]
        simp
      | some v =>
        obtain ⟨ha, hb⟩ := singlewatch_old N E n.1 _ w.eDir .ndir x.2 (hr _) hg
        rw [ha]
        simp [hb]
    refine ⟨?_, ?_, ?_⟩
    · rw [h1, hfil, hself.1]
      by_cases hg : (n.1.lkp.get? (join p x.1)).isNone = true
      · simp [hg]
      · simp [hg]
    · intro y hy
      rcases List.mem_cons.1 hy with rfl | hy
      · rw [h3 _ (fun z hz h => hdiff z hz h.symm)]
        exact hself.2
      · exact h2 y hy
    · intro q hq
      rw [h3 q (fun y hy => hq y (List.mem_cons_of_mem _ hy))]
      exact singlewatch_other N E n.1 _ _ _ _ (hq x List.mem_cons_self)

/-- **C53, one notification.**  The watcher is told that a directory watched for Create has changed, and reads it without
errors.  It reports one Create, in the order of the directory, for every entry that is not in its table, and nothing else;
afterwards all entries are in the table and no other part of the table has changed. -/
theorem C53_scan (N : Native) (E : Env) (s : St) (p : Path) (ge : Event) {w : W} (l : List (Comp × Bool))
    (hw : s.lkp.get? p = some w) (hd : w.isDir = true) (hc : w.eDir &&& N.P.create ≠ 0) (hge : ge &&& N.nWrite ≠ 0)
    (hrr : ge &&& (N.nRemove ||| N.nRename) = 0) (hE : Scannable E p l) :
    (process N E s p ge).2 =
      (l.filter fun x => (s.lkp.get? (join p x.1)).isNone).map (fun x => (⟨join p x.1, N.P.create, x.2⟩ : Ev)) ∧
    (∀ x ∈ l, ((process N E s p ge).1.lkp.get? (join p x.1)).isSome = true) ∧
    (∀ q, (∀ x ∈ l, join p x.1 ≠ q) → (process N E s p ge).1.lkp.get? q = s.lkp.get? q) := by
  unfold process
  rw [hw]
  have hren : (renew N E s p w ge).lkp = s.lkp := by
    unfold renew
    rw [if_pos hrr, hE.stat]
    simp only [hE.reg, if_true]
  have hrr' : ge &&& (N.nRename ||| N.nRemove) = 0 := by rw [BitVec.or_comm]; exact hrr
  simp only [hd]
  rw [if_neg (by rintro ⟨_, h | h⟩; exact absurd h (by simp); exact hge h), if_neg (by simp [hrr])]
  simp only [if_true]
  unfold dir
  rw [if_neg (by simp [hrr']), if_pos hge]
  unfold walk
  rw [hE.list]
  simp only [scan_fold]
  have h := scan_exact N E p w hc l (renew N E s p w ge, []) hE.nodup hE.opn hE.reg
  simp only [hren, List.nil_append] at h
  exact h

/-- Notifications about directory `p`, one after the other. -/
def processAll (N : Native) (p : Path) : St → List (Env × Event) → St × List Ev
  | s, [] => (s, [])
  | s, x :: xs =>
    let r := process N x.1 (retrieved N s p) p x.2
    let r' := processAll N p r.1 xs
    (r'.1, r.2 ++ r'.2)

theorem count_map_join (p : Path) (c : Comp) (ev : Event) : ∀ (l : List (Comp × Bool)), (l.map (·.1)).Nodup → ∀ (f : Comp × Bool → Bool),
    ((l.filter f).map (fun x => (⟨join p x.1, ev, x.2⟩ : Ev))).countP (fun e => decide (e.path = join p c)) =
      if ∃ x ∈ l, x.1 = c ∧ f x = true then 1 else 0
  | [], _, f => by simp
  | x :: l, hn, f => by
    simp only [List.map_cons, List.nodup_cons] at hn
    have ih := count_map_join p c ev l hn.2 f
    by_cases hx : x.1 = c
    · have hno : ¬ ∃ y ∈ l, y.1 = c ∧ f y = true := by
        rintro ⟨y, hy, h1, _⟩
        exact hn.1 (List.mem_map.2 ⟨y, hy, h1.trans hx.symm⟩)
      rw [if_neg hno] at ih
      by_cases hf : f x = true
      · rw [List.filter_cons_of_pos hf, List.map_cons, List.countP_cons_of_pos (by simp [hx]), ih,
          if_pos ⟨x, List.mem_cons_self, hx, hf⟩]
      · rw [List.filter_cons_of_neg hf, ih, if_neg]
        rintro ⟨y, hy, h1, h2⟩
        rcases List.mem_cons.1 hy with rfl | hy
        · exact hf h2
        · exact hno ⟨y, hy, h1, h2⟩
    · have hiff : (∃ y ∈ x :: l, y.1 = c ∧ f y = true) ↔ ∃ y ∈ l, y.1 = c ∧ f y = true := by
        constructor
        · rintro ⟨y, hy, h1, h2⟩
          rcases List.mem_cons.1 hy with rfl | hy
          · exact absurd h1 hx
          · exact ⟨y, hy, h1, h2⟩
        · rintro ⟨y, hy, h⟩
          exact ⟨y, List.mem_cons_of_mem _ hy, h⟩
      by_cases hf : f x = true
      · rw [List.filter_cons_of_pos hf, List.map_cons, List.countP_cons_of_neg, ih]
        · simp only [hiff]
        · simp only [decide_eq_true_eq]
          exact fun h => hx (join_inj h)
      · rw [List.filter_cons_of_neg hf, ih]
        simp only [hiff]

open Classical in
/-- **C53 (partial).**  A directory is watched for Create.  Over any sequence of change notifications of the directory,
with any contents each time, that can be read without errors: an entry is reported exactly once if some reading finds it and
it was not in the table at the beginning, and otherwise not at all.  The full claim also covers entries that are removed
and created again, and entries that cannot be opened; see `C53_again_refuted` and `C53_skipped_refuted`. -/
theorem C53_once_partial (N : Native) (p : Path) (c : Comp) : ∀ (xs : List (Env × Event)) (s : St) (w : W),
    s.lkp.get? p = some w → w.isDir = true → w.eDir &&& N.P.create ≠ 0 →
    (∀ x ∈ xs, x.2 &&& N.nWrite ≠ 0 ∧ x.2 &&& (N.nRemove ||| N.nRename) = 0 ∧ ∃ l, Scannable x.1 p l) →
    (processAll N p s xs).2.countP (fun e => decide (e.path = join p c)) =
      if s.lkp.get? (join p c) = none ∧ ∃ x ∈ xs, ∃ l d, x.1.list p = .ok l ∧ (c, d) ∈ l then 1 else 0
  | [], s, w, _, _, _, _ => by simp [processAll]
  | x :: xs, s, w, hw, hd, hcr, hx => by
    obtain ⟨h1, h2, l, hl⟩ := hx x List.mem_cons_self
    obtain ⟨k1, k2, k3⟩ := C53_scan N x.1 (retrieved N s p) p x.2 l hw hd hcr h1 h2 hl
    have hlk : (retrieved N s p).lkp = s.lkp := rfl
    rw [hlk] at k1 k3
    have hw' : (process N x.1 (retrieved N s p) p x.2).1.lkp.get? p = some w := by
      rw [k3 p (fun y hy => join_ne (hl.names y hy)), hw]
    have ih := C53_once_partial N p c xs _ w hw' hd hcr (fun y hy => hx y (List.mem_cons_of_mem _ hy))
    simp only [processAll, List.countP_append]
    rw [k1, count_map_join p c _ l hl.nodup]
    by_cases hin : ∃ y ∈ l, y.1 = c
    · obtain ⟨y, hy, rfl⟩ := hin
      have hsome := k2 y hy
      rw [if_neg (by rintro ⟨h, _⟩; rw [h] at hsome; cases hsome)] at ih
      rw [ih, Nat.add_zero]
      by_cases hs : s.lkp.get? (join p y.1) = none
      · rw [if_pos ⟨y, hy, rfl, by rw [hs]; rfl⟩, if_pos ⟨hs, x, List.mem_cons_self, l, y.2, hl.list, hy⟩]
      · rw [if_neg, if_neg]
        · rintro ⟨h, _⟩; exact hs h
        · rintro ⟨z, _, h3, h4⟩
          rw [h3] at h4
          exact hs (Option.isNone_iff_eq_none.1 h4)
    · have hsame : (process N x.1 (retrieved N s p) p x.2).1.lkp.get? (join p c) = s.lkp.get? (join p c) :=
        k3 _ (fun y hy h => hin ⟨y, hy, join_inj h⟩)
      rw [ih, if_neg (by rintro ⟨y, hy, h, _⟩; exact hin ⟨y, hy, h⟩), hsame, Nat.zero_add]
      have hiff : (s.lkp.get? (join p c) = none ∧ ∃ y ∈ xs, ∃ l d, y.1.list p = .ok l ∧ (c, d) ∈ l) ↔
          (s.lkp.get? (join p c) = none ∧ ∃ y ∈ x :: xs, ∃ l d, y.1.list p = .ok l ∧ (c, d) ∈ l) := by
        constructor
        · rintro ⟨h, y, hy, h'⟩
          exact ⟨h, y, List.mem_cons_of_mem _ hy, h'⟩
        · rintro ⟨h, y, hy, l', d, h3, h4⟩
          rcases List.mem_cons.1 hy with rfl | hy
          · rw [hl.list] at h3
            cases h3
            exact absurd ⟨_, h4, rfl⟩ hin
          · exact ⟨h, y, hy, l', d, h3, h4⟩
      simp only [hiff]

namespace Ex

/-- `/d` with the given entries, all of them files. -/
def dirOf (o : Open) (l : List Comp) : Env where
  stat := fun p => some (decide (p = [['d']]))
  opn := fun p => if p = [['d']] then .ok else o
  reg := fun _ => true
  unreg := fun _ => true
  list := fun p => if p = [['d']] then .ok (l.map fun c => (c, false)) else .error false

/-- `/d`, empty, watched for Create. -/
def s3 : St := (Watch kqueue (dirOf .ok []) {} [['d']] 0x100).1

theorem scannable (l : List Comp) (h : l.Nodup) (h' : ∀ c ∈ l, c ≠ []) :
    Scannable (dirOf .ok l) [['d']] (l.map fun c => (c, false)) where
  stat := rfl
  list := rfl
  nodup := by
    rw [List.map_map]
    show (l.map id).Nodup
    rw [List.map_id]
    exact h
  names := by
    intro x hx
    obtain ⟨c, hc, rfl⟩ := List.mem_map.1 hx
    exact h' c hc
  opn := by
    intro x _
    simp only [dirOf]
    split <;> rfl
  reg := fun _ => rfl

end Ex

/-- Two files appear one after the other in `/d`: each is reported once. -/
example : (processAll kqueue [['d']] Ex.s3 [(Ex.dirOf .ok [['f']], 0x2), (Ex.dirOf .ok [['f'], ['g']], 0x2)]).2.countP
    (fun e => decide (e.path = [['d'], ['f']])) = 1 := by
  have h := C53_once_partial kqueue [['d']] ['f']
    [(Ex.dirOf .ok [['f']], 0x2), (Ex.dirOf .ok [['f'], ['g']], 0x2)] Ex.s3 { fd := 0, isDir := true, eDir := 0x100 }
    (by decide) rfl (by decide) (by
      intro x hx
      simp only [List.mem_cons, List.not_mem_nil, or_false] at hx
      rcases hx with rfl | rfl
      · exact ⟨by decide, by decide, _, Ex.scannable _ (by decide) (by decide)⟩
      · exact ⟨by decide, by decide, _, Ex.scannable _ (by decide) (by decide)⟩)
  rw [if_pos ⟨by decide, _, List.mem_cons_self, _, false, rfl, by decide⟩] at h
  exact h

/-- **C53 is false of the code for a file that is created again**: `/d` is watched for Create.  The file `/d/f` is created,
removed and created again; each time kqueue tells that `/d` has changed.  Only the first creation is reported: removals are
only noticed if Remove was asked for, and the stale entry of the table hides the second creation. -/
theorem C53_again_refuted :
    (processAll kqueue [['d']] Ex.s3
      [(Ex.dirOf .ok [['f']], 0x2), (Ex.dirOf .ok [], 0x2), (Ex.dirOf .ok [['f']], 0x2)]).2 =
      [⟨[['d'], ['f']], 0x100, false⟩] := by decide

/-- **C53 is false of the code for entries that cannot be watched** (a socket or a dangling symlink on kqueue): they are
reported as created whenever the directory changes. -/
theorem C53_skipped_refuted :
    (processAll kqueue [['d']] Ex.s3
      [(Ex.dirOf .skip [['f']], 0x2), (Ex.dirOf .skip [['f']], 0x2), (Ex.dirOf .skip [['f']], 0x2)]).2 =
      [⟨[['d'], ['f']], 0x100, false⟩, ⟨[['d'], ['f']], 0x100, false⟩, ⟨[['d'], ['f']], 0x100, false⟩] := by decide

end Trg
end Verif
