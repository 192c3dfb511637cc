/-
C23: the path functions on strings agree with the view of a path as a list of components.
-/
import Verif.PathStr
import Verif.NodeLemmas

namespace Verif
namespace PathStr

/-- No component contains a separator.  Every absolute path string is the string of such a list. -/
def Comps (p : Path) : Prop := ∀ c ∈ p, sep ∉ c

theorem str_nil : str [] = [] := rfl
theorem str_cons (b : Comp) (p : Path) : str (b :: p) = sep :: b ++ str p := by simp [str]
theorem str_append (p q : Path) : str (p ++ q) = str p ++ str q := by simp [str]
theorem str_snoc (p : Path) (b : Comp) : str (p ++ [b]) = str p ++ sep :: b := by simp [str]

theorem indexSep_none {s : Str} (h : sep ∉ s) : indexSep s = none := by
  induction s with
  | nil => rfl
  | cons c s ih =>
    simp only [List.mem_cons, not_or] at h
    simp [indexSep, Ne.symm h.1, ih h.2]

theorem indexSep_some {s : Str} (h : sep ∉ s) (t : Str) : indexSep (s ++ sep :: t) = some s.length := by
  induction s with
  | nil => simp [indexSep]
  | cons c s ih =>
    simp only [List.mem_cons, not_or] at h
    simp [indexSep, Ne.symm h.1, ih h.2]

theorem lastIndexSep_none {s : Str} (h : sep ∉ s) : lastIndexSep s = none := by
  induction s with
  | nil => rfl
  | cons c s ih =>
    simp only [List.mem_cons, not_or] at h
    simp [lastIndexSep, Ne.symm h.1, ih h.2]

theorem lastIndexSep_some (s : Str) {t : Str} (h : sep ∉ t) : lastIndexSep (s ++ sep :: t) = some s.length := by
  induction s with
  | nil => simp [lastIndexSep, lastIndexSep_none h]
  | cons c s ih => simp [lastIndexSep, ih]

theorem cut_append {b : Str} (hb : sep ∉ b) (s : Str) : cut (b ++ s) = (b ++ (cut s).1, (cut s).2) := by
  induction b with
  | nil => rfl
  | cons c b ih =>
    simp only [List.mem_cons, not_or] at hb
    simp [cut, Ne.symm hb.1, ih hb.2]

theorem cut_str {p : Path} (h : Comps p) : cut (str p) = ([], p) := by
  induction p with
  | nil => rfl
  | cons b p ih =>
    have hp : Comps p := fun c hc => h c (by simp [hc])
    rw [str_cons]
    show cut (sep :: (b ++ str p)) = _
    rw [cut, if_pos rfl, cut_append (h b (by simp)), ih hp]
    simp

theorem ofStr_str {p : Path} (h : Comps p) : ofStr (str p) = p := by rw [ofStr, cut_str h]

theorem str_ofStr (s : Str) : (cut s).1 ++ str (ofStr s) = s ∧ Comps (ofStr s) ∧ sep ∉ (cut s).1 := by
  induction s with
  | nil => simp [cut, ofStr, str, Comps]
  | cons c s ih =>
    obtain ⟨h1, h2, h3⟩ := ih
    unfold ofStr at *
    by_cases hc : c = sep
    · simp only [cut, hc, if_true]
      refine ⟨by rw [str_cons]; simp [h1], ?_, by simp⟩
      intro d hd
      rcases List.mem_cons.1 hd with rfl | hd
      · exact h3
      · exact h2 d hd
    · simp only [cut, hc, if_false]
      exact ⟨by simp [h1], h2, by simp [Ne.symm hc, h3]⟩

theorem str_inj {p q : Path} (hp : Comps p) (hq : Comps q) (h : str p = str q) : p = q := by
  rw [← ofStr_str hp, h, ofStr_str hq]

theorem Comps.append {p q : Path} : Comps (p ++ q) ↔ Comps p ∧ Comps q := by
  constructor
  · intro h
    exact ⟨fun c hc => h c (by simp [hc]), fun c hc => h c (by simp [hc])⟩
  · rintro ⟨h1, h2⟩ c hc
    rcases List.mem_append.1 hc with hc | hc
    · exact h1 c hc
    · exact h2 c hc

/-- If the string of `q` and a separator begin the string of `p`, then `p` extends `q`. -/
theorem extends_of_str {q p : Path} (hq : Comps q) (hp : Comps p) {t : Str} (h : str p = str q ++ sep :: t) :
    ∃ b r, p = q ++ b :: r := by
  have hc : (cut t).2 = ofStr t := rfl
  obtain ⟨h1, h2, h3⟩ := str_ofStr t
  refine ⟨(cut t).1, ofStr t, str_inj hp (Comps.append.2 ⟨hq, ?_⟩) ?_⟩
  · intro c hcm
    rcases List.mem_cons.1 hcm with rfl | hcm
    · exact h3
    · exact h2 c hcm
  · rw [h, str_append, str_cons, List.cons_append, h1]

/-- **C23, below.**  `indexrel` finds one path below another iff its components extend the other's; the index
is that of the first character of the rest. -/
theorem C23_below {q p : Path} (hq : Comps q) (hp : Comps p) :
    (indexrel (str q) (str p) = some ((str q).length + 1) ↔ ∃ b r, p = q ++ b :: r) ∧
    (indexrel (str q) (str p) = none ↔ ¬ ∃ b r, p = q ++ b :: r) := by
  have key : ((str p).length > (str q).length ∧ (str p).take (str q).length = str q ∧
      (str p)[(str q).length]? = some sep) ↔ ∃ b r, p = q ++ b :: r := by
    constructor
    · rintro ⟨h1, h2, h3⟩
      refine extends_of_str hq hp (t := (str p).drop ((str q).length + 1)) ?_
      rw [List.getElem?_eq_some_iff] at h3
      obtain ⟨h4, h5⟩ := h3
      rw [← h5, ← List.drop_eq_getElem_cons h4]
      conv => lhs; rw [← List.take_append_drop (str q).length (str p)]
      rw [h2]
    · rintro ⟨b, r, rfl⟩
      rw [str_append, str_cons]
      simp
  unfold indexrel
  constructor
  · rw [← key]
    split
    · next h => exact ⟨fun _ => h, fun _ => rfl⟩
    · next h => exact ⟨fun hc => by simp at hc, fun hc => absurd hc h⟩
  · rw [← key]
    split
    · next h => exact ⟨fun hc => by simp at hc, fun hc => absurd h hc⟩
    · next h => exact ⟨fun _ => h, fun _ => rfl⟩

/-- **C23, split.**  Splitting a path gives its parent directory and its last name. -/
theorem C23_split {p : Path} {b : Comp} (hb : sep ∉ b) :
    split (str (p ++ [b])) = (str p, b) ∧ base (str (p ++ [b])) = b := by
  rw [str_snoc]
  unfold split base
  rw [lastIndexSep_some _ hb]
  simp

theorem drop_str (q p : Path) (b : Comp) : (str (q ++ b :: p)).drop ((str q).length + 1) = b ++ str p := by
  rw [str_append, str_cons, List.drop_append]
  simp

theorem str_head {r : Path} (h : r ≠ []) : ∃ t, str r = sep :: t := by
  cases r with
  | nil => exact absurd rfl h
  | cons b r => exact ⟨_, by rw [str_cons]; rfl⟩

/-- One iteration of the loops. -/
theorem index_last (q : Path) {b : Comp} (hb : sep ∉ b) :
    indexSep ((str (q ++ [b])).drop ((str q).length + 1)) = none := by
  rw [drop_str]; simp [str, indexSep_none hb]

theorem index_next (q : Path) {b : Comp} (hb : sep ∉ b) {r : Path} (hr : r ≠ []) :
    indexSep ((str (q ++ b :: r)).drop ((str q).length + 1)) = some b.length := by
  obtain ⟨t, ht⟩ := str_head hr
  rw [drop_str, ht, indexSep_some hb]

theorem take_next (q : Path) (b : Comp) (r : Path) :
    ((str (q ++ b :: r)).drop ((str q).length + 1)).take b.length = b := by
  rw [drop_str]; simp

theorem prefix_next (q : Path) (b : Comp) (r : Path) :
    (str (q ++ b :: r)).take ((str q).length + 1 + b.length) = str (q ++ [b]) := by
  have : q ++ b :: r = (q ++ [b]) ++ r := by simp
  rw [this, str_append, List.take_append_of_le_length]
  · rw [List.take_of_length_le]
    rw [str_snoc]; simp; omega
  · rw [str_snoc]; simp; omega

theorem index_step (q : Path) (b : Comp) : (str q).length + 1 + b.length + 1 = (str (q ++ [b])).length + 1 := by
  rw [str_snoc]; simp; omega

/-- **C23, walk.**  From a node `q` on the way to `q ++ p`, the loops of node.go go through exactly the
components of `p`, each with the path up to it. -/
theorem C23_steps (q : Path) {p : Path} (hp : Comps p) (hne : p ≠ []) :
    steps (str (q ++ p)) ((str q).length + 1) =
      (List.range p.length).map fun k => (str (q ++ p.take (k + 1)), p.getD k []) := by
  induction p generalizing q with
  | nil => exact absurd rfl hne
  | cons b r ih =>
    have hb : sep ∉ b := hp b (by simp)
    rw [steps]
    by_cases hr : r = []
    · subst hr
      split
      · next h => rw [index_last q hb] at h; simp at h
      · rw [drop_str]; simp [str]
    · split
      · next j h =>
        rw [index_next q hb hr] at h
        simp only [Option.some.injEq] at h
        subst h
        rw [take_next, prefix_next, index_step]
        have := ih (q ++ [b]) (fun c hc => hp c (by simp [hc])) hr
        rw [List.append_assoc] at this
        simp only [List.singleton_append] at this
        rw [this, List.length_cons, List.range_succ_eq_map]
        simp
      · next h => rw [index_next q hb hr] at h; simp at h

/-! ### The tree functions -/

theorem indexrel_below {q p : Path} (hq : Comps q) (hp : Comps p) (hne : p ≠ []) :
    indexrel (str q) (str (q ++ p)) = some ((str q).length + 1) := by
  rw [(C23_below hq (Comps.append.2 ⟨hq, hp⟩)).1]
  cases p with
  | nil => exact absurd rfl hne
  | cons b r => exact ⟨b, r, rfl⟩

theorem getLoop_eq (nd : Node) (q : Path) {p : Path} (hp : Comps p) (hne : p ≠ []) :
    getLoop nd (str (q ++ p)) ((str q).length + 1) = nd.get? p := by
  induction p generalizing q nd with
  | nil => exact absurd rfl hne
  | cons b r ih =>
    have hb : sep ∉ b := hp b (by simp)
    obtain ⟨n, w, ch⟩ := nd
    rw [getLoop]
    by_cases hr : r = []
    · subst hr
      split
      · next h => rw [index_last q hb] at h; simp at h
      · rw [drop_str]
        simp only [str_nil, List.append_nil, Node.child, Node.get?]
        cases ch.get? b <;> rfl
    · split
      · next j h =>
        rw [index_next q hb hr] at h
        simp only [Option.some.injEq] at h
        subst h
        rw [take_next, index_step]
        simp only [Node.child, Node.get?]
        cases ch.get? b with
        | none => rfl
        | some c =>
          have := ih c (q ++ [b]) (fun c hc => hp c (by simp [hc])) hr
          rw [List.append_assoc] at this
          exact this
      · next h => rw [index_next q hb hr] at h; simp at h

theorem walkLoop_eq (nd : Node) (q : Path) {p : Path} (hp : Comps p) (hne : p ≠ []) :
    walkLoop nd (str (q ++ p)) ((str q).length + 1) = nd.walkPath p := by
  induction p generalizing q nd with
  | nil => exact absurd rfl hne
  | cons b r ih =>
    have hb : sep ∉ b := hp b (by simp)
    rw [walkLoop, Node.walkPath]
    by_cases hr : r = []
    · subst hr
      split
      · next h => rw [index_last q hb] at h; simp at h
      · rw [drop_str]
        simp only [str_nil, List.append_nil]
        cases nd.child.get? b <;> rfl
    · split
      · next j h =>
        rw [index_next q hb hr] at h
        simp only [Option.some.injEq] at h
        subst h
        rw [take_next, index_step]
        cases nd.child.get? b with
        | none => rfl
        | some c =>
          have := ih c (q ++ [b]) (fun c hc => hp c (by simp [hc])) hr
          rw [List.append_assoc, List.singleton_append] at this
          simp only [this]
          cases r with
          | nil => exact absurd rfl hr
          | cons x y => rfl
      · next h => rw [index_next q hb hr] at h; simp at h

/-- Every node's name is its path (except for the nodes with an empty key, in which the recursive tree keeps
inactive watchpoints). -/
def Named (nd : Node) : Prop := ∀ r c, [] ∉ r → nd.get? r = some c → c.name = nd.name ++ r

/-- The trees of all reachable states are like this (`Shape` and `ROK` are instances of `Node.OK`). -/
theorem Named.of_OK {Q : WP → Prop} {R : Node → Prop} {n : Path} {nd : Node} (h : nd.OK Q R n) : Named nd := by
  intro r c hr hc
  rw [(h.get hr hc).name_eq, h.name_eq]

theorem Named.child {nd : Node} (h : Named nd) {b : Comp} {c : Node} (hb : b ≠ []) (hc : nd.child.get? b = some c) :
    Named c ∧ c.name = nd.name ++ [b] := by
  obtain ⟨n, w, ch⟩ := nd
  have hn : c.name = n ++ [b] := h [b] c (by simp [Ne.symm hb]) (by simp only [Node.child] at hc; simp [Node.get?, hc])
  refine ⟨fun r d hr hd => ?_, hn⟩
  have := h (b :: r) d (by simp [Ne.symm hb, hr]) (by simp only [Node.child] at hc; simp [Node.get?, hc, hd])
  rw [this, hn]; simp [Node.name]

theorem put_self {ch : Forest} {b : Comp} {x : Node} (h : ch.get? b = some x) : ch.put b x = ch := by
  match ch with
  | .nil => simp [Forest.get?] at h
  | .cons b' nd rest =>
    simp only [Forest.get?, Forest.put] at h ⊢
    split
    · next hb => rw [if_pos hb] at h; simp at h; rw [hb, h]
    · next hb => rw [if_neg hb] at h; rw [put_self h]

theorem put_put (ch : Forest) (b : Comp) (x y : Node) : (ch.put b x).put b y = ch.put b y := by
  match ch with
  | .nil => simp [Forest.put]
  | .cons b' nd rest =>
    simp only [Forest.put]
    split
    · simp [Forest.put]
    · next hb => simp only [Forest.put, if_neg hb]; rw [put_put rest]

theorem named_new (n : Path) : Named (Node.new n) := by
  intro r c _ h
  cases r with
  | nil => simp [Node.get?] at h; simp [← h]
  | cons b r => simp [Node.new, Node.get?, Forest.get?] at h

theorem addchild_eq (nd : Node) (b : Comp) (n' : Path) (hn : n' = nd.name ++ [b]) :
    nd.addchild n' b = nd.add [b] := by
  subst hn
  obtain ⟨n, w, ch⟩ := nd
  unfold Node.addchild Node.add
  simp only [Node.child, Node.name, Node.watch, Node.add]
  cases h : ch.get? b with
  | none => simp
  | some c => simp [put_self h]

theorem addLoop_eq {nd : Node} (hnd : Named nd) {p : Path} (hq : Comps nd.name) (hp : Comps p) (hc : [] ∉ p) (hne : p ≠ []) :
    addLoop nd (str (nd.name ++ p)) ((str nd.name).length + 1) = nd.add p := by
  induction p generalizing nd with
  | nil => exact absurd rfl hne
  | cons b r ih =>
    have hb : sep ∉ b := hp b (by simp)
    have hpr : Comps r := fun c hc => hp c (by simp [hc])
    have hqb : Comps (nd.name ++ [b]) := Comps.append.2 ⟨hq, fun c hc => by simp at hc; rw [hc]; exact hb⟩
    rw [addLoop]
    by_cases hr : r = []
    · subst hr
      split
      · next h => rw [index_last nd.name hb] at h; simp at h
      · rw [drop_str, ofStr_str hqb]
        simp only [str_nil, List.append_nil]
        exact addchild_eq nd b _ rfl
    · split
      · next j h =>
        rw [index_next nd.name hb hr] at h
        simp only [Option.some.injEq] at h
        subst h
        rw [take_next, prefix_next, index_step, ofStr_str hqb]
        obtain ⟨n, w, ch⟩ := nd
        simp only [Node.name] at *
        have hsplit : n ++ b :: r = (n ++ [b]) ++ r := by simp
        unfold Node.add Node.addchild
        simp only [Node.child, Node.name, Node.watch]
        cases hg : ch.get? b with
        | none =>
          simp only [Forest.get?_put, if_pos, Option.getD_some, Option.getD_none, put_put]
          have := ih (nd := Node.new (n ++ [b])) (named_new _) hqb hpr (by simp at hc; exact hc.2) hr
          rw [hsplit]
          simp only [Node.new, Node.name] at this
          rw [Node.new, this]
        | some c =>
          obtain ⟨h1, h2⟩ := hnd.child (nd := .mk n w ch) (by rintro rfl; simp at hc) hg
          simp only [Node.name] at h2
          simp only [hg, Option.getD_some]
          have := ih h1 (by rw [h2]; exact hqb) hpr (by simp at hc; exact hc.2) hr
          rw [h2] at this
          rw [hsplit, this]
      · next h => rw [index_next nd.name hb hr] at h; simp at h

/-! Deletion -/

/-- What the recursion of `Node.del` does with a changed node on the way back. -/
def finish (cur : Node) : List Node → Node
  | [] => cur
  | p :: rest =>
    finish (.mk p.name p.watch (if cur.prunable then p.child.del (base (str cur.name)) else p.child.put (base (str cur.name)) cur)) rest

theorem put_isEmpty (ch : Forest) (b : Comp) (x : Node) : (ch.put b x).isEmpty = false := by
  cases ch with
  | nil => rfl
  | cons b' nd rest => simp only [Forest.put]; split <;> rfl

theorem plug_eq (stack : List Node) (cur : Node) (h : cur.prunable = false) : plug cur stack = finish cur stack := by
  induction stack generalizing cur with
  | nil => rfl
  | cons p rest ih =>
    rw [plug, finish, h]
    simp only [Bool.false_eq_true, if_false]
    exact ih _ (by simp [Node.prunable, putBack, Node.child, put_isEmpty])

theorem upLoop_eq (stack : List Node) (cur : Node) : upLoop cur stack = finish cur stack := by
  induction stack generalizing cur with
  | nil => rfl
  | cons p rest ih =>
    rw [upLoop]
    by_cases h : cur.prunable = true
    · rw [if_neg, ih]
      · rw [finish, if_pos h]
      · simp only [Node.prunable, Bool.and_eq_true, decide_eq_true_eq] at h
        rintro (h1 | h1)
        · omega
        · rw [h.2] at h1; simp at h1
    · have h' : cur.prunable = false := by simpa using h
      rw [if_pos, plug_eq _ _ h']
      simp only [Node.prunable, Bool.and_eq_true, decide_eq_true_eq, not_and] at h
      by_cases h1 : cur.watch.length ≤ 1
      · right; simpa using h h1
      · left; omega

theorem del_name : ∀ (p : Path) (nd nd' : Node), nd.del p = some nd' → nd'.name = nd.name
  | [], nd, nd', h => by simp [Node.del] at h
  | [b], .mk n w ch, nd', h => by
    simp only [Node.del] at h
    split at h
    · simp at h
    · simp at h; rw [← h]; rfl
  | b :: b' :: rest, .mk n w ch, nd', h => by
    simp only [Node.del] at h
    split at h
    · simp at h
    · split at h
      · simp at h
      · simp at h; rw [← h]; rfl

theorem delLoop_eq {nd : Node} (hnd : Named nd) {p : Path} (hp : Comps p) (hc : [] ∉ p) (hne : p ≠ [])
    (stack : List Node) :
    delLoop nd (str (nd.name ++ p)) ((str nd.name).length + 1) stack = (nd.del p).map (finish · stack) := by
  induction p generalizing nd stack with
  | nil => exact absurd rfl hne
  | cons b r ih =>
    have hb : sep ∉ b := hp b (by simp)
    have hpr : Comps r := fun c hc => hp c (by simp [hc])
    rw [delLoop]
    by_cases hr : r = []
    · subst hr
      split
      · next h => rw [index_last nd.name hb] at h; simp at h
      · rw [drop_str]
        simp only [str_nil, List.append_nil]
        obtain ⟨n, w, ch⟩ := nd
        simp only [Node.child, Node.name, Node.watch, Node.del]
        cases ch.get? b with
        | none => rfl
        | some c => simp [upLoop_eq]
    · split
      · next j h =>
        rw [index_next nd.name hb hr] at h
        simp only [Option.some.injEq] at h
        subst h
        rw [take_next, index_step]
        obtain ⟨n, w, ch⟩ := nd
        obtain ⟨b', r', rfl⟩ := List.exists_cons_of_ne_nil hr
        simp only [Node.child, Node.name, Node.del]
        cases hg : ch.get? b with
        | none => rfl
        | some c =>
          obtain ⟨h1, h2⟩ := hnd.child (nd := .mk n w ch) (by rintro rfl; simp at hc) hg
          have h2 : c.name = n ++ [b] := h2
          have := ih h1 hpr (by simp at hc ⊢; exact hc.2) hr (.mk n w ch :: stack)
          rw [h2] at this
          have hsplit : n ++ b :: b' :: r' = (n ++ [b]) ++ b' :: r' := by simp
          simp only
          rw [hsplit, this]
          cases hd : c.del (b' :: r') with
          | none => rfl
          | some c' =>
            have hn := del_name _ _ _ hd
            simp only [Option.map_some, finish]
            rw [hn, h2, (C23_split hb).2]
            rfl
      · next h => rw [index_next nd.name hb hr] at h; simp at h

/-- **C23, the tree.**  On a node whose descendants are named by their paths, and for a clean path below it, the
functions of node.go on strings are the functions on components that the rest of the model uses. -/
theorem C23_tree {nd : Node} (hnd : Named nd) (hq : Comps nd.name) {p : Path} (hp : Comps p) (hc : [] ∉ p) (hne : p ≠ []) :
    add nd (str (nd.name ++ p)) = some (nd.add p) ∧ get nd (str (nd.name ++ p)) = nd.get? p ∧
    del nd (str (nd.name ++ p)) = nd.del p ∧ walkPath nd (str (nd.name ++ p)) = nd.walkPath p := by
  have hi := indexrel_below hq hp hne
  refine ⟨?_, ?_, ?_, ?_⟩
  · rw [add, hi]; simp [addLoop_eq hnd hq hp hc hne]
  · rw [get, hi]; simp [getLoop_eq nd nd.name hp hne]
  · rw [del, hi]
    simp only [Option.bind_some]
    rw [delLoop_eq hnd hp hc hne]
    cases nd.del p <;> rfl
  · rw [walkPath, hi]; exact walkLoop_eq nd nd.name hp hne

/-- `root.Get` of the root's own name is the root, of any other path it is `Get`. -/
theorem C23_rootGet {nd : Node} (hroot : nd.name = []) {p : Path} (hp : Comps p) : rootGet nd (str p) = nd.get? p := by
  unfold rootGet
  by_cases hne : p = []
  · subst hne; simp [hroot, str]
  · obtain ⟨t, ht⟩ := str_head hne
    rw [hroot, if_neg (by rw [ht, str_nil]; simp), get, hroot]
    have := indexrel_below (q := []) (by intro c hc; simp at hc) hp hne
    simp only [List.nil_append] at this
    rw [this]
    have h2 := getLoop_eq nd [] hp hne
    simp only [List.nil_append] at h2
    exact h2

/-- Non-trivial case: `/ab` is not below `/a`; `/a/b` is. -/
example : indexrel (str [['a']]) (str [['a', 'b']]) = none ∧ indexrel (str [['a']]) (str [['a'], ['b']]) = some 3 ∧
    split (str [['a'], ['b']]) = (str [['a']], ['b']) := by decide

/-- Non-trivial case: a tree with `/a/b`, from which `/a/b` is deleted, leaving only the root. -/
example : Named ((Node.new []).add [['a'], ['b']]) ∧
    del ((Node.new []).add [['a'], ['b']]) "/a/b".toList = some (Node.new []) := by
  have hok : ((Node.new []).add [['a'], ['b']]).OK (fun _ => True) (fun _ => True) [] :=
    Node.add_OK (Node.new_OK trivial) trivial (by simp)
  refine ⟨.of_OK hok, ?_⟩
  have h := (C23_tree (nd := (Node.new []).add [['a'], ['b']]) (.of_OK hok) (by intro c hc; simp [Node.add, Node.new, Node.name] at hc)
    (p := [['a'], ['b']]) (by simp [Comps, sep]) (by simp) (by simp)).2.2.1
  have e : ((Node.new []).add [['a'], ['b']]).name = [] := rfl
  rw [e] at h
  exact h

/-- **C23 fails for the root directory**: `/`, whose components are none, is written `/` and not the empty
string, and `/a` is not found below it. -/
theorem C23_root_refuted : indexrel "/".toList "/a".toList = none ∧ split "/a".toList = ("".toList, "a".toList) ∧
    split "/".toList = ("".toList, "".toList) := by decide

end PathStr
end Verif
