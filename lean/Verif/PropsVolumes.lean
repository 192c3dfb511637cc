/-
C75: drives and shares on Windows.
-/
import Verif.Volumes
import Verif.PropsRec
import Verif.PropsNonRec2
import Verif.PropsPath
import Verif.PropsFsevents2
import Verif.PropsReaddcw5

namespace Verif
namespace Vol
open GoMap NonRec Spec
open Rec (ROp RStep RSteps RHist rregOf ROK RW RShuffle)

variable {P : Platform}

/-- Nothing is registered with the node above the volumes. -/
structure Plain (r : Node) : Prop where
  name : r.name = []
  watch : r.watch = []
  child : r.child.get? [] = none

theorem Plain.inact {r : Node} (h : Plain r) : Rec.inact r = [] := by
  simp [Rec.inact, Rec.inact?, h.child]

theorem Plain.total {r : Node} (h : Plain r) : Rec.watchTotal P r = 0 := by
  simp [Rec.watchTotal, h.inact, h.watch, WP.total, WP.val]

theorem add_eq {r : Node} (h : r.name = []) {vol : Comp} {rest : Path} (hr : rest ≠ []) :
    add r vol rest = some (r.add (vol :: rest)) := by
  obtain ⟨n, w, ch⟩ := r
  simp only [Node.name] at h
  subst h
  rw [add, if_neg hr, addroot, Node.addchild, Node.child]
  cases hg : ch.get? vol with
  | some c => simp [Node.update, Node.add, hg]
  | none =>
    simp [Node.update, Node.add, hg, Forest.get?_put, Node.name, Node.watch]
    exact PathStr.put_put _ _ _ _

theorem parentOf_eq {r : Node} (h : Plain r) {vol : Comp} {rest : Path} (hr : rest ≠ []) :
    parentOf P r vol rest = Rec.parentOf P r (vol :: rest) := by
  rw [parentOf, Rec.parentOf, if_neg (by simp [h.total]), root]
  cases r.child.get? vol with
  | none => rfl
  | some c => simp [hr]

theorem watchOp_eq (O : Oracle) {s : St} (h : Plain s.root) {vol : Comp} {rest : Path} (hr : rest ≠ []) (isrec : Bool) (c : Nat) (e : Event) :
    watchOp P O s vol rest isrec c e = Rec.watchOp P O s (vol :: rest) isrec c e := by
  unfold watchOp Rec.watchOp
  rw [add_eq h.name hr, parentOf_eq h hr]
  rfl

theorem sends_eq {r : Node} (h : Plain r) {vol : Comp} {rest : Path} (hr : 2 ≤ rest.length) {ei : EventInfo} (hp : ei.path = vol :: rest) :
    sends P r vol rest ei = Rec.sends P r ei := by
  obtain ⟨a, b, l, rfl⟩ : ∃ a b l, rest = a :: b :: l := by
    match rest, hr with
    | a :: b :: l, _ => exact ⟨a, b, l, rfl⟩
  unfold sends Rec.sends
  rw [hp]
  simp only [root, List.dropLast_cons_cons, Node.walkPath]
  cases hg : r.child.get? vol with
  | none => simp [h.watch, WP.dispatch]
  | some nd => simp [h.watch, WP.dispatch, List.getLastD]; rfl

/-! ### Nothing is registered above the volumes -/

theorem Plain.update {r : Node} (h : Plain r) {vol : Comp} (hv : vol ≠ []) (rest : Path) (f : Node → Node) :
    Plain (r.update (vol :: rest) f) := by
  obtain ⟨n, w, ch⟩ := r
  obtain ⟨h1, h2, h3⟩ := h
  simp only [Node.name, Node.watch, Node.child] at h1 h2 h3
  simp only [Node.update]
  split
  · exact ⟨h1, h2, h3⟩
  · exact ⟨h1, h2, by simp only [Node.child]; rw [Forest.get?_put, if_neg hv, h3]⟩

theorem Plain.add {r : Node} (h : Plain r) {vol : Comp} (hv : vol ≠ []) (rest : Path) : Plain (r.add (vol :: rest)) := by
  obtain ⟨n, w, ch⟩ := r
  obtain ⟨h1, h2, h3⟩ := h
  simp only [Node.name, Node.watch, Node.child] at h1 h2 h3
  exact ⟨h1, h2, by simp only [Node.add, Node.child]; rw [Forest.get?_put, if_neg hv, h3]⟩

theorem Plain.copyAll {vol : Comp} (hv : vol ≠ []) (rest : Path) (rs : List Path) {s : St} (h : Plain s.root) :
    Plain (Rec.copyAll P (vol :: rest) rs s).root := by
  induction rs generalizing s with
  | nil => exact h
  | cons r rs ih => exact ih (s := { root := _, world := _ }) (h.update hv rest _)

theorem Plain.watchUnder (O : Oracle) {s : St} (h : Plain s.root) {vol : Comp} (hv : vol ≠ []) (q rest : Path) (isrec : Bool) (c : Nat)
    (e : Event) : Plain (Rec.watchUnder P O s (vol :: q) (vol :: rest) isrec c e).1.root := by
  unfold Rec.watchUnder Rec.addAt
  simp only
  repeat' split
  all_goals first
    | exact h.update hv _ _
    | exact (h.update hv _ _).update hv _ _

theorem Plain.watchTop (O : Oracle) {s : St} (h : Plain s.root) {vol : Comp} (hv : vol ≠ []) (rest : Path) (isrec : Bool) (c : Nat)
    (e : Event) : Plain (Rec.watchTop P O s (vol :: rest) isrec c e).1.root := by
  have hc := fun rs => Plain.copyAll (P := P) hv rest rs (s := { s with root := Rec.addAt P s.root (vol :: rest) c e }) (h.update hv _ _)
  unfold Rec.watchTop
  simp only
  repeat' split
  all_goals first
    | exact h.update hv _ _
    | exact (h.update hv _ _).update hv _ _
    | exact hc _
    | exact (hc _).update hv _ _

theorem Plain.watchOp (O : Oracle) {s : St} (h : Plain s.root) {vol : Comp} (hv : vol ≠ []) (rest : Path) (isrec : Bool) (c : Nat)
    (e : Event) : Plain (Rec.watchOp P O s (vol :: rest) isrec c e).1.root := by
  have ha := h.add hv rest
  unfold Rec.watchOp
  simp only
  rw [Rec.parentOf, if_neg (by simp [h.total])]
  cases s.root.child.get? vol with
  | none => exact Plain.watchTop O (s := { s with root := _ }) ha hv _ _ _ _
  | some nd =>
    cases hp : Rec.parentOf P nd rest with
    | none => simp only [hp, Option.map_none]; exact Plain.watchTop O (s := { s with root := _ }) ha hv _ _ _ _
    | some q => simp only [hp, Option.map_some]; exact Plain.watchUnder O (s := { s with root := _ }) ha hv _ _ _ _ _

theorem stopWalk_get (O : Oracle) (c : Nat) : ∀ (f : Forest) (w : World), f.get? [] = none → (Forest.stopWalk P O c w f).2.get? [] = none
  | .nil, _, _ => rfl
  | .cons b nd rest, w, h => by
    simp only [Forest.get?] at h
    split at h
    · cases h
    · next hb =>
      simp only [Forest.stopWalk, Forest.get?]
      rw [if_neg hb]
      exact stopWalk_get O c rest _ h

theorem Plain.stop (O : Oracle) {s : St} (h : Plain s.root) (c : Nat) : Plain (Rec.stop P O s c).root := by
  obtain ⟨⟨n, w, ch⟩, wd⟩ := s
  obtain ⟨h1, h2, h3⟩ := h
  simp only [Node.name, Node.watch, Node.child] at h1 h2 h3
  subst h1 h2
  have hd : ∀ ch : Forest, ch.get? [] = none → Rec.watchDel P (.mk [] [] ch) (.user c) allEvents = (.mk [] [] ch, Diff.none) := by
    intro ch h
    simp [Rec.watchDel, Rec.inact, Rec.inact?, Node.child, h, Node.watch, Node.setWatch, WP.del, WP.val, GoMap.set, GoMap.del, GoMap.get?,
      WP.mkDiff]
  have h4 := stopWalk_get (P := P) O c ch wd h3
  unfold Rec.stop
  simp only [Node.stopWalk]
  rw [hd ch h3]
  have h5 : Rec.watchTotal P (.mk [] [] ch) = 0 := Plain.total ⟨rfl, rfl, h3⟩
  simp only [h5, and_self, if_true]
  rw [hd _ h4]
  exact ⟨rfl, rfl, h4⟩

theorem Plain.shuffle {r r' : Node} (h : Plain r) (hs : RShuffle r r') : Plain r' := by
  obtain ⟨n, w, ch⟩ := r
  obtain ⟨n', w', ch'⟩ := r'
  obtain ⟨h1, h2, h3⟩ := h
  simp only [Node.name, Node.watch, Node.child] at h1 h2 h3
  obtain ⟨hok, hf⟩ := hs
  refine ⟨Node.OK.name_eq hok, ?_, ?_⟩
  · rcases hf [] with ⟨h, _⟩ | ⟨u, u', h4, h5, h6⟩
    · simp [Node.find, Node.get?] at h
    · simp only [Node.find, Node.get?, Option.map_some, Node.watch, Option.some.injEq] at h4 h5
      subst h4 h5 h2
      cases w' with
      | nil => rfl
      | cons x w' => have := h6 x.1; simp [GoMap.get?] at this
  · rcases hf [[]] with ⟨_, h⟩ | ⟨u, u', h4, _⟩
    · simp only [Node.find, Node.get?, Node.child] at h ⊢
      cases hg : ch'.get? [] with
      | none => rfl
      | some x => simp [hg] at h
    · simp [Node.find, Node.get?, h3] at h4

/-! ### Histories -/

/-- One operation on Windows. -/
inductive WStep (P : Platform) (reliable : Bool) : St → ROp → St → Prop
  | watch {s vol rest isrec c e O} : vol ≠ [] → UserEvents P e →
      WStep P reliable s (.watch (vol :: rest) isrec c e (watchOp P O s vol rest isrec c e).2) (watchOp P O s vol rest isrec c e).1
  | stop {s c O} : (reliable = true → O = .ok) → WStep P reliable s (.stop c) (Rec.stop P O s c)
  | shuffle {s root'} : RShuffle s.root root' → WStep P reliable s .shuffle { s with root := root' }

/-- A history on Windows. -/
inductive WHist (P : Platform) (reliable : Bool) : List ROp → St → Prop
  | nil : WHist P reliable [] Rec.init
  | snoc {ops s op s'} : WHist P reliable ops s → WStep P reliable s op s' → WHist P reliable (ops ++ [op]) s'

/-- A Watch is below the root directory of the volume. -/
def Below : ROp → Prop
  | .watch p _ _ _ _ => 2 ≤ p.length ∧ [] ∉ p
  | _ => True

theorem WHist.same {rel : Bool} {ops : List ROp} {s : St} (h : WHist P rel ops s) (hb : ∀ op ∈ ops, Below op) :
    RHist P rel ops s ∧ Plain s.root := by
  induction h with
  | nil => exact ⟨.nil, rfl, rfl, rfl⟩
  | @snoc ops s op s' _ hs ih =>
    obtain ⟨h1, h2⟩ := ih fun o ho => hb o (by simp [ho])
    have hbo := hb op (by simp)
    cases hs with
    | @watch vol rest isrec c e O hv he =>
      have hr : rest ≠ [] := by rintro rfl; simp [Below] at hbo
      rw [watchOp_eq O h2 hr]
      exact ⟨h1.snoc (.watch ⟨by simp, hbo.2⟩ he), h2.watchOp O hv _ _ _ _⟩
    | stop hO => exact ⟨h1.snoc (.stop hO), h2.stop _ _⟩
    | shuffle hsh => exact ⟨h1.snoc (.shuffle hsh), h2.shuffle hsh⟩

/-- **C75.**  A history on any drives and shares, with Watch only for paths below their root directories: the state of the tree is that of a history of the tree
without volumes, so that what is proved of the recursive tree holds on Windows; and an event below a directory of a volume is sent to each
channel none of whose Watch calls failed exactly as often as the registration table says.  Missing: the root directories (C75_deaf_refuted, C75_blocks_refuted,
C75_stays_refuted, C75_share_refuted) and what is directly below them, of which nothing is delivered. -/
theorem C75_below_partial (hP : P.Facts) {rel : Bool} {ops : List ROp} {s : St} (h : WHist P rel ops s) (hb : ∀ op ∈ ops, Below op) :
    RHist P rel ops s ∧ (∀ (vol : Comp) (rest : Path) (ei : EventInfo), ei.path = vol :: rest → 2 ≤ rest.length →
      [] ∉ ei.path → ei.event &&& P.internal = 0 → PlainEvent P ei.event →
      (∀ c, (∀ op ∈ ops, op.succeededFor c) → (sends P s.root vol rest ei).count (.user c) = copies (rregOf ops) c ei.event ei.path) ∧
      (∀ k ∈ sends P s.root vol rest ei, ∃ c, k = .user c)) := by
  obtain ⟨h1, h2⟩ := h.same hb
  refine ⟨h1, fun vol rest ei hp hl h0 hE hpl => ?_⟩
  rw [sends_eq h2 hl hp]
  exact Rec.C02_delivery_exact hP h1 (by simp [hp]; omega) h0 hE hpl

namespace Ex

/-- The Windows platform. -/
abbrev D : Platform := Platform.readdcw

abbrev vC : Comp := ['C', ':']
abbrev a : Comp := ['a']
abbrev b : Comp := ['b']
abbrev f : Comp := ['f']
abbrev W : Event := D.write
abbrev C : Event := D.create

theorem uW : UserEvents D W := by unfold UserEvents; decide
theorem uC : UserEvents D C := by unfold UserEvents; decide

/-- Channel 1 watches `C:\a\...` for Write, channel 2 `C:\b` for Create. -/
def s1 : St := (watchOp D .ok Rec.init vC [a] true 1 W).1
def s2 : St := (watchOp D .ok s1 vC [b] false 2 C).1
def ops : List ROp := [.watch [vC, a] true 1 W true, .watch [vC, b] false 2 C true]

theorem hist : WHist D true ops s2 :=
  .snoc (.snoc .nil (.watch (O := .ok) (by decide) uW)) (.watch (O := .ok) (by decide) uC)

/-- A Write to `C:\a\b\f`. -/
def ei : EventInfo := { event := W, path := [vC, a, b, f] }

end Ex

example : WHist Ex.D true Ex.ops Ex.s2 ∧ (∀ op ∈ Ex.ops, Below op) ∧ (∀ op ∈ Ex.ops, op.succeeded) ∧ PlainEvent Ex.D Ex.ei.event ∧
    Ex.ei.event &&& Ex.D.internal = 0 ∧ sends Ex.D Ex.s2.root Ex.vC [Ex.a, Ex.b, Ex.f] Ex.ei = [.user 1] ∧
    osRec Ex.s2.world.log [Ex.vC, Ex.a] = some (Ex.W, true) ∧ osRec Ex.s2.world.log [Ex.vC, Ex.b] = some (Ex.C, false) :=
  ⟨Ex.hist, by simp [Ex.ops, Below], by simp [Ex.ops, ROp.succeeded], by unfold PlainEvent; decide, by decide, by decide, by decide, by decide⟩

/-! ### The root directory of a volume -/

/-- An event on a file of the root directory, such as `C:\f`, is sent to nobody, whatever is registered. -/
theorem C75_top_refuted (P : Platform) (r : Node) (vol : Comp) {rest : Path} (h : rest.length < 2) (ei : EventInfo) : sends P r vol rest ei = [] := by
  unfold sends
  split
  · rfl
  · match rest, h with
    | [], _ => simp [Node.walkPath]
    | [x], _ => simp [Node.walkPath]

theorem sends_vol {r nd : Node} {vol : Comp} (h : r.child.get? vol = some nd) (rest : Path) (ei : EventInfo) :
    sends P r vol rest ei = NonRec.sends P nd { ei with path := rest } := by
  unfold sends root
  rw [h]
  rfl

/-- **C75 is false of root directories: nothing is delivered.**  A channel registered only for root directories of volumes, recursively or not, is never
sent anything. -/
theorem C75_deaf_refuted (P : Platform) (r : Node) (c : Nat)
    (h : ∀ q nd v, r.get? q = some nd → (Key.user c, v) ∈ nd.watch → ∃ vol, q = [vol, []]) (vol : Comp) {rest : Path} (h0 : [] ∉ rest)
    (ei : EventInfo) : Key.user c ∉ sends P r vol rest ei := by
  cases hg : r.child.get? vol with
  | none => simp [sends, root, hg]
  | some nd =>
    rw [sends_vol hg]
    refine C43_deaf_refuted P nd c (fun q x v hx hv => ?_) (.inr h0)
    obtain ⟨vol', hq⟩ := h (vol :: q) x v (by obtain ⟨n, w, ch⟩ := r; simp only [Node.child] at hg; simp [Node.get?, hg, hx]) hv
    exact (List.cons.inj hq).2

/-- Channel 1 watches `C:\...`; the OS watch is there, and the registration. -/
example :
    let s := (watchOp Ex.D .ok Rec.init Ex.vC [[]] true 1 Ex.W).1
    osRec s.world.log [Ex.vC, []] = some (Ex.W, true) ∧ (watchAt s.root [Ex.vC, []]).get? (.user 1) ≠ none ∧
    sends Ex.D s.root Ex.vC [Ex.a, Ex.f] { event := Ex.W, path := [Ex.vC, Ex.a, Ex.f] } = [] := by decide

/-- **C75 is false of the root of a share.**  Watch of `\\server\share` panics, whatever is registered. -/
theorem C75_share_refuted (P : Platform) (O : Oracle) (s : St) (vol : Comp) (isrec : Bool) (c : Nat) (e : Event) :
    (watchOp P O s vol [] isrec c e).1.world.panicked = true := rfl

/-- The watchers refuse to change or to remove a watch that they do not have: watcher_readdcw.go:497-508, watcher_fsevents.go:208-216,
271-287. -/
structure Refuses (O : Oracle) : Prop where
  rewatch : ∀ l p old new, osRec l p = none → O l (.recRewatch p p old new) = false
  unwatch : ∀ l p, osRec l p = none → O l (.unwatch p) = false ∧ O l (.recUnwatch p) = false

/-- `watchAddInactive` for more than the total. -/
theorem watchAddInactive_more {nd : Node} (hw : nd.watch = []) (ht : (Rec.inact nd).total P ≠ 0) (c : Nat) {e : Event}
    (he : e &^ ((Rec.inact nd).total P ||| P.internal) ≠ 0) :
    (Rec.watchAddInactive P nd (.user c) e).2 ≠ Diff.none ∧ (Rec.watchAddInactive P nd (.user c) e).2.1 ≠ 0 ∧
    (Rec.watchAddInactive P nd (.user c) e).1.name = nd.name ∧
    Rec.watchIsRecursive P (Rec.watchAddInactive P nd (.user c) e).1 = true := by
  obtain ⟨n, w, ch⟩ := nd
  simp only [Node.watch] at hw
  subst hw
  generalize hi : Rec.inact (.mk n [] ch) = w at ht he
  have hd : (Rec.watchAddInactive P (.mk n [] ch) (.user c) e).2 = (w.total P, w.total P ||| (e &^ P.internal)) := by
    have hne : w.val .nil &^ P.internal ≠ (w.val .nil ||| e) &^ P.internal := by
      intro hc
      apply he
      unfold WP.total
      clear ht he hi
      ebits
    simp only [Rec.watchAddInactive, hi, WP.add, WP.val_set, reduceCtorEq, if_false, WP.mkDiff, if_neg hne, Rec.orDiff, Node.watch]
    have h0 : WP.total P ([] : WP) = 0 := by simp [WP.total, WP.val]
    rw [h0]
    have h1 : ∀ x : Event, x ||| 0 = x := fun x => by simp
    rw [h1, h1, if_neg hne]
    refine Prod.ext rfl ?_
    unfold WP.total
    clear ht he hi hne h0 h1
    ebits
  rw [hd]
  refine ⟨?_, ht, rfl, ?_⟩
  · intro hc; exact ht (congrArg Prod.fst hc)
  · simp [Rec.watchIsRecursive, Rec.watchAddInactive, Rec.inact, Rec.inact?, Rec.setInact, Node.child, Forest.get?_put, Node.watch, WP.add]
    refine .inl fun hc => ?_
    have := congrArg (fun l => GoMap.get? l Key.nil) hc
    simp [GoMap.get?_set] at this

theorem watchUnder_refused {O : Oracle} (hO : Refuses O) {s : St} {q p : Path} (hqp : q ≠ p) {nd : Node} (hg : Rec.nodeAt s.root q = nd)
    (hos : osRec s.world.log nd.name = none) (hw : nd.watch = []) (ht : (Rec.inact nd).total P ≠ 0) (isrec : Bool) (c : Nat) {e : Event}
    (he : e &^ ((Rec.inact nd).total P ||| P.internal) ≠ 0) : (Rec.watchUnder P O s q p isrec c e).2 = false := by
  obtain ⟨h1, h2, h3, h4⟩ := watchAddInactive_more hw ht c he
  unfold Rec.watchUnder
  simp only [if_neg hqp, hg, if_neg h1, if_neg h2, h4, Bool.or_true, if_true, h3, World.exec]
  rw [hO.rewatch _ _ _ _ hos]
  rfl

theorem add_watch (nd : Node) (q : Path) : (nd.add q).watch = nd.watch ∧ (nd.add q).name = nd.name := by
  obtain ⟨n, w, ch⟩ := nd
  cases q <;> exact ⟨rfl, rfl⟩

theorem add_inact {nd : Node} (h : Rec.inact? nd ≠ none) (q : Path) : Rec.inact (nd.add q) = Rec.inact nd := by
  obtain ⟨n, w, ch⟩ := nd
  cases q with
  | nil => rfl
  | cons b q =>
    simp only [Rec.inact?, Node.child, ne_eq, Option.map_eq_none_iff] at h
    simp only [Rec.inact, Rec.inact?, Node.add, Node.child, Forest.get?_put]
    split
    · next hb =>
      subst hb
      cases hg : ch.get? [] with
      | none => exact absurd hg h
      | some x => simp [(add_watch x q).1]
    · rfl

theorem inact_ne {nd : Node} (h : (Rec.inact nd).total P ≠ 0) : Rec.inact? nd ≠ none := by
  intro hc
  apply h
  simp [Rec.inact, hc, WP.total, WP.val]

/-- **C75 is false of root directories: they block the volume.**  In every state in which a channel is registered for the root directory of the volume `vol` (that
is, in the child with the empty name of the node of the volume, which is taken for the inactive watchpoints) and the OS has no watch named `vol`:
every Watch on the volume that asks for an event that was not asked for there fails, for every path and every channel. -/
theorem C75_blocks_refuted {O : Oracle} (hO : Refuses O) {s : St} {vol : Comp} {nd : Node} (hg : s.root.child.get? vol = some nd)
    (hname : nd.name = [vol]) (hw : nd.watch = []) (ht : (Rec.inact nd).total P ≠ 0) (hos : osRec s.world.log [vol] = none)
    {rest : Path} (hr : rest ≠ []) (isrec : Bool) (c : Nat) {e : Event} (he : e &^ ((Rec.inact nd).total P ||| P.internal) ≠ 0) :
    (watchOp P O s vol rest isrec c e).2 = false := by
  obtain ⟨⟨n, w, ch⟩, wd⟩ := s
  simp only [Node.child] at hg
  have hp : parentOf P (.mk n w ch) vol rest = some [vol] := by
    have hlen : (Rec.inact nd).length ≠ 0 := by
      intro hc
      apply ht
      rw [List.length_eq_zero_iff.mp hc]
      simp [WP.total, WP.val]
    have h2 : Rec.watchTotal P nd ≠ 0 := by
      simp only [Rec.watchTotal, if_pos hlen, hw]
      intro hc
      apply ht
      clear he hlen
      ebits
    have h3 : Rec.parentOf P nd rest = some [] := by
      cases rest with
      | nil => exact absurd rfl hr
      | cons b l => rw [Rec.parentOf, if_pos h2]
    simp [parentOf, root, Node.child, hg, hr, h3]
  have ha : add (.mk n w ch) vol rest = some (.mk n w (ch.put vol (nd.add rest))) := by
    simp [add, hr, addroot, Node.addchild, Node.child, hg, Node.update]
  unfold watchOp
  simp only [hp, ha]
  have h5 := add_inact (inact_ne ht) rest
  refine watchUnder_refused hO (nd := nd.add rest) (by simp; exact hr) ?_ ?_ ?_ ?_ isrec c ?_
  · simp [Rec.nodeAt, Node.get?, Forest.get?_put]
  · rw [(add_watch nd rest).2, hname]; exact hos
  · rw [(add_watch nd rest).1, hw]
  · rw [h5]; exact ht
  · rw [h5]
    split
    · intro hc
      apply he
      clear hp ha h5 ht
      ebits
    · exact he

/-- A watcher that keeps to `Refuses` and does everything else. -/
def refusing : Oracle := fun l c =>
  match c with
  | .recRewatch p _ _ _ => (osRec l p).isSome
  | .unwatch p => (osRec l p).isSome
  | .recUnwatch p => (osRec l p).isSome
  | _ => true

theorem refusing_refuses : Refuses refusing := ⟨fun l p old new h => by simp [refusing, h], fun l p h => by simp [refusing, h]⟩

/-- The Windows watcher refuses. -/
theorem windows_refuses (s : Dcw.St) (p : Path) (h : s.m.get? p = none) (old new : Event) (isrec gone : Bool) :
    Dcw.rewatch s p old new isrec = some (s, false) ∧ Dcw.unwatch s p gone = (s, false) := by
  have hn : Dcw.nonState s p = none := by simp [Dcw.nonState, h]
  constructor
  · unfold Dcw.rewatch; rw [hn]; split <;> rfl
  · unfold Dcw.unwatch; rw [hn]

/-- The FSEvents watcher refuses. -/
theorem fsevents_refuses (start : Bool) (t : Fsevents.Table) (p : Path) (h : t.get? p = none) (old new : Event) :
    Fsevents.serve start t (.recRewatch p p old new) = (t, false) ∧ Fsevents.serve start t (.unwatch p) = (t, false) ∧
    Fsevents.serve start t (.recUnwatch p) = (t, false) := by
  simp [Fsevents.serve, Fsevents.recRewatch, Fsevents.unwatch, h]

/-- Channel 1 watches `C:\` for Write.  Then Watch of `C:\a` for Create fails for channel 2, and Watch of `C:\` itself. -/
example :
    let s := (watchOp Ex.D refusing Rec.init Ex.vC [[]] false 1 Ex.W)
    s.2 = true ∧ (watchOp Ex.D refusing s.1 Ex.vC [Ex.a] true 2 Ex.C).2 = false ∧ (watchOp Ex.D refusing s.1 Ex.vC [[]] true 2 Ex.C).2 = false ∧
    (watchOp Ex.D refusing s.1 ['D', ':'] [Ex.a] true 2 Ex.C).2 = true := by decide

/-- The hypotheses of C75_blocks_refuted are met. -/
example : ∃ nd, (watchOp Ex.D refusing Rec.init Ex.vC [[]] false 1 Ex.W).1.root.child.get? Ex.vC = some nd ∧ nd.name = [Ex.vC] ∧ nd.watch = [] ∧
    (Rec.inact nd).total Ex.D ≠ 0 ∧ osRec (watchOp Ex.D refusing Rec.init Ex.vC [[]] false 1 Ex.W).1.world.log [Ex.vC] = none ∧
    Ex.C &^ ((Rec.inact nd).total Ex.D ||| Ex.D.internal) ≠ 0 := by
  refine ⟨_, rfl, ?_, ?_, ?_, ?_, ?_⟩ <;> decide

/-- **C75 is false of root directories: Stop does not end the watch.**  Channel 1 watches `C:\` and is stopped.  The call made is for `C:` and fails; the OS goes on
watching `C:\`. -/
theorem C75_stays_refuted :
    let s := Rec.stop Platform.readdcw refusing (watchOp Platform.readdcw refusing Rec.init ['C', ':'] [[]] false 1 Platform.readdcw.write).1 1
    s.world.log = [(.unwatch [['C', ':']], false), (.watch [['C', ':'], []] Platform.readdcw.write, true)] ∧
    osRec s.world.log [['C', ':'], []] = some (Platform.readdcw.write, false) ∧ watchAt s.root [['C', ':'], []] = [] := by decide

end Vol

namespace Rec
open GoMap NonRec Spec

variable {P : Platform}

/-- **C43** is false of the recursive tree in another way: a Watch of `/` blocks the tree.  In every state in which a channel is registered for `/` (in the child with the
empty name of the root node, which is taken for the inactive watchpoints) and the OS has no watch with the empty name: every Watch that asks for an
event that was not asked for there fails, for every path and every channel.  (macOS) -/
theorem C43_blocks_refuted {O : Oracle} (hO : Vol.Refuses O) {s : St} (hname : s.root.name = []) (hw : s.root.watch = [])
    (ht : (inact s.root).total P ≠ 0) (hos : osRec s.world.log [] = none) {p : Path} (hp : p ≠ []) (isrec : Bool) (c : Nat) {e : Event}
    (he : e &^ ((inact s.root).total P ||| P.internal) ≠ 0) : (watchOp P O s p isrec c e).2 = false := by
  have hlen : (inact s.root).length ≠ 0 := by
    intro hc
    apply ht
    rw [List.length_eq_zero_iff.mp hc]
    simp [WP.total, WP.val]
  have h2 : watchTotal P s.root ≠ 0 := by
    simp only [watchTotal, if_pos hlen, hw]
    intro hc
    apply ht
    clear he hlen
    ebits
  have h3 : parentOf P s.root p = some [] := by
    cases p with
    | nil => exact absurd rfl hp
    | cons b l => rw [parentOf, if_pos h2]
  unfold watchOp
  simp only [h3]
  have h5 := Vol.add_inact (Vol.inact_ne ht) p
  refine Vol.watchUnder_refused hO (nd := s.root.add p) (Ne.symm hp) ?_ ?_ ?_ ?_ isrec c ?_
  · simp [nodeAt, Node.get?]
  · rw [(Vol.add_watch s.root p).2, hname]; exact hos
  · rw [(Vol.add_watch s.root p).1, hw]
  · rw [h5]; exact ht
  · rw [h5]
    split
    · intro hc
      apply he
      clear h5 ht h2 hlen
      ebits
    · exact he

/-- Channel 1 watches `/` for Write on macOS: the hypotheses are met, and Watch of `/a` for Create fails for channel 2. -/
example :
    let s := (watchOp Ex.F Vol.refusing init [[]] false 1 Ex.W)
    s.2 = true ∧ s.1.root.name = [] ∧ s.1.root.watch = [] ∧ (inact s.1.root).total Ex.F ≠ 0 ∧ osRec s.1.world.log [] = none ∧
    Ex.F.create &^ ((inact s.1.root).total Ex.F ||| Ex.F.internal) ≠ 0 ∧
    (watchOp Ex.F Vol.refusing s.1 [Ex.a] true 2 Ex.F.create).2 = false := by decide

/-- **C43** is false of Stop: after Stop of the channel that watches `/` the OS goes on watching it.  (macOS) -/
theorem C43_stays_refuted :
    let s := stop Platform.fsevents Vol.refusing (watchOp Platform.fsevents Vol.refusing init [[]] false 1 Platform.fsevents.write).1 1
    s.world.log = [(.unwatch [], false), (.watch [[]] Platform.fsevents.write, true)] ∧
    osRec s.world.log [[]] = some (Platform.fsevents.write, false) ∧ watchAt s.root [[]] = [] := by decide

end Rec
end Verif
