/-
Every call returns on Solaris and illumos (C110): no execution inside of the program goes on for ever.

Everything on its way is given a number: less for what is deeper in the tree of files.  What a step adds is smaller than what it takes away.
-/
import Verif.PropsLiveFen
import Mathlib.Data.Multiset.DershowitzManna
import Mathlib.Tactic.Abel

namespace Verif
open NonRec (GoodPath)

/-! ### Where the internal goroutine calls the watcher -/

/-- The call is about `z` or a path below it. -/
def Call.Under (z : Path) : Call → Prop
  | .watch p _ | .unwatch p | .rewatch p _ _ => z <+: p
  | _ => True

/-- Only such calls were made. -/
def Beneath (z : Path) (s s' : World) : Prop := ∃ new, s'.log = new ++ s.log ∧ ∀ x ∈ new, x.1.Under z

theorem Beneath.refl {z : Path} {s : World} : Beneath z s s := ⟨[], rfl, by simp⟩

theorem Beneath.trans {z : Path} {a b c : World} (h : Beneath z a b) (h' : Beneath z b c) : Beneath z a c := by
  obtain ⟨n, h2, h3⟩ := h
  obtain ⟨n', h2', h3'⟩ := h'
  refine ⟨n' ++ n, by rw [h2', h2, List.append_assoc], fun x hx => ?_⟩
  rcases List.mem_append.1 hx with hx | hx
  · exact h3' x hx
  · exact h3 x hx

theorem Beneath.exec {z : Path} {O : Oracle} {s : World} {c : Call} (hc : c.Under z) : Beneath z s (s.exec O c).1 := ⟨[_], rfl, by simpa using hc⟩

section
variable {z : Path}

mutual
theorem Node.trav_beneath {skip : Bool} {fn : World → WP → Path → WP → World × WP} (hf : ∀ s pw n w, z <+: n → Beneath z s (fn s pw n w).1) {Q : WP → Prop} {n : Path}
    (hz : z <+: n) : (nd : Node) → nd.OK Q noR n → (s : World) → (pw : WP) → Beneath z s (nd.trav skip fn s pw).1
  | .mk n' w ch, h, s, pw => by
    simp only [Node.OK] at h
    obtain ⟨rfl, _, hc⟩ := h
    simp only [Node.trav]
    exact (hf s pw n' w hz).trans (Forest.trav_beneath hf hz ch hc _ _)
theorem Forest.trav_beneath {skip : Bool} {fn : World → WP → Path → WP → World × WP} (hf : ∀ s pw n w, z <+: n → Beneath z s (fn s pw n w).1) {Q : WP → Prop} {n : Path}
    (hz : z <+: n) : (f : Forest) → f.OK Q noR n → (s : World) → (pw : WP) → Beneath z s (f.trav skip fn s pw).1
  | .nil, _, s, pw => by simp only [Forest.trav]; exact .refl
  | .cons b nd rest, h, s, pw => by
    simp only [Forest.OK] at h
    simp only [Forest.trav]
    split
    · exact Forest.trav_beneath hf hz rest h.2.2.2 s pw
    · exact (Node.trav_beneath hf (hz.trans (List.prefix_append _ _)) nd (h.2.2.1 h.2.1) s pw).trans (Forest.trav_beneath hf hz rest h.2.2.2 _ pw)
end

mutual
theorem DirTree.addDir_beneath {fn : World → Path → WP → World × WP} (hf : ∀ s n w, z <+: n → Beneath z s (fn s n w).1) {Q : WP → Prop} (hQ0 : Q [])
    (hfn : ∀ s n w, Q w → Q (fn s n w).2) {n : Path} (hn : [] ∉ n) (hz : z <+: n) :
    (d : DirTree) → d.Named → (s : World) → (nd : Node) → nd.OK Q noR n → Beneath z s (d.addDir fn s nd).1
  | .err, _, s, .mk n' w ch, h => by
    simp only [Node.OK] at h
    obtain ⟨rfl, hw, hc⟩ := h
    simp only [DirTree.addDir]; exact hf s n' w hz
  | .dir es, hN, s, .mk n' w ch, h => by
    simp only [Node.OK] at h
    obtain ⟨rfl, hw, hc⟩ := h
    simp only [DirTree.addDir]
    have h1 := Entries.addChildren_spec (R := noR) hQ0 hn es hN (Node.OK.mk (n := n') (hfn s n' w hw) hc)
    exact (hf s n' w hz).trans (Entries.addDir_beneath hf hQ0 hfn hn hz es hN _ _ h1.1.child)
theorem Entries.addDir_beneath {fn : World → Path → WP → World × WP} (hf : ∀ s n w, z <+: n → Beneath z s (fn s n w).1) {Q : WP → Prop} (hQ0 : Q [])
    (hfn : ∀ s n w, Q w → Q (fn s n w).2) {n : Path} (hn : [] ∉ n) (hz : z <+: n) :
    (es : Entries) → es.Named → (s : World) → (f : Forest) → f.OK Q noR n → Beneath z s (es.addDir fn n s f).1
  | .nil, _, s, ch, _ => by simp only [Entries.addDir]; exact .refl
  | .cons b isDir sub rest, hN, s, ch, h => by
    simp only [Entries.Named] at hN
    simp only [Entries.addDir]
    have h1 := Entries.addDir_beneath hf hQ0 hfn hn hz rest hN.2 s ch h
    have ih := Entries.addDir_OK hQ0 hfn hn rest hN.2 (s := s) h
    split
    · exact h1
    · split
      · next hd =>
        have hb := hN.1 hd
        rw [joinBase_eq hn]
        split
        · exact h1
        · next c hc =>
          exact h1.trans (DirTree.addDir_beneath hf hQ0 hfn (by simp [hn, Ne.symm hb.1]) (hz.trans (List.prefix_append _ _)) sub hb.2 _ _ ((ih.get hc).2 hb.1))
      · exact h1
end
end

namespace NonRec

/-- The internal goroutine calls the watcher for the path of the event and paths below it. -/
theorem internal_beneath {P : Platform} {O : Oracle} {dt : DirTree} {s : St} {ei : EventInfo} (h : Shape P s.root) (hp : GoodPath ei.path) (hd : dt.Named) :
    Beneath ei.path s.world (internal P O dt s ei).world := by
  unfold internal
  split
  · split
    · exact .refl
    · next nd hg =>
      have hok := h.ok.get hp.2 hg
      refine Node.trav_beneath (fun s _ n w hz => ?_) (List.prefix_refl _) nd hok s.world []
      unfold unwatchFunc
      split
      · exact .exec hz
      · exact .refl
  · dsimp only
    split
    · exact .refl
    · split
      · exact .refl
      · next nd hg =>
        have hok := (h.add hp).ok.get hp.2 hg
        refine DirTree.addDir_beneath (Q := fun _ => True) (fun s n w hz => ?_) trivial (fun _ _ _ _ => trivial) hp.2 (List.prefix_refl _) dt hd s.world nd
          (Node.OK.imp (fun _ _ => trivial) (fun _ h => h) hok)
        unfold recFunc
        dsimp only
        split
        · exact .refl
        · split
          · exact ⟨[], rfl, by simp⟩
          · refine .exec ?_
            unfold diffCall
            split <;> exact hz

end NonRec

/-! ### Numbers -/

/-- `M` is `N` without something and with things smaller than that instead. -/
def Falls (M N : Multiset Nat) : Prop := ∃ X Y Z, M ≤ X + Y ∧ N = X + Z ∧ ∀ y ∈ Y, ∃ z ∈ Z, y < z

/-- As `Falls`, and something was taken away. -/
def Drops (M N : Multiset Nat) : Prop := ∃ X Y Z, M ≤ X + Y ∧ N = X + Z ∧ Z ≠ 0 ∧ ∀ y ∈ Y, ∃ z ∈ Z, y < z

open Multiset (IsDershowitzMannaLT)

theorem drop_lt {M N : Multiset Nat} (h : M ≤ N) : M = N ∨ IsDershowitzMannaLT M N := by
  obtain ⟨Z, rfl⟩ := Multiset.le_iff_exists_add.1 h
  by_cases hz : Z = 0
  · left; simp [hz]
  · exact .inr ⟨M, 0, Z, hz, by simp, rfl, by simp⟩

theorem Drops.lt {M N : Multiset Nat} (h : Drops M N) : IsDershowitzMannaLT M N := by
  obtain ⟨X, Y, Z, h1, rfl, h3, h4⟩ := h
  have h5 : IsDershowitzMannaLT (X + Y) (X + Z) := ⟨X, Y, Z, h3, rfl, rfl, h4⟩
  rcases drop_lt h1 with rfl | h6
  · exact h5
  · exact h6.trans h5

theorem Falls.le {M N : Multiset Nat} (h : Falls M N) : M = N ∨ IsDershowitzMannaLT M N := by
  obtain ⟨X, Y, Z, h1, h2, h4⟩ := h
  by_cases hz : Z = 0
  · subst hz
    obtain rfl : Y = 0 := Multiset.eq_zero_of_forall_notMem fun y hy => by obtain ⟨z, hz, _⟩ := h4 y hy; cases hz
    subst h2
    simpa using drop_lt h1
  · exact .inr (Drops.lt ⟨X, Y, Z, h1, h2, hz, h4⟩)

theorem Falls.of_le {M N : Multiset Nat} (h : M ≤ N) : Falls M N := ⟨N, 0, 0, by simpa using h, by simp, by simp⟩

theorem Falls.sub {M N : Multiset Nat} (Z : Multiset Nat) (h : M + Z = N) : Falls M N := .of_le (by rw [← h]; exact Multiset.le_add_right _ _)

theorem Falls.same {M N : Multiset Nat} (h : M = N) : Falls M N := .of_le (le_of_eq h)

/-- A sequence that falls for ever does not drop again and again. -/
theorem falls_end {f : Nat → Multiset Nat} (h : ∀ n, Falls (f (n + 1)) (f n)) : ∃ m, ∀ n, m ≤ n → ¬ Drops (f (n + 1)) (f n) := by
  have key : ∀ M, ∀ k, f k = M → ∃ m, ∀ n, m ≤ n → ¬ Drops (f (n + 1)) (f n) := by
    intro M
    induction M using (Multiset.wellFounded_isDershowitzMannaLT (α := Nat)).induction with
    | _ M ih =>
      intro k hk
      by_cases hd : ∃ n, k ≤ n ∧ Drops (f (n + 1)) (f n)
      · obtain ⟨n, hn, hd⟩ := hd
        have hle : ∀ j, f (k + j) = M ∨ IsDershowitzMannaLT (f (k + j)) M := by
          intro j
          induction j with
          | zero => exact .inl hk
          | succ j ihj =>
            rcases (h (k + j)).le with he | hl
            · rw [← Nat.add_assoc, he]; exact ihj
            · right
              rcases ihj with he | hj
              · rw [← he]; exact hl
              · exact hl.trans hj
        obtain ⟨j, rfl⟩ := Nat.exists_eq_add_of_le hn
        refine ih (f (k + j + 1)) ?_ _ rfl
        rcases hle j with he | hj
        · rw [← he]; exact hd.lt
        · exact hd.lt.trans hj
      · exact ⟨k, fun n hn hd' => hd ⟨n, hn, hd'⟩⟩
  exact key _ 0 rfl

namespace Fen
open Trg (fen Env Tidy Res Mode W Ev)
open Linux (Free sigs)
open NonRec (Op)

/-! ### Which notifications a call may queue -/

/-- If the call queues an event, it is about a path of that length at least. -/
def NCall.Deep (n : Nat) : NCall → Prop
  | .reassoc p _ _ => n ≤ p.length
  | _ => True

def Deep (n : Nat) (s : Rec) : Prop := ∀ c ∈ s.n, c.Deep n

section
variable {E : Env} {s : Rec} {n : Nat}

theorem Deep.more (h : Deep n s) {t : Trg.St} {l : List NCall} (hl : ∀ c ∈ l, c.Deep n) : Deep n ⟨t, s.n ++ l⟩ :=
  fun c hc => (List.mem_append.1 hc).elim (h c) (hl c)

theorem Deep.singlewatch (h : Deep n s) (p : Path) (e : Event) (m : Mode) (d : Bool) : Deep n (singlewatch E s p e m d).1 := by
  refine h.more fun c hc => ?_
  simp only [swCalls] at hc
  split at hc
  · split at hc
    · simp only [List.mem_cons, List.not_mem_nil, or_false] at hc
      rcases hc with rfl | rfl <;> trivial
    · cases hc
  · simp only [List.mem_cons, List.not_mem_nil, or_false] at hc
    subst hc; trivial

theorem Deep.singleunwatch (h : Deep n s) {p : Path} (hp : n ≤ p.length) (m : Mode) : Deep n (singleunwatch E s p m).1 := by
  refine h.more fun c hc => ?_
  simp only [suCalls] at hc
  split at hc
  · cases hc
  · rcases List.mem_cons.1 hc with rfl | hc
    · trivial
    · split at hc
      · simp only [List.mem_singleton] at hc
        subst hc; exact hp
      · cases hc

theorem walkLoop_all {σ : Type} (Q : σ → Prop) {f : σ → Comp × Bool → σ × Res} (hf : ∀ s x, Q s → Q (f s x).1) : ∀ (l : List (Comp × Bool)) (s : σ), Q s → Q (Trg.walkLoop f s l).1
  | [], s, h => h
  | x :: l, s, h => by
    have h1 := hf s x h
    unfold Trg.walkLoop
    split
    · next he => rw [he] at h1; exact walkLoop_all Q hf l _ h1
    · next he => rw [he] at h1; exact h1

theorem walk_all {σ : Type} (Q : σ → Prop) {p : Path} {f : σ → Comp × Bool → σ × Res} (hf : ∀ s x, Q s → Q (f s x).1) {s : σ} (h : Q s) : Q (Trg.walk E p f s).1 := by
  unfold Trg.walk
  split
  · exact h
  · exact walkLoop_all Q hf _ s h

theorem join_len (p : Path) (c : Comp) : p.length ≤ (Trg.join p c).length := by
  unfold Trg.join
  split
  · next h => simp [h]
  · simp

theorem Deep.watch (h : Deep n s) (p : Path) (e : Event) (d : Bool) : Deep n (watch E s p e d).1 := by
  have h1 := h.singlewatch (E := E) p e .dir d
  unfold Fen.watch
  split
  · next he => rw [he] at h1; exact h1
  · next he => rw [he] at h1; exact h1
  · next s' r _ _ he =>
    rw [he] at h1
    split
    · refine walk_all (Deep n) (fun s x h => ?_) h1
      have h2 := h.singlewatch (E := E) (Trg.join p x.1) e .ndir x.2
      unfold watchKid
      split
      · next he => rw [he] at h2; exact h2
      · exact h2
    · exact h1

theorem Deep.unwatch (h : Deep n s) {p : Path} (hp : n ≤ p.length) (d : Bool) : Deep n (unwatch E s p d).1 := by
  unfold Fen.unwatch
  split
  · have h1 : Deep n (Trg.walk E p (unwatchKid E p) s).1 := by
      refine walk_all (Deep n) (fun s x h => ?_) h
      have h2 := h.singleunwatch (E := E) (Nat.le_trans hp (join_len p x.1)) .ndir
      unfold unwatchKid
      split
      · next he => rw [he] at h2; exact h2
      · exact h2
    split
    · next he => rw [he] at h1; exact h1.singleunwatch hp _
    · exact h1
  · exact h.singleunwatch hp _

/-- What Unwatch and Rewatch are about. -/
def undone : Verif.Call → Path
  | .unwatch p | .rewatch p _ _ => p
  | _ => []

theorem Deep.serves {c : Verif.Call} {ok : Bool} {s' : Rec} (hs : Serves E s c ok s') (h : Deep (undone c).length s) : Deep (undone c).length s' := by
  cases hs with
  | watch p e _ =>
    unfold Watch
    split
    · exact h
    · exact h.watch _ _ _
  | unwatch p _ =>
    unfold Unwatch
    split
    · exact h
    · exact h.unwatch (Nat.le_refl _) _
  | rewatch p old new _ =>
    unfold Rewatch
    split
    · exact h
    · next d hd =>
      have h1 := h.unwatch (E := E) (p := p) (Nat.le_refl _) d
      split
      · next he => rw [he] at h1; exact h1.watch _ _ _
      · next he => rw [he] at h1; exact h1

/-! ### Which events a notification leads to -/

/-- The flags say that the file has gone. -/
def isGone (fl : Event) : Bool := decide (fl &&& (fen.nRemove ||| fen.nRename) ≠ 0)

/-- The event may be for the internal goroutine. -/
def worthy (ei : EventInfo) : Bool := decide (ei.event &&& (Platform.fen.create ||| Platform.fen.remove) ≠ 0) && ei.isDir == some true

theorem moved_len {p : Path} {w : W} {e : Event} : ∀ (l : List Path) (s : Rec), ∀ ev ∈ (moved E p w e s l).2, p.length ≤ ev.path.length
  | [], s => by intro ev h; cases h
  | q :: l, s => by
    unfold moved
    split
    · next hb =>
      intro ev hev
      rcases List.mem_append.1 hev with hev | hev
      · split at hev
        · simp only [List.mem_singleton] at hev
          subst hev
          simp only [Trg.below, Bool.and_eq_true] at hb
          exact (List.isPrefixOf_iff_prefix.1 hb.1).length_le
        · cases hev
      · exact moved_len l _ ev hev
    · exact moved_len l s

theorem scanKid_len {p : Path} (hp : GoodPath p) {w : W} {n : Rec × List Ev} (h : ∀ ev ∈ n.2, ev.path.length = p.length + 1) (x : Comp × Bool) :
    ∀ ev ∈ (scanKid E p w n x).1.2, ev.path.length = p.length + 1 := by
  have hj : (Trg.join p x.1).length = p.length + 1 := by
    have : p ≠ [[]] := by rintro rfl; exact hp.2 (by simp)
    simp [Trg.join, this]
  have one : ∀ {b : Prop} [Decidable b] {r : Event}, ∀ ev ∈ n.2 ++ (if b then [(⟨Trg.join p x.1, r, x.2⟩ : Ev)] else []), ev.path.length = p.length + 1 := by
    intro b _ r ev hev
    rcases List.mem_append.1 hev with hev | hev
    · exact h ev hev
    · split at hev
      · simp only [List.mem_singleton] at hev; subst hev; exact hj
      · cases hev
  unfold scanKid
  dsimp only
  split <;> first | exact one | exact h

theorem process_len {D : Nat} (hD : ∀ q l, E.list q = .ok l → q.length ≤ D) (hg : ∀ q, s.t.lkp.get? q ≠ none → GoodPath q) (p : Path) (ge : Event) :
    ∀ ev ∈ (process E s p ge).2, worthy (info ev) = true →
      (isGone ge = true ∧ p.length ≤ ev.path.length) ∨ (p.length ≤ D ∧ ev.path.length = p.length + 1) := by
  unfold process
  split
  · intro ev h; cases h
  · next w hw =>
    have hp := hg p (by rw [hw]; simp)
    dsimp only
    split
    · intro ev h; cases h
    · have h2 : ∀ ev ∈ (if w.isDir = true then dir E (renew E s p w ge) p w (Trg.decode fen.nat2not ge w.all) ge
          else (renew E s p w ge, [⟨p, Trg.decode fen.nat2not ge w.all, w.isDir⟩])).2, worthy (info ev) = true →
          (isGone ge = true ∧ p.length ≤ ev.path.length) ∨ (p.length ≤ D ∧ ev.path.length = p.length + 1) := by
        split
        · unfold dir
          split
          · next hgo =>
            intro ev hev _
            left
            refine ⟨?_, ?_⟩
            · simp only [isGone, decide_eq_true_eq]
              have : fen.nRemove ||| fen.nRename = fen.nRename ||| fen.nRemove := by decide
              rw [this]; exact hgo
            · rcases List.mem_cons.1 hev with rfl | hev
              · exact Nat.le_refl _
              · split at hev
                · exact moved_len _ _ ev hev
                · cases hev
          · split
            · unfold Trg.walk
              split
              · intro ev h; cases h
              · next l hl =>
                intro ev hev _
                right
                refine ⟨hD p l hl, ?_⟩
                exact walkLoop_all (fun n : Rec × List Ev => ∀ ev ∈ n.2, ev.path.length = p.length + 1) (fun n x h => scanKid_len hp h x) l _ (by intro ev h; cases h) ev hev
            · intro ev h; cases h
        · next hd =>
          intro ev hev hwo
          simp only [List.mem_singleton] at hev
          subst hev
          simp [worthy, info, hd] at hwo
      split <;> exact h2

end

/-! ### The numbers of what is on its way -/

section
variable (D : Nat)

/-- Less for longer paths. -/
def base (p : Path) : Nat := 4 * (D + 3 - p.length)

/-- More than all others. -/
def top : Nat := 4 * (D + 3) + 4

def ntok (p : Path) (fl : Event) : Nat := base D p + if isGone fl then 3 else 0

def etok (ei : EventInfo) : Multiset Nat := if worthy ei then {base D ei.path + 2} else 0

def dtok : Nat × EventInfo × Sched.Disp → Multiset Nat
  | (_, ei, .handing) => {base D ei.path + 2}
  | (_, ei, _) => etok D ei

def utok (planned : Bool) : Nat × Sched.Req × Sched.Call → Multiset Nat
  | (_, _, .waiting) => {top D}
  | (_, _, .locked) => if planned then 0 else {top D}
  | _ => 0

def itok (planned : Bool) : Sched.Intern → Multiset Nat
  | .waiting ei => {base D ei.path + 2}
  | .locked ei => if planned then 0 else {base D ei.path + 2}
  | _ => 0

def ctok : Verif.Call × Bool → Multiset Nat
  | (.unwatch p, _) => {base D p + 1}
  | (.rewatch p _ _, _) => {base D p + 1}
  | _ => 0

def qtok (x : Path × Nat × Event) : Multiset Nat := {ntok D x.1 x.2.2}

def htok : Option (Path × Event) → Multiset Nat
  | some (p, fl) => {ntok D p fl}
  | none => 0

/-- What is on its way in the tree. -/
def FSt.rtok (s : FSt) : Multiset Nat :=
  (s.sys.cq.map (etok D)).sum + (s.sys.disp.map (dtok D)).sum + (s.sys.rq.map fun ei => {base D ei.path + 2}).sum + itok D s.plan.isSome s.sys.int +
    (s.sys.calls.map (utok D s.plan.isSome)).sum

/-- All that is on its way. -/
def FSt.tok (s : FSt) : Multiset Nat :=
  (s.kern.queue.map (qtok D)).sum + htok D s.hand + (s.out.map (etok D)).sum + (s.todo.map (ctok D)).sum + s.rtok D

end

theorem sum_sublist {α : Type} (f : α → Multiset Nat) {l l' : List α} (h : l.Sublist l') : (l.map f).sum ≤ (l'.map f).sum := by
  induction h with
  | slnil => exact le_refl _
  | cons a _ ih => simp only [List.map_cons, List.sum_cons]; exact le_trans ih (Multiset.le_add_left _ _)
  | cons_cons a _ ih => simp only [List.map_cons, List.sum_cons]; exact add_le_add_right ih _

/-- What the kernel keeps of files is times. -/
def Kern.Timed (k : Kern) : Prop := ∀ p, k.since p &&& (fen.nRemove ||| fen.nRename) = 0

theorem Kern.Timed.call {k : Kern} (h : k.Timed) (c : NCall) : (k.call c).Timed := by
  cases c with
  | assoc => exact h
  | dissoc p => simp only [Kern.call]; split <;> exact h
  | reassoc => exact h
  | keep p =>
    intro q
    simp only [Kern.call]
    split
    · decide
    · exact h q

theorem Kern.Timed.calls : ∀ (l : List NCall) {k : Kern}, k.Timed → (l.foldl Kern.call k).Timed
  | [], _, h => h
  | c :: l, _, h => Kern.Timed.calls l (h.call c)

theorem Kern.Timed.change {k : Kern} (h : k.Timed) (p : Path) (fl : Event) : (k.change p fl).Timed := by
  intro q
  simp only [Kern.change]
  split
  · have h1 := h p
    have h2 : times &&& (fen.nRemove ||| fen.nRename) = 0 := by decide
    revert h1 h2
    generalize k.since p = a
    generalize fen.nRemove ||| fen.nRename = b
    generalize times = c
    intro h1 h2
    ebits
  · exact h q

theorem call_tok (D n : Nat) {k : Kern} (hk : k.Timed) {c : NCall} (hc : c.Deep n) :
    ∃ Y : Multiset Nat, ((k.call c).queue.map (qtok D)).sum ≤ (k.queue.map (qtok D)).sum + Y ∧ (c.Still → Y = 0) ∧ ∀ y ∈ Y, y ≤ 4 * (D + 3 - n) := by
  cases c with
  | assoc => exact ⟨0, by simp [Kern.call], fun _ => rfl, by simp⟩
  | dissoc p =>
    refine ⟨0, ?_, fun _ => rfl, by simp⟩
    rw [add_zero]
    simp only [Kern.call]
    split
    · exact le_refl _
    · exact sum_sublist _ List.filter_sublist
  | reassoc p m ok =>
    refine ⟨{base D p}, ?_, fun h => h.elim, ?_⟩
    · simp only [Kern.call]
      split
      · simp only [List.map_append, List.sum_append, List.map_cons, List.map_nil, List.sum_cons, List.sum_nil, qtok, ntok]
        have h0 : isGone (k.since p &&& m) = false := by
          have h1 := hk p
          simp only [isGone, decide_eq_false_iff_not, not_not]
          revert h1
          generalize k.since p = a
          generalize fen.nRemove ||| fen.nRename = b
          intro h1
          ebits
        rw [h0]; simp
      · exact Multiset.le_add_right _ _
    · intro y hy
      simp only [Multiset.mem_singleton] at hy
      subst hy
      have : n ≤ p.length := hc
      unfold base
      omega
  | keep => exact ⟨0, by simp [Kern.call], fun _ => rfl, by simp⟩

theorem calls_tok (D n : Nat) : ∀ (l : List NCall) {k : Kern}, k.Timed → (∀ c ∈ l, c.Deep n) →
    ∃ Y : Multiset Nat, ((l.foldl Kern.call k).queue.map (qtok D)).sum ≤ (k.queue.map (qtok D)).sum + Y ∧ ((∀ c ∈ l, c.Still) → Y = 0) ∧ ∀ y ∈ Y, y ≤ 4 * (D + 3 - n)
  | [], k, _, _ => ⟨0, by simp, fun _ => rfl, by simp⟩
  | c :: l, k, hk, h => by
    obtain ⟨Y, h1, h2, h3⟩ := call_tok D n hk (h c (by simp))
    obtain ⟨Y', g1, g2, g3⟩ := calls_tok D n l (hk.call c) fun c hc => h c (by simp [hc])
    refine ⟨Y + Y', ?_, fun hs => ?_, fun y hy => ?_⟩
    · rw [← add_assoc]
      exact le_trans g1 (add_le_add_left h1 _)
    · rw [h2 (hs c (by simp)), g2 fun c hc => hs c (by simp [hc])]; rfl
    · rcases Multiset.mem_add.1 hy with hy | hy
      · exact h3 y hy
      · exact g3 y hy

theorem hand_worthy {t : St} {ei : EventInfo} (h : Y.hand t ei = true) : worthy ei = true := by
  have h : NonRec.toInternal Platform.fen t.root ei = true := h
  unfold NonRec.toInternal at h
  dsimp only at h
  split at h
  · cases h
  · simp only [Bool.and_eq_true] at h
    simp only [worthy, Bool.and_eq_true]
    exact ⟨h.1.2, h.2⟩

theorem sum_mem {α : Type} {f : α → Multiset Nat} {l : List α} {y : Nat} (h : y ∈ (l.map f).sum) : ∃ x ∈ l, y ∈ f x := by
  induction l with
  | nil => simp at h
  | cons a l ih =>
    simp only [List.map_cons, List.sum_cons, Multiset.mem_add] at h
    rcases h with h | h
    · exact ⟨a, by simp, h⟩
    · obtain ⟨x, hx, hy⟩ := ih h; exact ⟨x, by simp [hx], hy⟩

theorem utok_le (D : Nat) (b : Bool) (x : Nat × Sched.Req × Sched.Call) : utok D true x ≤ utok D b x := by
  obtain ⟨i, r, c⟩ := x
  cases c <;> cases b <;> simp [utok]

theorem utoks_le (D : Nat) (b : Bool) : ∀ l : List (Nat × Sched.Req × Sched.Call), (l.map (utok D true)).sum ≤ (l.map (utok D b)).sum
  | [] => le_refl _
  | x :: l => by simp only [List.map_cons, List.sum_cons]; exact add_le_add (utok_le D b x) (utoks_le D b l)

theorem utoks_eq (D : Nat) (b : Bool) {l : List (Nat × Sched.Req × Sched.Call)} (h : ∀ x ∈ l, x.2.2.holds = false) :
    (l.map (utok D b)).sum = (l.map (utok D true)).sum := by
  induction l with
  | nil => rfl
  | cons x l ih =>
    simp only [List.map_cons, List.sum_cons]
    rw [ih fun x hx => h x (by simp [hx])]
    obtain ⟨i, r, c⟩ := x
    have := h (i, r, c) (by simp)
    cases c <;> first | rfl | cases this

/-- Directories are not deeper than `D`. -/
def Outside.Bounded (X : Outside) (D : Nat) : Prop := ∀ E, X.env E → ∀ p l, E.list p = .ok l → p.length ≤ D

section
variable {D : Nat} {cfg : Sched.Cfg} {X : Outside} {s s' : FSt}

/-- A step of the tree's goroutines. -/
theorem go_falls {l : Sched.Lab Y.Req} {sys' : Sched.State Y} (h : Sched.Tr Y cfg s.sys l sys') (hf : Free l) (hc : ¬ l.env) :
    Falls (FSt.tok D { s with sys := sys' }) (FSt.tok D s) := by
  obtain ⟨sys, w, kern, hand, out, plan, todo, log⟩ := s
  dsimp only at h
  cases h with
  | report => exact hf.elim
  | push => exact hf.elim
  | call => exact absurd trivial hc
  | spawn ei q hh => refine .same ?_; simp only [FSt.tok, FSt.rtok, hh, List.map_cons, List.sum_cons, dtok]; abel
  | rlock i ei a b hh => refine .same ?_; simp only [FSt.tok, FSt.rtok, hh, List.map_cons, List.map_append, List.sum_append, List.sum_cons, dtok]
  | pick i ei d k a b hh => refine .same ?_; simp only [FSt.tok, FSt.rtok, hh, List.map_cons, List.map_append, List.sum_append, List.sum_cons, dtok]
  | send i ei d k a b hh => refine .same ?_; simp only [FSt.tok, FSt.rtok, hh, List.map_cons, List.map_append, List.sum_append, List.sum_cons, dtok]
  | runlock i ei d a b hh hk hw =>
    refine .same ?_
    simp only [FSt.tok, FSt.rtok, hh, List.map_cons, List.map_append, List.sum_append, List.sum_cons, dtok, etok, hand_worthy hw, if_true]
  | fin i ei d a b hh =>
    refine .sub (etok D ei) ?_
    simp only [FSt.tok, FSt.rtok, hh, List.map_cons, List.map_append, List.sum_append, List.sum_cons, dtok]; abel
  | handed i ei a b hh =>
    refine .same ?_
    simp only [FSt.tok, FSt.rtok, hh, List.map_cons, List.map_append, List.sum_append, List.sum_cons, dtok, List.map_nil, List.sum_nil]; abel
  | lock i r a b hh =>
    cases hp : plan.isSome with
    | false =>
      refine .same ?_
      simp only [FSt.tok, FSt.rtok, hh, hp, List.map_cons, List.map_append, List.sum_append, List.sum_cons, utok, Bool.false_eq_true, if_false]
    | true =>
      refine .sub {top D} ?_
      simp only [FSt.tok, FSt.rtok, hh, hp, List.map_cons, List.map_append, List.sum_append, List.sum_cons, utok, if_true]; abel
  | effect => exact hf.elim
  | unlock i r a b hh => refine .same ?_; simp only [FSt.tok, FSt.rtok, hh, List.map_cons, List.map_append, List.sum_append, List.sum_cons, utok]
  | ret i r a b hh => refine .same ?_; simp only [FSt.tok, FSt.rtok, hh, List.map_cons, List.map_append, List.sum_append, List.sum_cons, utok]; abel
  | intRecv ei q hh hi => refine .same ?_; simp only [FSt.tok, FSt.rtok, hh, hi, List.map_cons, List.sum_cons, itok]; abel
  | intLock ei hh =>
    cases hp : plan.isSome with
    | false => refine .same ?_; simp only [FSt.tok, FSt.rtok, hh, hp, itok, Bool.false_eq_true, if_false]
    | true => refine .sub {base D ei.path + 2} ?_; simp only [FSt.tok, FSt.rtok, hh, hp, itok, if_true]; abel
  | intEffect => exact hf.elim
  | intUnlock ei hh => refine .same ?_; simp only [FSt.tok, FSt.rtok, hh, itok]

/-- What a plan adds. -/
theorem ctok_lt {r : Sched.Req} {ops : List Op} {t : St} {new : Log} (hl : Live s) (hr : s.Holds r) (ht : Plans X.rel s.sys.tree r ops t)
    (hn : t.world.log = new ++ s.sys.tree.world.log) :
    ∀ x ∈ new, ∀ y ∈ ctok D x, y < top D ∧ ∀ ei, r = .internal ei → y < base D ei.path + 2 := by
  intro x hx y hy
  have h1 : ∀ p : Path, base D p + 1 < top D := by intro p; unfold base top; omega
  have h2 : ∀ p ei, y = base D p + 1 → r = .internal ei → x.1.Under ei.path → (x.1.Under ei.path → ei.path <+: p) → y < base D ei.path + 2 := by
    intro p ei hy _ hu hp
    have := (hp hu).length_le
    rw [hy]; unfold base; omega
  have h3 : ∀ ei, r = .internal ei → x.1.Under ei.path := by
    rintro ei rfl
    obtain ⟨hist, hh⟩ := hl.inv.tree
    have hsh := NonRec.Hist.shape factsP hh
    have key : ∀ s₁ : St, s₁.world = s.sys.tree.world → NonRec.Shape Platform.fen s₁.root → ∀ t, NonRec.Step Platform.fen X.rel s₁ (.internal ei) t →
        t.world.log = new ++ s.sys.tree.world.log → x.1.Under ei.path := by
      intro s₁ hw hs₁ t hst hlog
      cases hst with
      | internal hp hd hO =>
        obtain ⟨new', g1, g2⟩ := NonRec.internal_beneath (O := _) hs₁ hp hd
        rw [hw] at g1
        obtain rfl : new' = new := List.append_cancel_right (g1.symm.trans hlog)
        exact g2 x hx
    obtain ⟨hst, op, hfit, hops⟩ := ht
    obtain rfl : op = .internal ei := hfit
    rcases hops with rfl | rfl
    · generalize ho : [Op.internal ei] = ops at hst
      cases hst with
      | nil => cases ho
      | snoc h1 h2 =>
        rename_i ops' s₁ op
        have hlen : ops' = [] ∧ op = .internal ei := by
          have := congrArg List.reverse ho
          simp only [List.reverse_append, List.reverse_cons, List.reverse_nil, List.nil_append, List.singleton_append, List.cons.injEq] at this
          exact ⟨by simpa using this.2.symm, this.1.symm⟩
        obtain ⟨rfl, rfl⟩ := hlen
        generalize ho : ([] : List Op) = ops at h1
        cases h1 with
        | nil => exact key _ rfl hsh _ h2 hn
        | snoc => exact absurd ho (by simp)
    · generalize ho : [Op.shuffle, Op.internal ei] = ops at hst
      cases hst with
      | nil => cases ho
      | snoc h1 h2 =>
        rename_i ops' s₁ op
        have hlen : ops' = [.shuffle] ∧ op = .internal ei := by
          have := congrArg List.reverse ho
          simp only [List.reverse_append, List.reverse_cons, List.reverse_nil, List.nil_append, List.singleton_append, List.cons_append, List.cons.injEq] at this
          refine ⟨?_, this.1.symm⟩
          have := congrArg List.reverse this.2
          simpa using this.symm
        obtain ⟨rfl, rfl⟩ := hlen
        generalize ho : ([Op.shuffle] : List Op) = ops at h1
        cases h1 with
        | nil => cases ho
        | snoc h0 h1 =>
          rename_i ops'' s₀ op
          have hlen : ops'' = [] ∧ op = .shuffle := by
            have := congrArg List.reverse ho
            simp only [List.reverse_append, List.reverse_cons, List.reverse_nil, List.nil_append, List.singleton_append, List.cons.injEq] at this
            exact ⟨by simpa using this.2.symm, this.1.symm⟩
          obtain ⟨rfl, rfl⟩ := hlen
          generalize ho : ([] : List Op) = ops at h0
          cases h0 with
          | nil => cases h1 with | shuffle hs => rename_i root'; exact key { s.sys.tree with root := root' } rfl (hsh.shuffle hs) _ h2 hn
          | snoc => exact absurd ho (by simp)
  obtain ⟨c, ok⟩ := x
  cases c with
  | unwatch p =>
    simp only [ctok, Multiset.mem_singleton] at hy
    exact ⟨hy ▸ h1 p, fun ei hei => h2 p ei hy hei (h3 ei hei) id⟩
  | rewatch p old new =>
    simp only [ctok, Multiset.mem_singleton] at hy
    exact ⟨hy ▸ h1 p, fun ei hei => h2 p ei hy hei (h3 ei hei) id⟩
  | _ => simp [ctok] at hy

/-- What is on its way does not grow; and it becomes less with each Unwatch and Rewatch. -/
theorem Inner.falls (hX : X.Named) (hD : X.Bounded D) {k : List (Verif.Call × Bool)} (h : Live s) (hk : s.kern.Timed) (hs : Inner cfg X s k s') :
    Falls (s'.tok D) (s.tok D) ∧ ((∃ c ∈ k, Undoes c.1) → Drops (s'.tok D) (s.tok D)) ∧ s'.kern.Timed := by
  obtain ⟨o, g, hs, hc⟩ := hs
  generalize hreps : ([] : List (Path × Event)) = reps at hs
  have nil : (∃ c ∈ ([] : List (Verif.Call × Bool)), Undoes c.1) → Drops (s'.tok D) (s.tok D) := by rintro ⟨c, hc, _⟩; cases hc
  cases hs with
  | go l sys' htr hfree =>
    exact ⟨go_falls htr hfree (htr.calls_env hc (by rintro evs rfl; exact hfree)), nil, hk⟩
  | change => cases hreps
  | wait p a fl hh ho hp =>
    refine ⟨.same ?_, nil, hk⟩
    have := ((List.perm_cons_erase hp).map (qtok D)).sum_eq
    simp only [FSt.tok, hh, htok, this, List.map_cons, List.sum_cons, qtok]
    abel
  | process E p ge hx hh =>
    have hn := process_neat (hX E hx) (woken_clean h.tidy p) p ge
    have hev := process_len (D := D) (s := s.woken p) (E := E) (fun q l => hD E hx q l) (fun q hq => (woken_clean h.tidy p).tidy.good q hq) p ge
    obtain ⟨Y, h1, h2, -⟩ := calls_tok D 0 (process E (s.woken p) p ge).1.n hk (by intro c _; cases c <;> first | trivial | exact Nat.zero_le _)
    rw [h2 (hn.1.still rfl), add_zero] at h1
    refine ⟨?_, nil, .calls _ hk⟩
    refine ⟨(s.kern.queue.map (qtok D)).sum + (s.out.map (etok D)).sum + (s.todo.map (ctok D)).sum + s.rtok D,
      (((process E (s.woken p) p ge).2.map info).map (etok D)).sum, {ntok D p ge}, ?_, ?_, ?_⟩
    · refine le_trans (b := (s.kern.queue.map (qtok D)).sum + (((process E (s.woken p) p ge).2.map info).map (etok D)).sum + (s.todo.map (ctok D)).sum + s.rtok D) ?_ ?_
      · simp only [FSt.tok, htok, add_zero]
        exact add_le_add_left (add_le_add_left (add_le_add_left h1 _) _) _
      · refine Multiset.le_iff_exists_add.2 ⟨(s.out.map (etok D)).sum, ?_⟩
        abel
    · simp only [FSt.tok, hh, htok]; abel
    · intro y hy
      refine ⟨ntok D p ge, by simp, ?_⟩
      obtain ⟨x, hx, hy⟩ := sum_mem hy
      obtain ⟨ev, hev', rfl⟩ := List.mem_map.1 hx
      unfold etok at hy
      split at hy
      · next hw =>
        simp only [Multiset.mem_singleton] at hy
        subst hy
        rcases hev ev hev' hw with ⟨g1, g2⟩ | ⟨g1, g2⟩
        · simp only [ntok, g1, if_true, base, info]; omega
        · simp only [ntok, base, info]; split <;> omega
      · simp at hy
  | send ei l hl hq hok =>
    refine ⟨.same ?_, nil, hk⟩
    simp only [FSt.tok, FSt.rtok, hl, List.map_append, List.sum_append, List.map_cons, List.sum_cons, List.map_nil, List.sum_nil]; abel
  | plan r ops t new hr hp ht hn =>
    have hlt := ctok_lt (D := D) h hr ht hn
    have hnew : ∀ y ∈ (new.reverse.map (ctok D)).sum, y < top D ∧ ∀ ei, r = .internal ei → y < base D ei.path + 2 := by
      intro y hy
      obtain ⟨x, hx, hy⟩ := sum_mem hy
      exact hlt x (by simpa using hx) y hy
    have ht0 := h.rest hp
    refine ⟨?_, nil, hk⟩
    rcases hr with ⟨i, hm⟩ | ⟨ei, hm, rfl⟩
    · obtain ⟨a, b, hab⟩ := List.append_of_mem hm
      refine ⟨(s.kern.queue.map (qtok D)).sum + htok D s.hand + (s.out.map (etok D)).sum + ((s.sys.cq.map (etok D)).sum + (s.sys.disp.map (dtok D)).sum +
        (s.sys.rq.map fun ei => {base D ei.path + 2}).sum + itok D false s.sys.int + (a.map (utok D false)).sum + (b.map (utok D false)).sum),
        (new.reverse.map (ctok D)).sum, {top D}, ?_, ?_, fun y hy => ⟨_, by simp, (hnew y hy).1⟩⟩
      · have h1 := utoks_le D false a
        have h2 := utoks_le D false b
        have h3 : itok D true s.sys.int ≤ itok D false s.sys.int := by cases s.sys.int <;> simp [itok]
        refine le_trans (b := (s.kern.queue.map (qtok D)).sum + htok D s.hand + (s.out.map (etok D)).sum + ((s.sys.cq.map (etok D)).sum + (s.sys.disp.map (dtok D)).sum +
          (s.sys.rq.map fun ei => {base D ei.path + 2}).sum + itok D true s.sys.int + (a.map (utok D true)).sum + (b.map (utok D true)).sum) + (new.reverse.map (ctok D)).sum) ?_ ?_
        · refine le_of_eq ?_
          simp only [FSt.tok, FSt.rtok, hab, List.map_append, List.map_cons, List.sum_append, List.sum_cons, utok, Option.isSome_some, if_true]
          abel
        · exact add_le_add_left (add_le_add_right (add_le_add (add_le_add (add_le_add_right h3 _) h1) h2) _) _
      · simp only [FSt.tok, FSt.rtok, hp, ht0, hab, List.map_append, List.map_cons, List.sum_append, List.sum_cons, utok, Option.isSome_none, Bool.false_eq_true, if_false,
          List.map_nil, List.sum_nil]
        abel
    · refine ⟨(s.kern.queue.map (qtok D)).sum + htok D s.hand + (s.out.map (etok D)).sum + ((s.sys.cq.map (etok D)).sum + (s.sys.disp.map (dtok D)).sum +
        (s.sys.rq.map fun ei => {base D ei.path + 2}).sum + (s.sys.calls.map (utok D false)).sum),
        (new.reverse.map (ctok D)).sum, {base D ei.path + 2}, ?_, ?_, fun y hy => ⟨_, by simp, (hnew y hy).2 ei rfl⟩⟩
      · have h1 := utoks_le D false s.sys.calls
        refine le_trans (b := (s.kern.queue.map (qtok D)).sum + htok D s.hand + (s.out.map (etok D)).sum + ((s.sys.cq.map (etok D)).sum + (s.sys.disp.map (dtok D)).sum +
          (s.sys.rq.map fun ei => {base D ei.path + 2}).sum + (s.sys.calls.map (utok D true)).sum) + (new.reverse.map (ctok D)).sum) ?_ ?_
        · refine le_of_eq ?_
          simp only [FSt.tok, FSt.rtok, hm, itok, Option.isSome_some, if_true]
          abel
        · exact add_le_add_left (add_le_add_right (add_le_add_right h1 _) _) _
      · simp only [FSt.tok, FSt.rtok, hp, ht0, hm, itok, Option.isSome_none, Bool.false_eq_true, if_false, List.map_nil, List.sum_nil]
        abel
  | call E c ok rest w' hx ht hserv =>
    have hdeep : Deep (undone c).length w' := Deep.serves (s := ⟨s.w, []⟩) hserv (by intro c hc; cases hc)
    obtain ⟨Y, h1, h2, h3⟩ := calls_tok D (undone c).length w'.n hk hdeep
    have hle : (FSt.tok D { s with w := w'.t, kern := w'.n.foldl Kern.call s.kern, todo := rest, log := (c, ok) :: s.log }) ≤
        ((s.kern.queue.map (qtok D)).sum + htok D s.hand + (s.out.map (etok D)).sum + (rest.map (ctok D)).sum + s.rtok D) + Y := by
      refine le_trans (b := ((s.kern.queue.map (qtok D)).sum + Y) + htok D s.hand + (s.out.map (etok D)).sum + (rest.map (ctok D)).sum + s.rtok D) ?_ ?_
      · exact add_le_add_left (add_le_add_left (add_le_add_left (add_le_add_left h1 _) _) _) _
      · exact le_of_eq (by abel)
    have heq : s.tok D = ((s.kern.queue.map (qtok D)).sum + htok D s.hand + (s.out.map (etok D)).sum + (rest.map (ctok D)).sum + s.rtok D) + ctok D (c, ok) := by
      simp only [FSt.tok, ht, List.map_cons, List.sum_cons]; abel
    by_cases hu : Undoes c
    · have hz : ctok D (c, ok) = {base D (undone c) + 1} := by cases c <;> first | rfl | exact hu.elim
      rw [hz] at heq
      have hd : Drops (FSt.tok D { s with w := w'.t, kern := w'.n.foldl Kern.call s.kern, todo := rest, log := (c, ok) :: s.log }) (s.tok D) := by
        refine ⟨_, Y, _, hle, heq, by simp, fun y hy => ⟨_, Multiset.mem_singleton_self _, ?_⟩⟩
        have := h3 y hy
        unfold base; omega
      obtain ⟨A, B, C, g1, g2, _, g4⟩ := hd
      exact ⟨⟨A, B, C, g1, g2, g4⟩, fun _ => ⟨A, B, C, g1, g2, ‹_›, g4⟩, .calls _ hk⟩
    · have hc : Clean true w' := Clean.serves (hX E hx) (s := ⟨s.w, []⟩) ⟨h.tidy, fun _ c hc => by cases hc⟩ hserv (fun _ => hu)
      obtain rfl := h2 (hc.still rfl)
      refine ⟨.of_le (le_trans hle ?_), ?_, .calls _ hk⟩
      · rw [heq, add_zero]; exact Multiset.le_add_right _ _
      · rintro ⟨x, hx, hux⟩
        simp only [List.mem_singleton] at hx
        subst hx; exact absurd hux hu
  | effect i r a b t hcalls hp ht =>
    refine ⟨.same ?_, nil, hk⟩
    have h1 := h.inv.excl.one
    simp only [Sched.State.nC, hcalls, List.countP_append, List.countP_cons, show Sched.Call.locked.holds = true from rfl, if_true] at h1
    have ha : ∀ x ∈ a, x.2.2.holds = false := by
      have : a.countP (·.2.2.holds) = 0 := by omega
      simpa [List.countP_eq_zero] using this
    have hb : ∀ x ∈ b, x.2.2.holds = false := by
      have : b.countP (·.2.2.holds) = 0 := by omega
      simpa [List.countP_eq_zero] using this
    have hi : itok D false s.sys.int = itok D true s.sys.int := by
      have : s.sys.int.holds = false := by
        cases hh : s.sys.int.holds with
        | false => rfl
        | true => rw [hh] at h1; simp only [if_true] at h1; omega
      cases hint : s.sys.int <;> first | rfl | (rw [hint] at this; cases this)
    simp only [FSt.tok, FSt.rtok, hp, hcalls, List.map_append, List.map_cons, List.sum_append, List.sum_cons, utok, Option.isSome_none, Option.isSome_some, if_true,
      utoks_eq D false ha, utoks_eq D false hb, hi]
  | intEffect ei t hi hp ht =>
    refine ⟨.same ?_, nil, hk⟩
    have h1 : s.sys.calls.countP (·.2.2.holds) + (if s.sys.int.holds then 1 else 0) ≤ 1 := h.inv.excl.one
    rw [hi] at h1
    have h1 : s.sys.calls.countP (·.2.2.holds) + 1 ≤ 1 := h1
    have ha : ∀ x ∈ s.sys.calls, x.2.2.holds = false := by
      have : s.sys.calls.countP (·.2.2.holds) = 0 := by omega
      simpa [List.countP_eq_zero] using this
    simp only [FSt.tok, FSt.rtok, hp, hi, itok, Option.isSome_none, Option.isSome_some, if_true, utoks_eq D false ha]

theorem FRun.timed {ops : List Op} {k : List (Verif.Call × Bool)} {r : List (Path × Event)} {g : List (Key × EventInfo)}
    (h : FRun cfg X FSt.init ops k r g s) : s.kern.Timed := by
  induction h with
  | refl => intro p; exact (show (0 : Event) &&& (fen.nRemove ||| fen.nRename) = 0 by decide)
  | step _ hs ih =>
    cases hs with
    | change p fl hx => exact ih.change p fl
    | process => exact .calls _ ih
    | call => exact .calls _ ih
    | _ => exact ih

/-- No execution inside of the program goes on for ever. -/
theorem ends_inner (hX : X.Named) (hD : X.Bounded D) (h : Live s) (hk : s.kern.Timed) (f : Nat → FSt) (h0 : f 0 = s)
    (hf : ∀ n, ∃ k, Inner cfg X (f n) k (f (n + 1))) : False := by
  choose ks hf using hf
  have hlive : ∀ n, Live (f n) ∧ (f n).kern.Timed := by
    intro n
    induction n with
    | zero => rw [h0]; exact ⟨h, hk⟩
    | succ n ih => exact ⟨(hf n).live hX ih.1, ((hf n).falls hX hD ih.1 ih.2).2.2⟩
  obtain ⟨m, hm⟩ := falls_end (f := fun n => (f n).tok D) fun n => ((hf n).falls hX hD (hlive n).1 (hlive n).2).1
  refine no_descent lex4_wf (fun n => (f (m + n)).measure (f (m + n)).kern.queue.length) fun n =>
    ((hf (m + n)).decreases hX (hlive _).1).1 fun c hc hu => ?_
  exact hm (m + n) (by omega) (((hf (m + n)).falls hX hD (hlive _).1 (hlive _).2).2.1 ⟨c, hc, hu⟩)

/-- A step inside of the program. -/
def Within (cfg : Sched.Cfg) (X : Outside) (s s' : FSt) : Prop := ∃ k, Inner cfg X s k s'

/-- From every state in which no operation is at the watcher everything can be brought to its end. -/
theorem drains_all (hC : 0 < cfg.capC) (hR : 0 < cfg.capR) (hX : X.Named) (hD : X.Bounded D) (hrel : X.rel = false) {E : Env} (hE : X.env E)
    (hskip : ∀ p, E.opn p ≠ .skip) (h : Live s) (hk : s.kern.Timed) (hp : s.plan = none) : ∃ s', Relation.ReflTransGen (Within cfg X) s s' ∧ s'.Rest := by
  have hwf : WellFounded fun s' s : FSt => (Live s ∧ s.kern.Timed) ∧ Within cfg X s s' := by
    rw [wellFounded_iff_isEmpty_descending_chain]
    exact ⟨fun ⟨f, hf⟩ => ends_inner hX hD (hf 0).1.1 (hf 0).1.2 f rfl fun n => (hf n).2⟩
  have keep : ∀ {s s' : FSt}, Live s → s.kern.Timed → Relation.ReflTransGen (Within cfg X) s s' → Live s' ∧ s'.kern.Timed := by
    intro s s' h hk hs
    induction hs with
    | refl => exact ⟨h, hk⟩
    | tail _ h2 ih => obtain ⟨k, h2⟩ := h2; exact ⟨h2.live hX ih.1, (h2.falls hX hD ih.1 ih.2).2.2⟩
  have less : ∀ {s s' : FSt}, Live s → s.kern.Timed → Relation.ReflTransGen (Within cfg X) s s' →
      s' = s ∨ Relation.TransGen (fun s' s : FSt => (Live s ∧ s.kern.Timed) ∧ Within cfg X s s') s' s := by
    intro s s' h hk hs
    induction hs with
    | refl => exact .inl rfl
    | tail h1 h2 ih =>
      have := keep h hk h1
      rcases ih with rfl | ih
      · exact .inr (.single ⟨this, h2⟩)
      · exact .inr (.head ⟨this, h2⟩ ih)
  have mono : ∀ {s s' : FSt}, Relation.ReflTransGen (Local cfg X) s s' → Relation.ReflTransGen (Within cfg X) s s' :=
    fun h => Relation.ReflTransGen.mono (fun _ _ ⟨k, h, _⟩ => ⟨k, h⟩) _ _ h
  induction s using hwf.transGen.induction with
  | _ s ih =>
    obtain ⟨s₁, h1, h2⟩ := drains (cfg := cfg) hC hR hX hrel hE hskip h hp
    have h1 := mono h1
    obtain ⟨g1, g2⟩ := keep h hk h1
    cases hq : s₁.kern.queue with
    | nil => exact ⟨s₁, h1, h2.1, hq, h2.2⟩
    | cons x l =>
      obtain ⟨p, a, fl⟩ := x
      have hw : Within cfg X s₁ { s₁ with hand := some (p, fl), kern := { s₁.kern with queue := s₁.kern.queue.erase (p, a, fl) } } :=
        ⟨_, _, _, .wait p a fl h2.2.1 h2.2.2.1 (by rw [hq]; simp), Nat.le_refl _⟩
      have h3 := h1.tail hw
      obtain ⟨k1, k2⟩ := keep h hk h3
      have hlt : Relation.TransGen (fun s' s : FSt => (Live s ∧ s.kern.Timed) ∧ Within cfg X s s')
          { s₁ with hand := some (p, fl), kern := { s₁.kern with queue := s₁.kern.queue.erase (p, a, fl) } } s := by
        rcases less h hk h1 with rfl | hl
        · exact .single ⟨⟨g1, g2⟩, hw⟩
        · exact .head ⟨⟨g1, g2⟩, hw⟩ hl
      obtain ⟨s', m1, m2⟩ := ih _ hlt k1 k2 h2.2.2.2.1
      exact ⟨s', h3.trans m1, m2⟩

end

/-- C110, Solaris and illumos.  In every state of the program in which something is under way, something can happen without help from users and files: a
goroutine takes a step, or the call of the watcher that is due returns with the other outcome than was guessed.  This does not go on for ever, although
Unwatch and Rewatch make the kernel notify (C109) and notifications make the tree call them; and nothing panics.  From every state in which no operation
is at the watcher everything can be brought to its end, that is, each Watch and Stop returns and each notification is handled.  Calls of the watcher may
fail, also those whose failure the tree ignores.  The depth of directories is bounded. -/
theorem C110_solaris {D : Nat} {cfg : Sched.Cfg} (hC : 0 < cfg.capC) (hR : 0 < cfg.capR) {X : Outside} (hX : X.Named) (hD : X.Bounded D) (hrel : X.rel = false)
    {E : Env} (hE : X.env E) (hskip : ∀ p, E.opn p ≠ .skip) {ops : List Op} {k : List (Verif.Call × Bool)} {r : List (Path × Event)} {g : List (Key × EventInfo)}
    {s : FSt} (h : FRun cfg X FSt.init ops k r g s) :
    (¬ s.Rest → (∃ s', Within cfg X s s') ∨ (∃ c ok rest s', s.todo = (c, ok) :: rest ∧ Within cfg X { s with todo := (c, !ok) :: rest } s')) ∧
    (∀ f : Nat → FSt, f 0 = s → (∀ n, Within cfg X (f n) (f (n + 1))) → False) ∧
    (s.plan = none → ∃ s', Relation.ReflTransGen (Within cfg X) s s' ∧ s'.Rest) ∧
    s.sys.tree.world.panicked = false := by
  have hl : Live s := h.live hX .init
  refine ⟨fun hr => ?_, fun f h0 hf => ends_inner hX hD hl h.timed f h0 hf, drains_all hC hR hX hD hrel hE hskip hl h.timed, hl.pan⟩
  rcases progress hC hR hrel hE hskip hl hr with ⟨k, s', h⟩ | ⟨c, ok, rest, k, s', h1, h2⟩
  · exact .inl ⟨s', k, h⟩
  · exact .inr ⟨c, ok, rest, s', h1, k, h2⟩

namespace LiveEx
open Ex (e x d cfg Wr req1 op1 t1 step1 goodE uW)
open Bsd.LiveEx (E8 named8)
open Trg.Ex (E7)

/-- Files change in any way and calls may fail; only directories down to the third level can be listed. -/
def X9 : Outside where
  env := fun E => E.Named ∧ ∀ p l, E.list p = .ok l → p.length ≤ 3
  chg := fun _ _ => True
  rel := false

theorem env9 : X9.env E8 := by
  refine ⟨named8, fun p l h => ?_⟩
  have h : E7.list p = .ok l := h
  simp only [E7] at h
  split at h
  · next hp => subst hp; decide
  · split at h
    · next hp => subst hp; decide
    · split at h
      · next hp => subst hp; decide
      · cases h

/-- Channel 1 watches `/d/e` for Write; then the file in it is written, and a Stop has the lock. -/
theorem run10 : ∃ ops k r g s, FRun cfg X9 FSt.init ops k r g s ∧ s.kern.queue ≠ [] ∧ (1, .stop 1, .locked) ∈ s.sys.calls ∧ s.plan = none := by
  have h := FRun.refl (cfg := cfg) (X := X9) (s := FSt.init)
  have h := h.step (.go _ _ (.call (Y := Y) req1 (show GoodPath e ∧ NonRec.UserEvents P Wr from ⟨goodE, uW⟩) trivial) trivial)
  have h := h.step (.go _ _ (.lock 0 req1 [] [] rfl (by rintro ⟨_, _, _, _, h⟩; cases h)
    (by rintro ⟨_, _, h | h⟩ <;> cases h <;> contradiction) (by rintro ⟨_, h | h⟩ <;> cases h)) trivial)
  have h := h.step (.plan req1 [op1] t1 [(.watch e Wr, true)] (.inl ⟨0, .head _⟩) rfl ⟨NonRec.Steps.nil.snoc (Plain.step_weaken step1), op1, ⟨_, rfl⟩, .inl rfl⟩ rfl)
  have h := h.step (.call E8 (.watch e Wr) true [] _ env9 rfl (.watch e Wr (by decide)))
  have h := h.step (.effect 0 req1 [] [] t1 rfl rfl rfl)
  have h := h.step (.go _ _ (.unlock 0 req1 [] [] rfl) trivial)
  have h := h.step (.go _ _ (.ret 0 req1 [] [] rfl) trivial)
  have h := h.step (.change x 0x2 trivial)
  have h := h.step (.go _ _ (.call (Y := Y) (Sched.Req.stop 1) trivial trivial) trivial)
  have h := h.step (.go _ _ (.lock 1 (Sched.Req.stop 1) [] [] rfl (by rintro ⟨_, _, _, _, h⟩; cases h)
    (by rintro ⟨_, _, h | h⟩ <;> cases h <;> contradiction) (by rintro ⟨_, h | h⟩ <;> cases h)) trivial)
  exact ⟨_, _, _, _, _, h, by decide, .head _, rfl⟩

example : ∃ s s' : FSt, (1, Sched.Req.stop 1, Sched.Call.locked) ∈ s.sys.calls ∧ s.kern.queue ≠ [] ∧ Relation.ReflTransGen (Within cfg X9) s s' ∧ s'.Rest := by
  obtain ⟨ops, k, r, g, s, h, h1, h2, h3⟩ := run10
  obtain ⟨s', g1, g2⟩ := (C110_solaris (by decide) (by decide) (X := X9) (fun E hE => hE.1) (D := 3) (fun E hE => hE.2) rfl (E := E8) env9
    (fun p => by simp [E8, E7]) h).2.2.1 h3
  exact ⟨s, s', h2, h1, g1, g2⟩

end LiveEx
end Fen
end Verif
