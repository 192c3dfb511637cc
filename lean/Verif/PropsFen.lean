/-
The whole program on Solaris and illumos (C107).
-/
import Verif.FenRec
import Verif.PlainRun

namespace Verif
namespace Fen
open Trg (fen Env Drives Has Away)
open Spec.Trg (fenMeans fenExceptions)
open NonRec (Hist Steps Op regOf NoFail GoodPath)
open Spec (wants copies Reg)
open Linux (Free sigs isSig isEv Gets)
open Plain (Leaves Fit due due_step free_tree)

abbrev P : Platform := Platform.fen

theorem factsP : P.Facts := Platform.fen_wf.facts

/-- Removal or renaming of the file of the association. -/
abbrev gone : Event := fen.nRemove ||| fen.nRename

/-! ### Associations -/

/-- The path `q` has an association that asks for `m`, or one of its associations has reported something that the watcher has not handled. -/
def Tok (k : Kern) (h : Option (Path × Event)) (q : Path) (m : Event) : Prop :=
  (∃ a, (q, a, m) ∈ k.assoc) ∨ (∃ a fl, (q, a, fl) ∈ k.queue) ∨ ∃ fl, h = some (q, fl)

theorem Tok.call {k : Kern} {h : Option (Path × Event)} {n : GoMap Path Event} (ht : ∀ q m, n.get? q = some m → Tok k h q m) (c : NCall) :
    ∀ q m, (natOf n c).get? q = some m → Tok (k.call c) h q m := by
  intro q m hq
  cases c with
  | assoc p m' ok =>
    have mono : Tok k h q m → Tok (k.call (.assoc p m' ok)) h q m := by
      rintro (⟨a, h1⟩ | h1 | h1)
      · left
        refine ⟨a, ?_⟩
        simp only [Kern.call]
        split
        · exact List.mem_cons_of_mem _ h1
        · exact h1
      · exact .inr (.inl h1)
      · exact .inr (.inr h1)
    unfold natOf at hq
    simp only at hq
    split at hq
    · rename_i hok
      rw [GoMap.get?_set] at hq
      split at hq
      · rename_i hpq
        cases hq
        subst hpq
        left
        exact ⟨k.next, by simp [Kern.call, hok]⟩
      · exact mono (ht q m hq)
    · exact mono (ht q m hq)
  | reassoc p m' ok =>
    have mono : Tok k h q m → Tok (k.call (.reassoc p m' ok)) h q m := by
      rintro (⟨a, h1⟩ | ⟨a, fl, h1⟩ | h1)
      · left
        refine ⟨a, ?_⟩
        simp only [Kern.call]
        split
        · exact List.mem_cons_of_mem _ h1
        · exact h1
      · right; left
        refine ⟨a, fl, ?_⟩
        simp only [Kern.call]
        split
        · exact List.mem_append_left _ h1
        · exact h1
      · exact .inr (.inr h1)
    unfold natOf at hq
    simp only at hq
    split at hq
    · rename_i hok
      rw [GoMap.get?_set] at hq
      split at hq
      · rename_i hpq
        cases hq
        subst hpq
        by_cases hs : k.since p &&& m = 0
        · exact .inl ⟨k.next, by simp [Kern.call, hok, hs]⟩
        · exact .inr (.inl ⟨k.next, k.since p &&& m, by
            simp only [Kern.call]; rw [if_pos ⟨hok, hs⟩]; exact List.mem_append_right _ (List.mem_singleton.2 rfl)⟩)
      · exact mono (ht q m hq)
    · exact mono (ht q m hq)
  | keep p => exact ht q m hq
  | dissoc p =>
    simp only [natOf, GoMap.get?_del] at hq
    split at hq
    · cases hq
    · rename_i hpq
      have hpq : ¬ q = p := fun h => hpq h.symm
      unfold Kern.call
      simp only
      split
      · exact ht q m hq
      · rcases ht q m hq with ⟨a, h1⟩ | ⟨a, fl, h1⟩ | h1
        · exact .inl ⟨a, List.mem_filter.2 ⟨h1, by simp [hpq]⟩⟩
        · exact .inr (.inl ⟨a, fl, List.mem_filter.2 ⟨h1, by simp [hpq]⟩⟩)
        · exact .inr (.inr h1)

theorem Tok.calls {h : Option (Path × Event)} : ∀ (l : List NCall) {k : Kern} {n : GoMap Path Event}, (∀ q m, n.get? q = some m → Tok k h q m) →
    ∀ q m, (l.foldl natOf n).get? q = some m → Tok (l.foldl Kern.call k) h q m
  | [], _, _, ht => ht
  | c :: l, _, _, ht => Tok.calls l (Tok.call ht c)

theorem and_gone {fl m : Event} (h : fl &&& gone = 0) : fl &&& m &&& gone = 0 := by
  generalize gone = b at *
  rw [Event.bext] at *
  intro i
  have h := h i
  simp only [BitVec.getLsbD_and] at *
  revert h
  cases fl.getLsbD i <;> cases m.getLsbD i <;> cases b.getLsbD i <;> simp

theorem call_since (k : Kern) (c : NCall) (h : ∀ q, k.since q &&& gone = 0) : ∀ q, (k.call c).since q &&& gone = 0 := by
  intro q
  unfold Kern.call
  split
  · exact h q
  · split <;> exact h q
  · exact h q
  · simp only
    split
    · rfl
    · exact h q

theorem calls_since : ∀ (l : List NCall) {k : Kern}, (∀ q, k.since q &&& gone = 0) → ∀ q, (l.foldl Kern.call k).since q &&& gone = 0
  | [], _, h => h
  | c :: l, k, h => calls_since l (call_since k c h)

theorem call_queue (k : Kern) (c : NCall) {y : Path × Nat × Event} (h : y ∈ (k.call c).queue) :
    y ∈ k.queue ∨ ∃ p m, c = .reassoc p m true ∧ y = (p, k.next, k.since p &&& m) := by
  unfold Kern.call at h
  split at h
  · exact .inl h
  · split at h
    · exact .inl h
    · exact .inl (List.mem_filter.1 h).1
  · simp only at h
    split at h
    · rename_i ho
      rcases List.mem_append.1 h with h | h
      · exact .inl h
      · exact .inr ⟨_, _, by rw [ho.1], by simpa using h⟩
    · exact .inl h
  · exact .inl h

/-- No removals are reported because of calls. -/
theorem calls_queue : ∀ (l : List NCall) {k : Kern} {y : Path × Nat × Event}, (∀ q, k.since q &&& gone = 0) → y ∈ (l.foldl Kern.call k).queue →
    y ∈ k.queue ∨ y.2.2 &&& gone = 0
  | [], _, _, _, h => .inl h
  | c :: l, k, _, hs, h => by
    rcases calls_queue l (call_since k c hs) h with h | h
    · rcases call_queue k c h with h | ⟨p, m, _, rfl⟩
      · exact .inl h
      · exact .inr (and_gone (hs p))
    · exact .inr h

/-- What does not end an association of `x` leaves all that it has. -/
theorem calls_keep {x : Path} : ∀ (l : List NCall) {k : Kern}, (∀ c ∈ l, Spares x c) →
    (∀ a m, (x, a, m) ∈ k.assoc → (x, a, m) ∈ (l.foldl Kern.call k).assoc) ∧ ∀ a fl, (x, a, fl) ∈ (l.foldl Kern.call k).queue ↔ (x, a, fl) ∈ k.queue
  | [], _, _ => ⟨fun _ _ h => h, fun _ _ => .rfl⟩
  | c :: l, k, h => by
    simp only [List.mem_cons, forall_eq_or_imp] at h
    obtain ⟨i1, i2⟩ := calls_keep l (k := k.call c) h.2
    have key : (∀ a m, (x, a, m) ∈ k.assoc → (x, a, m) ∈ (k.call c).assoc) ∧ (∀ a fl, (x, a, fl) ∈ k.queue → (x, a, fl) ∈ (k.call c).queue) := by
      cases c with
      | assoc p m' ok =>
        refine ⟨fun a m h1 => ?_, fun _ _ h1 => h1⟩
        simp only [Kern.call]
        split
        · exact List.mem_cons_of_mem _ h1
        · exact h1
      | dissoc p =>
        have hpx : ¬ x = p := fun hp => h.1 hp.symm
        unfold Kern.call
        simp only
        split
        · exact ⟨fun _ _ h => h, fun _ _ h => h⟩
        · exact ⟨fun a m h1 => List.mem_filter.2 ⟨h1, by simp [hpx]⟩, fun a m h1 => List.mem_filter.2 ⟨h1, by simp [hpx]⟩⟩
      | reassoc p m' ok =>
        refine ⟨fun a m h1 => ?_, fun a fl h1 => ?_⟩
        · simp only [Kern.call]
          split
          · exact List.mem_cons_of_mem _ h1
          · exact h1
        · simp only [Kern.call]
          split
          · exact List.mem_append_left _ h1
          · exact h1
      | keep p => exact ⟨fun _ _ h => h, fun _ _ h => h⟩
    refine ⟨fun a m h1 => i1 a m (key.1 a m h1), fun a m => (i2 a m).trans ⟨fun h1 => ?_, key.2 a m⟩⟩
    rcases call_queue k c h1 with h2 | ⟨p, m', rfl, h2⟩
    · exact h2
    · cases h2
      exact absurd rfl h.1

/-! ### The invariant -/

/-- After the operations `base`, all of them done, and `ops`, of which the last may be under way. -/
structure J (E : Env) (base ops : List Op) (s : FSt) : Prop where
  amid : Plain.Amid P base ops s.sys.tree s.plan s.todo s.log
  drives : Drives fen E s.log s.w
  queue : ∀ y ∈ s.kern.queue, y.2.2 &&& gone = 0
  since : ∀ q, s.kern.since q &&& gone = 0
  hand : ∀ p ge, s.hand = some (p, ge) → ge &&& gone = 0
  turn : s.hand ≠ none → s.out = []
  tok : ∀ q m, s.w.nat.get? q = some m → Tok s.kern s.hand q m

theorem J.init (E : Env) : J E [] [] FSt.init where
  amid := Plain.Amid.init P
  drives := .init
  queue := fun y hy => by cases hy
  since := fun _ => by simp [FSt.init]
  hand := fun _ _ h => by cases h
  turn := fun _ => rfl
  tok := fun _ _ h => by cases h

theorem change_queue {k : Kern} {p : Path} {fl : Event} {y : Path × Nat × Event} (hy : y ∈ (k.change p fl).queue) :
    y ∈ k.queue ∨ ∃ a m, (p, a, m) ∈ k.assoc ∧ y = (p, a, fl &&& (m ||| exceptions)) := by
  simp only [Kern.change, List.mem_append, List.mem_map, List.mem_filter] at hy
  rcases hy with hy | ⟨⟨q, a, m⟩, ⟨h1, h2⟩, rfl⟩
  · exact .inl hy
  · unfold hit at h2
    simp only [decide_eq_true_eq] at h2
    obtain ⟨rfl, _⟩ := h2
    exact .inr ⟨a, m, h1, rfl⟩

/-- An association reports the change or stays. -/
theorem change_assoc {k : Kern} {p : Path} {fl : Event} {q : Path} {a : Nat} {m : Event} (h : (q, a, m) ∈ k.assoc) :
    (q = p ∧ fl &&& (m ||| exceptions) ≠ 0 ∧ (p, a, fl &&& (m ||| exceptions)) ∈ (k.change p fl).queue) ∨
      (¬ (q = p ∧ fl &&& (m ||| exceptions) ≠ 0) ∧ (q, a, m) ∈ (k.change p fl).assoc) := by
  by_cases hh : q = p ∧ fl &&& (m ||| exceptions) ≠ 0
  · obtain ⟨rfl, h1⟩ := hh
    refine .inl ⟨rfl, h1, ?_⟩
    simp only [Kern.change, List.mem_append, List.mem_map, List.mem_filter]
    exact .inr ⟨(q, a, m), ⟨h, by unfold hit; simpa using h1⟩, rfl⟩
  · refine .inr ⟨hh, ?_⟩
    simp only [Kern.change, List.mem_filter]
    exact ⟨h, by unfold hit; rw [decide_eq_false hh]; rfl⟩

theorem J.step {cfg : Sched.Cfg} {E : Env} (hE : Trg.Steady E) {base ops o : List Op} {k : List (Call × Bool)} {r : List (Path × Event)}
    {g : List (Key × EventInfo)} {s s' : FSt} (h : J E base ops s) (hs : FStep cfg (calm E) s o k r g s') : J E base (ops ++ o) s' := by
  cases hs with
  | go l sys' htr hl =>
    rw [List.append_nil]
    refine ⟨?_, h.drives, h.queue, h.since, h.hand, h.turn, h.tok⟩
    simp only [free_tree (P := P) htr hl]
    exact h.amid
  | change p fl hx =>
    rw [List.append_nil]
    refine ⟨h.amid, h.drives, fun y hy => ?_, fun q => ?_, h.hand, h.turn, fun q m hq => ?_⟩
    · rcases change_queue hy with hy | ⟨a, m, _, rfl⟩
      · exact h.queue y hy
      · exact and_gone hx
    · simp only [Kern.change]
      split
      · rw [BitVec.and_or_distrib_right, and_gone hx, h.since p]; rfl
      · exact h.since q
    · rcases h.tok q m hq with ⟨a, h1⟩ | ⟨a, fl', h1⟩ | h1
      · rcases change_assoc (p := p) (fl := fl) h1 with ⟨rfl, _, h2⟩ | ⟨_, h2⟩
        · exact .inr (.inl ⟨_, _, h2⟩)
        · exact .inl ⟨_, h2⟩
      · exact .inr (.inl ⟨a, fl', List.mem_append_left _ h1⟩)
      · exact .inr (.inr h1)
  | wait p a fl hh ho hp =>
    rw [List.append_nil]
    refine ⟨h.amid, h.drives, fun y hy => h.queue y (List.mem_of_mem_erase hy), h.since, ?_, fun _ => ho, fun q m hq => ?_⟩
    · intro p' ge he
      cases he
      exact h.queue _ hp
    · rcases h.tok q m hq with h1 | ⟨a', fl', h1⟩ | ⟨fl', h1⟩
      · exact .inl h1
      · by_cases hqp : q = p
        · subst hqp; exact .inr (.inr ⟨fl, rfl⟩)
        · exact .inr (.inl ⟨a', fl', (List.mem_erase_of_ne (by simp [hqp])).2 h1⟩)
      · rw [hh] at h1; cases h1
  | process E' p ge hx hh =>
    rw [List.append_nil]
    have hx' : E' = E := hx
    subst hx'
    obtain ⟨⟨h1, h2⟩, h3⟩ := Sim.process (n₀ := (Trg.retrieved fen s.w p).nat) (s := s.woken p) hE.reg hE.unreg ⟨rfl, rfl⟩ p ge
    refine ⟨h.amid, ?_, fun y hy => (calls_queue _ h.since hy).elim (h.queue y) id, calls_since _ h.since, (fun _ _ he => by cases he), fun he => absurd rfl he, ?_⟩
    · simp only [h1]
      exact .note p ge h.drives (h.hand _ _ hh)
    · simp only [h1]
      rw [h2]
      refine Tok.calls _ fun q m hq => ?_
      have hq' : (s.w.nat.del p).get? q = some m := hq
      rw [GoMap.get?_del] at hq'
      split at hq'
      · cases hq'
      · rename_i hpq
        rcases h.tok q m hq' with h4 | h4 | ⟨fl, h4⟩
        · exact .inl h4
        · exact .inr (.inl h4)
        · rw [hh] at h4
          cases h4
          exact absurd rfl hpq
  | send ei l ho hc hok =>
    rw [List.append_nil]
    refine ⟨h.amid, h.drives, h.queue, h.since, h.hand, fun hh => ?_, h.tok⟩
    have := h.turn hh
    rw [ho] at this
    cases this
  | plan r ops' t new hr hp ht hn =>
    have ha := h.amid
    rw [hp] at ha
    exact ⟨ha.begin r ht.1 hn, h.drives, h.queue, h.since, h.hand, h.turn, h.tok⟩
  | call E' c ok rest w' hx ht hs =>
    rw [List.append_nil]
    have hx' : E' = E := hx
    subst hx'
    have ha := h.amid
    rw [ht] at ha
    obtain ⟨h1, h2⟩ := Sim.serves (n₀ := s.w.nat) (s := ⟨s.w, []⟩) hE.reg hE.unreg ⟨rfl, rfl⟩ hs
    refine ⟨ha.call, h.drives.call h1, fun y hy => (calls_queue _ h.since hy).elim (h.queue y) id, calls_since _ h.since, h.hand, h.turn, ?_⟩
    simp only
    rw [h2]
    exact Tok.calls _ h.tok
  | effect i r a b t hcalls hp ht =>
    have ha := h.amid
    rw [hp, ht] at ha
    rw [List.append_nil]
    refine ⟨?_, h.drives, h.queue, h.since, h.hand, h.turn, h.tok⟩
    simp only [ht]
    exact ha.done
  | intEffect ei t hi hp ht =>
    have ha := h.amid
    rw [hp, ht] at ha
    rw [List.append_nil]
    refine ⟨?_, h.drives, h.queue, h.since, h.hand, h.turn, h.tok⟩
    simp only [ht]
    exact ha.done

theorem J.rebase {E : Env} {base ops : List Op} {s : FSt} (h : J E base ops s) (hp : s.plan = none) : J E (base ++ ops) [] s := by
  have ha := h.amid
  rw [hp] at ha
  refine ⟨?_, h.drives, h.queue, h.since, h.hand, h.turn, h.tok⟩
  rw [hp]
  exact ha.rebase

theorem FRun.trans {cfg : Sched.Cfg} {X : Outside} {s s₁ s₂ : FSt} {ops calls chgs sg ops' calls' chgs' sg'} (h : FRun cfg X s ops calls chgs sg s₁)
    (h' : FRun cfg X s₁ ops' calls' chgs' sg' s₂) : FRun cfg X s (ops ++ ops') (calls ++ calls') (chgs ++ chgs') (sg ++ sg') s₂ := by
  induction h' with
  | refl => simpa using h
  | step _ hs ih => rw [← List.append_assoc, ← List.append_assoc, ← List.append_assoc, ← List.append_assoc]; exact ih.step hs

theorem FRun.jFrom {cfg : Sched.Cfg} {E : Env} (hE : Trg.Steady E) {base ops₁ : List Op} {s s' : FSt} {ops calls chgs sg} (hj : J E base ops₁ s)
    (h : FRun cfg (calm E) s ops calls chgs sg s') : J E base (ops₁ ++ ops) s' := by
  induction h with
  | refl => rw [List.append_nil]; exact hj
  | step _ hs ih => rw [← List.append_assoc]; exact ih.step hE hs

theorem FRun.j {cfg : Sched.Cfg} {E : Env} (hE : Trg.Steady E) {base : List Op} {s s' : FSt} {ops calls chgs sg} (hj : J E base [] s)
    (h : FRun cfg (calm E) s ops calls chgs sg s') : J E base ops s' := h.jFrom hE hj

/-! ### Flags -/

/-- The flags `fl` tell no event in `W` but `e`. -/
def Half (e W fl : Event) : Prop := ∀ e' f', (e', f') ∈ fenMeans → f' ⊑ fl → e' ⊑ W → e' = e

theorem Half.mask {e W fl : Event} (h : Half e W fl) (m : Event) : Half e W (fl &&& m) := by
  intro e' f' h1 h2 h3
  refine h e' f' h1 (fun i hi => ?_) h3
  have := h2 i hi
  simp only [BitVec.getLsbD_and, Bool.and_eq_true] at this
  exact this.1

theorem Half.decode {e W fl : Event} (h : Half e W fl) : Trg.decode fen.nat2not fl W = 0 ∨ Trg.decode fen.nat2not fl W = e := by
  by_cases hz : Trg.decode fen.nat2not fl W = 0
  · exact .inl hz
  right
  have key : ∀ i, WP.bit (Trg.decode fen.nat2not fl W) i = true → (∃ f', (e, f') ∈ fenMeans ∧ f' ⊑ fl ∧ e ⊑ W) ∧ WP.bit e i = true := by
    intro i hi
    obtain ⟨e', f', h1, h2, h3, h4⟩ := (Trg.C40_decode_fen (List.Perm.refl _) fl W i).1 hi
    have he := h e' f' h1 h2 h3
    subst he
    exact ⟨⟨f', h1, h2, h3⟩, h4⟩
  obtain ⟨i₀, hi₀⟩ : ∃ i, WP.bit (Trg.decode fen.nat2not fl W) i = true := by
    by_contra hc
    apply hz
    rw [Event.bext]
    intro i
    have : ¬ WP.bit (Trg.decode fen.nat2not fl W) i = true := fun hi => hc ⟨i, hi⟩
    have hz' : BitVec.getLsbD (0 : Event) i = false := by simp
    rw [hz']
    simpa using this
  obtain ⟨⟨f', h1, h2, h3⟩, _⟩ := key i₀ hi₀
  rw [Event.bext]
  intro i
  apply Bool.eq_iff_iff.2
  constructor
  · exact fun hi => (key i hi).2
  · exact fun hi => (Trg.C40_decode_fen (List.Perm.refl _) fl W i).2 ⟨e, f', h1, h2, h3, hi⟩

theorem Half.full {e f W fl : Event} (h : Half e W fl) (hm : (e, f) ∈ fenMeans) (hf : f ⊑ fl) (hW : e ⊑ W) : Trg.decode fen.nat2not fl W = e := by
  rcases h.decode with h0 | h0
  · have he : e ≠ 0 := (Trg.Means.plain (N := fen) (.inr ⟨rfl, hm⟩)).1
    exfalso
    apply he
    rw [Event.bext]
    intro i
    have hz' : BitVec.getLsbD (0 : Event) i = false := by simp
    rw [hz']
    by_contra hc
    have hc : WP.bit e i = true := by simpa using hc
    have := (Trg.C40_decode_fen (List.Perm.refl _) fl W i).2 ⟨e, f, hm, hf, hW, hc⟩
    rw [h0] at this
    simp at this
  · exact h0

/-- A notification of a file. -/
theorem file_process {E : Env} {s : Rec} {x : Path} {w : Trg.W} (hw : s.t.lkp.get? x = some w) (hd : w.isDir = false) (hst : E.stat x = some false) {ge : Event}
    (hge : ge &&& gone = 0) :
    (process E s x ge).1.n = s.n ++ [.assoc x (fen.encode w.all false) (E.reg x)] ∧
      (process E s x ge).2 = if Trg.decode fen.nat2not ge w.all = 0 then [] else [⟨x, Trg.decode fen.nat2not ge w.all, false⟩] := by
  unfold process
  rw [hw]
  simp only [hd, true_or, and_true, Bool.false_eq_true, if_false]
  have hn : (renew E s x w ge).n = s.n ++ [.assoc x (fen.encode w.all false) (E.reg x)] := by
    unfold renew
    simp only [hst]
    rw [if_pos hge]
  split
  · exact ⟨hn, rfl⟩
  · rw [if_neg (fun h => h hge)]
    exact ⟨hn, rfl⟩

/-! ### Counting -/

/-- The set of events that the watcher has for `x`. -/
def setOf (s : FSt) (x : Path) : Event := osOf s.log x ||| osOf s.log x.dropLast

/-- A notification of `x` with the flag `f` is on its way to the watcher. -/
def Flying (x : Path) (f : Event) (s : FSt) : Prop := (∃ a fl, (x, a, fl) ∈ s.kern.queue ∧ f ⊑ fl) ∨ ∃ ge, s.hand = some (x, ge) ∧ f ⊑ ge

/-- The changes of `x`. -/
def about (x : Path) (y : Path × Event) : Bool := decide (y.1 = x)

/-- The state of the watcher and the kernel with regard to `x`. -/
structure Track (x : Path) (e f W : Event) (s : FSt) : Prop where
  set : setOf s x = W
  queue : ∀ a fl, (x, a, fl) ∈ s.kern.queue → Half e W fl
  hand : ∀ ge, s.hand = some (x, ge) → Half e W ge
  main : (∃ a m, (x, a, m) ∈ s.kern.assoc ∧ f ⊑ m ||| exceptions) ∨ Flying x f s

/-- `m` notifications are enough for `L`, together with what is on its way. -/
def Reached (x : Path) (f : Event) (L m : Nat) (s : FSt) : Prop := L ≤ m ∨ (L ≤ m + 1 ∧ Flying x f s)

/-- No notification of `x` is on its way to the watcher. -/
def Still (x : Path) (s : FSt) : Prop := (∀ a fl, (x, a, fl) ∉ s.kern.queue) ∧ ∀ ge, s.hand ≠ some (x, ge)

/-- After `n` changes of `x`: the signals made and due are those of `m` notifications; these, and what is on its way, are at least `L`.  There are none without a change. -/
structure Count (K : Nat) (c : Nat) (x : Path) (e f : Event) (L n sg : Nat) (s : FSt) : Prop where
  fit : Fit K c (isEv e x) s.sys
  sum : ∃ m, sg + due K c (isEv e x) s.sys + K * s.out.countP (isEv e x) = K * m ∧ Reached x f L m s ∧ (0 < n → Reached x f 1 m s) ∧
    (n = 0 → m = 0 ∧ Still x s)

theorem osOf_away {x : Path} {c : Call} {ok : Bool} {l : Log} (h : Away x c) : osOf ((c, ok) :: l) x = osOf l x ∧
    osOf ((c, ok) :: l) x.dropLast = osOf l x.dropLast := by
  cases ok with
  | false => cases c <;> exact ⟨rfl, rfl⟩
  | true =>
    cases c <;> first
      | (simp only [osOf]; rw [if_neg h.1, if_neg h.2]; exact ⟨rfl, rfl⟩)
      | exact ⟨rfl, rfl⟩

theorem and_sub {f fl m : Event} (h1 : f ⊑ fl) (h2 : f ⊑ m) : f ⊑ fl &&& m := by
  intro i hi
  simp [h1 i hi, h2 i hi]

section
variable {cfg : Sched.Cfg} {E : Env} {base ops o : List Op} {k : List (Call × Bool)} {r : List (Path × Event)} {g : List (Key × EventInfo)}
  {s s' : FSt} {c : Nat} {x : Path} {e f W : Event} {K L n sg : Nat}

theorem exc_sub : ∀ f ∈ fenExceptions, f ⊑ exceptions := by
  intro f hf i hi
  have key : ∀ f ∈ fenExceptions, f &&& exceptions = f := by
    intro f hf
    simp only [fenExceptions, List.mem_cons, List.not_mem_nil, or_false] at hf
    rcases hf with rfl | rfl | rfl | rfl | rfl <;> rfl
  rw [← key f hf, BitVec.getLsbD_and, Bool.and_eq_true] at hi
  exact hi.2

/-- The entry of `x` in the table. -/
theorem J.entry (hj : J E base ops s) (hE : Trg.Steady E) (hx : GoodPath x) (hlen : 2 ≤ x.length) (hst : E.stat x = some false)
    (hsk : E.opn x ≠ .skip) (hm : (e, f) ∈ fenMeans) (hW : e ⊑ setOf s x) :
    ∃ w, s.w.lkp.get? x = some w ∧ w.isDir = false ∧ w.all = setOf s x ∧ s.w.nat.get? x = some (fen.encode w.all false) ∧
      (f ⊑ fen.encode w.all false ∨ f ∈ fenExceptions) ∧ f ⊑ fen.encode w.all false ||| exceptions := by
  have hmeans : Trg.Means fen e f := .inr ⟨rfl, hm⟩
  have h0 := hmeans.plain.1
  obtain ⟨w, k1, k2, k3, k4⟩ := Trg.entry_of hE hj.drives (hj.amid.valid factsP) hx hlen hst hsk (by
    intro hz
    unfold setOf at hW
    rw [hz] at hW
    exact h0 (Event.sub_zero hW))
  refine ⟨w, k1, k2, k3, k4, ?_⟩
  rcases hmeans.reports (w := w.all) (by rw [k3]; exact hW) false with h | ⟨_, h⟩
  · exact ⟨.inl h, h.trans (Event.sub_or_left _ _)⟩
  · refine ⟨.inr h, ?_⟩
    exact (exc_sub f h).trans (Event.sub_or_right _ _)

/-- After a change of `x` a notification is on its way. -/
theorem Track.flies (ht : Track x e f W s) (h0 : f ≠ 0) {fl : Event} (hf : f ⊑ fl) : Flying x f { s with kern := s.kern.change x fl } := by
  rcases ht.main with ⟨a, m, h1, h2⟩ | h1
  · rcases change_assoc (p := x) (fl := fl) h1 with ⟨_, _, h3⟩ | ⟨h3, _⟩
    · exact .inl ⟨a, _, h3, and_sub hf h2⟩
    · exfalso
      apply h3
      refine ⟨rfl, fun hz => h0 ?_⟩
      have := and_sub hf h2
      rw [hz] at this
      exact Event.sub_zero this
  · rcases h1 with ⟨a, fl', h1, h2⟩ | h1
    · exact .inl ⟨a, fl', List.mem_append_left _ h1, h2⟩
    · exact .inr h1

theorem Flying.change (h : Flying x f s) (p : Path) (fl : Event) : Flying x f { s with kern := s.kern.change p fl } := by
  rcases h with ⟨a, fl', h1, h2⟩ | h1
  · exact .inl ⟨a, fl', List.mem_append_left _ h1, h2⟩
  · exact .inr h1

theorem Flying.wait {s : FSt} {x p : Path} {f : Event} {a : Nat} {fl : Event} (h : Flying x f s) (hh : s.hand = none) :
    Flying x f { s with hand := some (p, fl), kern := { s.kern with queue := s.kern.queue.erase (p, a, fl) } } := by
  rcases h with ⟨a', fl', h1, h2⟩ | ⟨ge, h1, _⟩
  · by_cases he : (x, a', fl') = (p, a, fl)
    · cases he
      exact .inr ⟨_, rfl, h2⟩
    · exact .inl ⟨a', fl', (List.mem_erase_of_ne he).2 h1, h2⟩
  · rw [hh] at h1; cases h1

theorem flag_ne (hm : (e, f) ∈ fenMeans) : f ≠ 0 := by
  have : ∀ y ∈ fenMeans, y.2 ≠ 0 := by decide
  exact this _ hm

theorem Track.step (hj : J E base ops s) (hE : Trg.Steady E) (hx : GoodPath x) (hlen : 2 ≤ x.length) (hst : E.stat x = some false)
    (hsk : E.opn x ≠ .skip) (hm : (e, f) ∈ fenMeans) (hW : e ⊑ W) (ht : Track x e f W s) (hs : FStep cfg (calm E) s o k r g s')
    (hk : ∀ y ∈ k, Away x y.1) (hr : ∀ fl, (x, fl) ∈ r → f ⊑ fl ∧ Half e W fl) : Track x e f W s' := by
  obtain ⟨w, k1, k2, k3, k4, _, k5⟩ := hj.entry hE hx hlen hst hsk hm (by rw [ht.set]; exact hW)
  cases hs with
  | go l sys' htr hl => exact ⟨ht.set, ht.queue, ht.hand, ht.main⟩
  | change p fl hxc =>
    refine ⟨ht.set, fun a fl' hq => ?_, ht.hand, ?_⟩
    · rcases change_queue hq with hq | ⟨a', m, _, h1⟩
      · exact ht.queue a fl' hq
      · cases h1
        exact (hr fl (by simp)).2.mask _
    · by_cases hp : p = x
      · subst hp
        exact .inr (ht.flies (flag_ne hm) (hr fl (by simp)).1)
      · rcases ht.main with ⟨a, m, h1, h2⟩ | h1
        · rcases change_assoc (p := p) (fl := fl) h1 with ⟨h3, _⟩ | ⟨_, h3⟩
          · exact absurd h3.symm hp
          · exact .inl ⟨a, m, h3, h2⟩
        · exact .inr (h1.change p fl)
  | wait p a fl hh ho hp =>
    refine ⟨ht.set, fun a' fl' hq => ht.queue a' fl' (List.mem_of_mem_erase hq), fun ge he => ?_, ?_⟩
    · cases he
      exact ht.queue a _ hp
    · rcases ht.main with h1 | h1
      · exact .inl h1
      · exact .inr (h1.wait hh)
  | process E' p ge hxe hh =>
    have hx' : E' = E := hxe
    subst hx'
    have hge := hj.hand _ _ hh
    have hkeep := calls_keep (x := x) (process E' (s.woken p) p ge).1.n (k := s.kern)
      (Keeps.process (s := s.woken p) (fun _ h => by cases h) p hge)
    refine ⟨ht.set, fun a fl hq => ht.queue a fl ((hkeep.2 a fl).1 hq), fun _ he => (by cases he), ?_⟩
    by_cases hp : p = x
    · subst hp
      left
      obtain ⟨h1, _⟩ := file_process (E := E') (s := s.woken p) (x := p) (w := w) k1 k2 hst hge
      simp only [h1]
      refine ⟨s.kern.next, _, ?_, k5⟩
      simp [FSt.woken, Kern.call, hE.reg p]
    · rcases ht.main with ⟨a, m, h1, h2⟩ | ⟨a, fl, h1, h2⟩ | ⟨ge', h1, _⟩
      · exact .inl ⟨a, m, hkeep.1 a m h1, h2⟩
      · exact .inr (.inl ⟨a, fl, (hkeep.2 a fl).2 h1, h2⟩)
      · rw [hh] at h1
        cases h1
        exact absurd rfl hp
  | send ei l ho hc hok => exact ⟨ht.set, ht.queue, ht.hand, ht.main⟩
  | plan r ops' t new hr' hp ht' hn => exact ⟨ht.set, ht.queue, ht.hand, ht.main⟩
  | call E' c' ok rest w' hxe ht' hs =>
    have ha : Away x c' := hk (c', ok) (by simp)
    have hkeep := calls_keep (x := x) w'.n (k := s.kern) (Keeps.serves (s := ⟨s.w, []⟩) (fun _ h => by cases h) hlen ha hs)
    refine ⟨?_, fun a fl hq => ht.queue a fl ((hkeep.2 a fl).1 hq), ht.hand, ?_⟩
    · unfold setOf
      simp only [osOf_away ha]
      exact ht.set
    · rcases ht.main with ⟨a, m, h1, h2⟩ | ⟨a, fl, h1, h2⟩ | h1
      · exact .inl ⟨a, m, hkeep.1 a m h1, h2⟩
      · exact .inr (.inl ⟨a, fl, (hkeep.2 a fl).2 h1, h2⟩)
      · exact .inr (.inr h1)
  | effect i r a b t hcalls hp ht' => exact ⟨ht.set, ht.queue, ht.hand, ht.main⟩
  | intEffect ei t hi hp ht' => exact ⟨ht.set, ht.queue, ht.hand, ht.main⟩

theorem Reached.mono {s s' : FSt} {m : Nat} (h : Reached x f L m s) (hf : Flying x f s → Flying x f s') : Reached x f L m s' :=
  h.imp id fun h => ⟨h.1, hf h.2⟩

theorem Count.step (hj : J E base ops s) (hE : Trg.Steady E) (hx : GoodPath x) (hlen : 2 ≤ x.length)
    (hst : E.stat x = some false) (hsk : E.opn x ≠ .skip) (hm : (e, f) ∈ fenMeans) (hW : e ⊑ W) (ht : Track x e f W s)
    (hK : ∀ ei, isEv e x ei = true → (Y.sends s.sys.tree ei).count (.user c) = K)
    (hc : Count K c x e f L n sg s) (hs : FStep cfg (calm E) s o k r g s') (hk : ∀ y ∈ k, Away x y.1)
    (hr : ∀ fl, (x, fl) ∈ r → f ⊑ fl ∧ Half e W fl) :
    Count K c x e f L (n + r.countP (about x)) (sg + g.countP (isSig c (isEv e x))) s' := by
  obtain ⟨hfit, m, h1, h2, h3, hz0⟩ := hc
  cases hs with
  | go l sys' htr hl =>
    obtain ⟨h4, h5⟩ := due_step (P := P) (f := isEv e x) htr hl hK hfit
    exact ⟨h5, m, by dsimp only; omega, h2, h3, hz0⟩
  | change p fl hxc =>
    refine ⟨hfit, m, h1, h2.mono fun h => h.change p fl, fun hn => ?_, fun hn => ?_⟩
    by_cases hp : p = x
    · subst hp
      exact .inr ⟨by omega, ht.flies (flag_ne hm) (hr fl (by simp)).1⟩
    · simp only [about, List.countP_cons, List.countP_nil, decide_eq_false hp, Bool.false_eq_true, if_false, Nat.add_zero] at hn
      exact (h3 hn).mono fun h => h.change p fl
    · by_cases hp : p = x
      · subst hp
        simp [about] at hn
      · obtain ⟨i1, i2, i3⟩ := hz0 (by omega)
        refine ⟨i1, fun a fl' hq => ?_, i3⟩
        rcases change_queue hq with hq | ⟨a', m', _, h4⟩
        · exact i2 a fl' hq
        · cases h4
          exact hp rfl
  | wait p a fl hh ho hp =>
    refine ⟨hfit, m, h1, h2.mono fun h => h.wait hh, fun hn => (h3 hn).mono fun h => h.wait hh, fun hn => ?_⟩
    obtain ⟨i1, i2, i3⟩ := hz0 hn
    refine ⟨i1, fun a' fl' hq => i2 a' fl' (List.mem_of_mem_erase hq), fun ge he => ?_⟩
    cases he
    exact i2 a _ hp
  | process E' p ge hxe hh =>
    have hx' : E' = E := hxe
    subst hx'
    have hout : s.out = [] := hj.turn (by rw [hh]; simp)
    have hge := hj.hand _ _ hh
    obtain ⟨w, k1, k2, k3, _⟩ := hj.entry hE hx hlen hst hsk hm (by rw [ht.set]; exact hW)
    have hkeep := calls_keep (x := x) (process E' (s.woken p) p ge).1.n (k := s.kern)
      (Keeps.process (s := s.woken p) (fun _ h => by cases h) p hge)
    by_cases hpx : p = x
    · subst hpx
      obtain ⟨_, hev⟩ := file_process (E := E') (s := s.woken p) (x := p) (w := w) k1 k2 hst hge
      have hhalf := ht.hand _ hh
      rw [k3, ht.set] at hev
      have h0 : e ≠ 0 := (Trg.Means.plain (N := fen) (.inr ⟨rfl, hm⟩)).1
      -- what is left on its way
      have hfly : Flying p f s → f ⊑ ge ∨ Flying p f
          { s with
            w := (process E' (s.woken p) p ge).1.t, kern := (process E' (s.woken p) p ge).1.n.foldl Kern.call s.kern
            out := (process E' (s.woken p) p ge).2.map info, hand := none } := by
        rintro (⟨a, fl, h4, h5⟩ | ⟨ge', h4, h5⟩)
        · exact .inr (.inl ⟨a, fl, (hkeep.2 a fl).2 h4, h5⟩)
        · rw [hh] at h4
          cases h4
          exact .inl h5
      rcases hhalf.decode with hz | hz
      · rw [if_pos hz] at hev
        have hng : ¬ f ⊑ ge := by
          intro hfg
          rw [hhalf.full hm hfg hW] at hz
          exact h0 hz
        refine ⟨hfit, m, ?_, h2.mono fun h => (hfly h).resolve_left hng, fun hn => (h3 hn).mono fun h => (hfly h).resolve_left hng,
          fun hn => absurd hh ((hz0 hn).2.2 ge)⟩
        simp only [hout, List.countP_nil, hev, List.map_nil] at h1 ⊢
        omega
      · rw [if_neg (by rw [hz]; exact h0), hz] at hev
        refine ⟨hfit, m + 1, ?_, ?_, fun hn => ?_, fun hn => absurd hh ((hz0 hn).2.2 ge)⟩
        · simp only [hout, List.countP_nil, hev, List.map_cons, List.map_nil, List.countP_cons, isEv, info, Nat.mul_add] at h1 ⊢
          simp
          omega
        · left
          rcases h2 with h2 | ⟨h2, _⟩ <;> omega
        · left; omega
    · have hev : ((process E' (s.woken p) p ge).2.map info).countP (isEv e x) = 0 := by
        rw [List.countP_eq_zero]
        intro ei hei
        rw [List.mem_map] at hei
        obtain ⟨ev, h4, rfl⟩ := hei
        have h5 := (Sim.process (n₀ := (Trg.retrieved fen s.w p).nat) (s := s.woken p) hE.reg hE.unreg ⟨rfl, rfl⟩ p ge).2
        rw [h5] at h4
        have : ev.path ≠ x := (Has.process (fd := w.fd) (s := Trg.retrieved fen s.w p) ⟨w, k1, rfl⟩ hE.reg p hge).2 hpx ev h4
        simp [isEv, info, this]
      have hfly : Flying x f s → Flying x f
          { s with
            w := (process E' (s.woken p) p ge).1.t, kern := (process E' (s.woken p) p ge).1.n.foldl Kern.call s.kern
            out := (process E' (s.woken p) p ge).2.map info, hand := none } := by
        rintro (⟨a, fl, h4, h5⟩ | ⟨ge', h4, h5⟩)
        · exact .inl ⟨a, fl, (hkeep.2 a fl).2 h4, h5⟩
        · rw [hh] at h4
          cases h4
          exact absurd rfl hpx
      refine ⟨hfit, m, ?_, h2.mono hfly, fun hn => (h3 hn).mono hfly, fun hn => ?_⟩
      rotate_left
      · obtain ⟨i1, i2, i3⟩ := hz0 hn
        exact ⟨i1, fun a fl hq => i2 a fl ((hkeep.2 a fl).1 hq), fun _ he => by cases he⟩
      simp only [hout, List.countP_nil, hev] at h1 ⊢
      omega
  | send ei l ho hc hok =>
    refine ⟨hfit, m, ?_, h2, h3, hz0⟩
    simp only [due, ho, List.countP_append, List.countP_cons, List.countP_nil, Nat.mul_add] at h1 ⊢
    omega
  | plan r ops' t new hr' hp ht' hn => exact ⟨hfit, m, h1, h2, h3, hz0⟩
  | call E' c' ok rest w' hxe htodo hs =>
    have ha : Away x c' := hk (c', ok) (by simp)
    have hkeep := calls_keep (x := x) w'.n (k := s.kern) (Keeps.serves (s := ⟨s.w, []⟩) (fun _ h => by cases h) hlen ha hs)
    have hfly : Flying x f s → Flying x f { s with w := w'.t, kern := w'.n.foldl Kern.call s.kern, todo := rest, log := (c', ok) :: s.log } := by
      rintro (⟨a, fl, h4, h5⟩ | h4)
      · exact .inl ⟨a, fl, (hkeep.2 a fl).2 h4, h5⟩
      · exact .inr h4
    refine ⟨hfit, m, h1, h2.mono hfly, fun hn => (h3 hn).mono hfly, fun hn => ?_⟩
    obtain ⟨i1, i2, i3⟩ := hz0 hn
    exact ⟨i1, fun a fl hq => i2 a fl ((hkeep.2 a fl).1 hq), i3⟩
  | effect i r a b t hcalls hp ht' => exact ⟨hfit, m, by simp only [due, List.countP_nil] at h1 ⊢; omega, h2, h3, hz0⟩
  | intEffect ei t hi hp ht' => exact ⟨hfit, m, by simp only [due, List.countP_nil] at h1 ⊢; omega, h2, h3, hz0⟩

theorem FRun.track {ops₁ : List Op} (hj : J E base ops₁ s) (hE : Trg.Steady E) (hx : GoodPath x) (hlen : 2 ≤ x.length) (hst : E.stat x = some false)
    (hsk : E.opn x ≠ .skip) (hm : (e, f) ∈ fenMeans) (hW : e ⊑ W) (ht : Track x e f W s) {calls : List (Call × Bool)} {chgs : List (Path × Event)}
    {sgs : List (Key × EventInfo)} (h : FRun cfg (calm E) s ops calls chgs sgs s')
    (hk : ∀ y ∈ calls, Away x y.1) (hr : ∀ fl, (x, fl) ∈ chgs → f ⊑ fl ∧ Half e W fl) : Track x e f W s' := by
  induction h with
  | refl => exact ht
  | step h1 hs ih =>
    exact (ih (fun y hy => hk y (by simp [hy])) (fun fl hfl => hr fl (by simp [hfl]))).step (h1.jFrom hE hj) hE hx hlen hst hsk hm hW hs
      (fun y hy => hk y (by simp [hy])) (fun fl hfl => hr fl (by simp [hfl]))

theorem FRun.count {ops₁ : List Op} (hj : J E base ops₁ s) (hE : Trg.Steady E) (hx : GoodPath x) (hlen : 2 ≤ x.length) (hst : E.stat x = some false)
    (hsk : E.opn x ≠ .skip) (hm : (e, f) ∈ fenMeans) (hW : e ⊑ W) (ht : Track x e f W s) {calls : List (Call × Bool)} {chgs : List (Path × Event)}
    {sgs : List (Key × EventInfo)} (h : FRun cfg (calm E) s ops calls chgs sgs s')
    (hk : ∀ y ∈ calls, Away x y.1) (hr : ∀ fl, (x, fl) ∈ chgs → f ⊑ fl ∧ Half e W fl) (hops : ∀ op ∈ base ++ (ops₁ ++ ops), NoFail c op)
    (hl : ∀ op ∈ ops₁ ++ ops, Leaves P c x op) (hK : copies (regOf P base) c e x = K) (hc : Count K c x e f L n sg s) :
    Count K c x e f L (n + chgs.countP (about x)) (sg + sgs.countP (isSig c (isEv e x))) s' := by
  induction h with
  | refl => simpa using hc
  | @step ops calls chgs sgs o k r g s1 s2 h1 hs ih =>
    have hops' : ∀ op ∈ base ++ (ops₁ ++ ops), NoFail c op := fun a ha => hops a (by
      simp only [List.mem_append] at ha ⊢; rcases ha with h | h | h; exact .inl h; exact .inr (.inl h); exact .inr (.inr (.inl h)))
    have hl' : ∀ op ∈ ops₁ ++ ops, Leaves P c x op := fun a ha => hl a (by
      simp only [List.mem_append] at ha ⊢; rcases ha with h | h; exact .inl h; exact .inr (.inl h))
    have hk' : ∀ y ∈ calls, Away x y.1 := fun y hy => hk y (by simp [hy])
    have hr' : ∀ fl, (x, fl) ∈ chgs → f ⊑ fl ∧ Half e W fl := fun fl hfl => hr fl (by simp [hfl])
    have hj1 := h1.jFrom hE hj
    have hplain := Trg.Means.plain (N := fen) (.inr ⟨rfl, hm⟩)
    have ht1 := h1.track hj hE hx hlen hst hsk hm hW ht hk' hr'
    rw [List.countP_append, List.countP_append, ← Nat.add_assoc, ← Nat.add_assoc]
    exact (ih hk' hr' hops' hl').step hj1 hE hx hlen hst hsk hm hW ht1
      (fun ei hei => (hj1.amid.copies factsP hops' hl' hplain.2.1 hplain.2.2.1 hlen hei).trans hK) hs (fun y hy => hk y (by simp [hy]))
      (fun fl hfl => hr fl (by simp [hfl]))
theorem Reached.quiet {m : Nat} (h : Reached x f L m s) (hq : s.Quiet) : L ≤ m := by
  rcases h with h | ⟨_, ⟨a, fl, h, _⟩ | ⟨ge, h, _⟩⟩
  · exact h
  · rw [hq.1] at h; cases h
  · rw [hq.2.1] at h; cases h

theorem Track.start (hj : J E base ops s) (hE : Trg.Steady E) (hx : GoodPath x) (hlen : 2 ≤ x.length) (hst : E.stat x = some false)
    (hsk : E.opn x ≠ .skip) (hm : (e, f) ∈ fenMeans) (hW : e ⊑ setOf s x) (hq : s.Quiet) : Track x e f (setOf s x) s := by
  obtain ⟨w, _, _, _, h1, _, h2⟩ := hj.entry hE hx hlen hst hsk hm hW
  refine ⟨rfl, fun a fl h => ?_, fun ge h => ?_, ?_⟩
  · rw [hq.1] at h; cases h
  · rw [hq.2.1] at h; cases h
  · rcases hj.tok x _ h1 with ⟨a, h3⟩ | ⟨a, fl, h3⟩ | ⟨fl, h3⟩
    · exact .inl ⟨a, _, h3, h2⟩
    · rw [hq.1] at h3; cases h3
    · rw [hq.2.1] at h3; cases h3

theorem Count.start (hq : s.Quiet) : Count K c x e f 0 0 0 s := by
  refine ⟨fun i ei d a hmem => ?_, 0, ?_, .inl (Nat.zero_le _), fun hlt => absurd hlt (by decide), fun _ => ⟨rfl, ?_, ?_⟩⟩
  · rw [hq.2.2.2.2] at hmem; cases hmem
  · simp [due, hq.2.2.1, hq.2.2.2.1, hq.2.2.2.2]
  · intro a fl h; rw [hq.1] at h; cases h
  · intro ge h; rw [hq.2.1] at h; cases h

end

/-- **C107 (partial).**  The whole program and the event ports of Solaris and illumos, in any execution from the start: any number of goroutines call Watch and
Stop, any schedule of these, of the goroutines of the tree and of the watcher.  The set of files stays as it is, nothing is renamed or removed, and the OS returns
no errors for what exists.  At some moment (`s`) at which no operation is under way and nothing is on its way, channel `c` is registered for `e` on the
file `x` or on its directory; no non-recursive Watch with `c` has failed.  From then on, as long as there is no Watch or Stop for `c`, and
the operations of other channels do not make the tree call the watcher for `x` or its directory:
* at every moment an association of `x` with the port reports the flag `f` of `e`, or a notification of `x` is on its way to the watcher;
* if every change of `x` tells `e` and no other event that is asked for: when nothing is on its way again, `c` was signalled `e` for `x` as often as its
  registrations ask for, times a number of notifications, which is not zero if and only if there was a change.
Missing: with changes that tell different events this is false (`C107_lost_refuted`), and there is no bound for the number of notifications of one change
(`C107_refuted`). -/
theorem C107_fen_partial {cfg : Sched.Cfg} {E : Env} (hE : Trg.Steady E) {ops₀ : List Op} {calls₀ : List (Call × Bool)} {chgs₀ : List (Path × Event)}
    {sg₀ : List (Key × EventInfo)} {s : FSt} (h0 : FRun cfg (calm E) FSt.init ops₀ calls₀ chgs₀ sg₀ s) (hplan : s.plan = none) (hq : s.Quiet)
    {c : Nat} {x : Path} (hx : GoodPath x) (hlen : 2 ≤ x.length) (hst : E.stat x = some false) (hsk : E.opn x ≠ .skip) {e f : Event}
    (hm : (e, f) ∈ fenMeans) (hreg : wants (regOf P ops₀) c e x = true ∨ wants (regOf P ops₀) c e x.dropLast = true)
    (hfail : ∀ op ∈ ops₀, NoFail c op) {ops : List Op} {calls : List (Call × Bool)} {chgs : List (Path × Event)} {sg : List (Key × EventInfo)} {s' : FSt}
    (h : FRun cfg (calm E) s ops calls chgs sg s') (hl : ∀ op ∈ ops, Leaves P c x op) (hk : ∀ y ∈ calls, Away x y.1) :
    ((∃ a m, (x, a, m) ∈ s'.kern.assoc ∧ (f ⊑ m ∨ f ∈ fenExceptions)) ∨ (∃ a fl, (x, a, fl) ∈ s'.kern.queue) ∨ ∃ fl, s'.hand = some (x, fl)) ∧
    ((∀ fl, (x, fl) ∈ chgs → f ⊑ fl ∧ ∀ e' f', (e', f') ∈ fenMeans → f' ⊑ fl → e' ⊑ osOf s.log x ||| osOf s.log x.dropLast → e' = e) → s'.Quiet →
      1 ≤ copies (regOf P ops₀) c e x ∧
      ∃ k, sg.countP (Gets c e x) = copies (regOf P ops₀) c e x * k ∧ (0 < chgs.countP (fun y => decide (y.1 = x)) ↔ 0 < k)) := by
  have hj : J E ops₀ [] s := (h0.j hE (J.init E)).rebase hplan
  have hplain := Trg.Means.plain (N := fen) (.inr ⟨rfl, hm⟩)
  have hops : ∀ op ∈ ops₀ ++ ops, NoFail c op := by
    intro op hop
    rcases List.mem_append.1 hop with h | h
    · exact hfail op h
    · exact (hl op h).noFail
  have hW' : ∀ {ops : List Op} {s' : FSt}, J E ops₀ ops s' → (∀ op ∈ ops₀ ++ ops, NoFail c op) → (∀ op ∈ ops, Leaves P c x op) → e ⊑ setOf s' x := by
    intro ops s' hj hops hl
    rcases hreg with hreg | hreg
    · exact (hj.amid.backed factsP hops List.prefix_rfl hl hplain.2.1 hreg).trans (Event.sub_or_left _ _)
    · exact (hj.amid.backed factsP hops (List.dropLast_prefix x) hl hplain.2.1 hreg).trans (Event.sub_or_right _ _)
  have hj' := h.j hE hj
  have hW := hW' hj (by simpa using hfail) (by simp)
  constructor
  · obtain ⟨w, _, _, _, h1, h2, _⟩ := hj'.entry hE hx hlen hst hsk hm (hW' hj' hops hl)
    rcases hj'.tok x _ h1 with ⟨a, h3⟩ | h3 | h3
    · exact .inl ⟨a, _, h3, h2⟩
    · exact .inr (.inl h3)
    · exact .inr (.inr h3)
  · intro htell hq'
    have ht := Track.start hj hE hx hlen hst hsk hm hW hq
    obtain ⟨_, m, h1, _, h3, h4⟩ := h.count hj hE hx hlen hst hsk hm hW ht hk htell hops hl rfl (Count.start hq)
    rw [Nat.zero_add] at h1 h3 h4
    have hgets : sg.countP (Gets c e x) = sg.countP (isSig c (isEv e x)) := by
      apply List.countP_congr
      intro y _
      simp [Gets, isSig, isEv, Bool.and_assoc]
    refine ⟨?_, m, ?_, ?_⟩
    · unfold copies
      rcases hreg with hreg | hreg <;> rw [hreg] <;> simp only [if_true] <;> omega
    · rw [hgets]
      simpa [due, hq'.2.2.1, hq'.2.2.2.1, hq'.2.2.2.2] using h1
    · constructor
      · intro hn
        exact (h3 hn).quiet hq'
      · intro hm
        by_contra hn
        have := (h4 (by unfold about; omega)).1
        omega

/-- **C107 (partial), last change.**  In the situation of `C107_fen_partial`: after every change of `x`, the channel is signalled again, as often as its
registrations ask for at least, before nothing is on its way. -/
theorem C107_again_partial {cfg : Sched.Cfg} {E : Env} (hE : Trg.Steady E) {ops₀ : List Op} {calls₀ : List (Call × Bool)} {chgs₀ : List (Path × Event)}
    {sg₀ : List (Key × EventInfo)} {s : FSt} (h0 : FRun cfg (calm E) FSt.init ops₀ calls₀ chgs₀ sg₀ s) (hplan : s.plan = none) (hq : s.Quiet)
    {c : Nat} {x : Path} (hx : GoodPath x) (hlen : 2 ≤ x.length) (hst : E.stat x = some false) (hsk : E.opn x ≠ .skip) {e f : Event}
    (hm : (e, f) ∈ fenMeans) (hreg : wants (regOf P ops₀) c e x = true ∨ wants (regOf P ops₀) c e x.dropLast = true)
    (hfail : ∀ op ∈ ops₀, NoFail c op) {ops₁ ops₂ o : List Op} {calls₁ calls₂ k : List (Call × Bool)} {chgs₁ chgs₂ : List (Path × Event)} {fl : Event}
    {sg₁ sg₂ g : List (Key × EventInfo)} {s₁ s₂ s₃ : FSt}
    (h1 : FRun cfg (calm E) s ops₁ calls₁ chgs₁ sg₁ s₁) (h2 : FStep cfg (calm E) s₁ o k [(x, fl)] g s₂)
    (h3 : FRun cfg (calm E) s₂ ops₂ calls₂ chgs₂ sg₂ s₃)
    (hl : ∀ op ∈ ops₁ ++ ops₂, Leaves P c x op) (hk : ∀ y ∈ calls₁ ++ calls₂, Away x y.1)
    (htell : ∀ fl', (x, fl') ∈ chgs₁ ++ (x, fl) :: chgs₂ →
      f ⊑ fl' ∧ ∀ e' f', (e', f') ∈ fenMeans → f' ⊑ fl' → e' ⊑ osOf s.log x ||| osOf s.log x.dropLast → e' = e) (hq' : s₃.Quiet) :
    1 ≤ copies (regOf P ops₀) c e x ∧ copies (regOf P ops₀) c e x ≤ sg₂.countP (Gets c e x) := by
  have hj : J E ops₀ [] s := (h0.j hE (J.init E)).rebase hplan
  have hplain := Trg.Means.plain (N := fen) (.inr ⟨rfl, hm⟩)
  have hW : e ⊑ setOf s x := by
    rcases hreg with hreg | hreg
    · exact (hj.amid.backed factsP (by simpa using hfail) List.prefix_rfl (by simp) hplain.2.1 hreg).trans (Event.sub_or_left _ _)
    · exact (hj.amid.backed factsP (by simpa using hfail) (List.dropLast_prefix x) (by simp) hplain.2.1 hreg).trans (Event.sub_or_right _ _)
  have ht := Track.start hj hE hx hlen hst hsk hm hW hq
  have hops : ∀ op ∈ ops₀ ++ (ops₁ ++ ops₂), NoFail c op := by
    intro op hop
    rcases List.mem_append.1 hop with h | h
    · exact hfail op h
    · exact (hl op h).noFail
  have hops1 : ∀ op ∈ ops₀ ++ ([] ++ ops₁), NoFail c op := fun a ha => hops a (by
    simp only [List.mem_append, List.not_mem_nil, false_or] at ha ⊢; rcases ha with h | h; exact .inl h; exact .inr (.inl h))
  have hl1 : ∀ op ∈ [] ++ ops₁, Leaves P c x op := fun a ha => hl a (by simp at ha; simp [ha])
  have hk1 : ∀ y ∈ calls₁, Away x y.1 := fun y hy => hk y (by simp [hy])
  have hr1 : ∀ fl', (x, fl') ∈ chgs₁ → f ⊑ fl' ∧ Half e (setOf s x) fl' := fun fl' h => htell fl' (by simp [h])
  have hr2 : ∀ fl', (x, fl') ∈ chgs₂ → f ⊑ fl' ∧ Half e (setOf s x) fl' := fun fl' h => htell fl' (by simp [h])
  have hj1 := h1.jFrom hE hj
  have ht1 := h1.track hj hE hx hlen hst hsk hm hW ht hk1 hr1
  have hc1 := h1.count hj hE hx hlen hst hsk hm hW ht hk1 hr1 hops1 hl1 rfl (Count.start hq)
  obtain ⟨rfl, rfl, rfl, hfly⟩ : o = [] ∧ k = [] ∧ g = [] ∧ Flying x f s₂ := by
    have hfl := (htell fl (by simp)).1
    clear hc1 hj1
    generalize hch : [(x, fl)] = ch at h2
    cases h2 with
    | change p fl' hxc =>
      cases hch
      exact ⟨rfl, rfl, rfl, ht1.flies (flag_ne hm) hfl⟩
    | _ => cases hch
  have hj2 := hj1.step hE h2
  rw [List.append_nil] at hj2
  have hrc : ∀ fl', (x, fl') ∈ [(x, fl)] → f ⊑ fl' ∧ Half e (setOf s x) fl' := fun fl' h => htell fl' (by simp at h; simp [h])
  have ht2 := ht1.step hj1 hE hx hlen hst hsk hm hW h2 (by simp) hrc
  have hc2 := hc1.step hj1 hE hx hlen hst hsk hm hW ht1 (fun ei hei => hj1.amid.copies factsP hops1 hl1 hplain.2.1 hplain.2.2.1 hlen hei) h2 (by simp) hrc
  obtain ⟨hf2, m, g1, _, g4, g5⟩ := hc2
  have hc3 := h3.count (L := m + 1) hj2 hE hx hlen hst hsk hm hW ht2 (fun y hy => hk y (by simp [hy])) hr2 hops hl rfl
    ⟨hf2, m, g1, .inr ⟨Nat.le_refl _, hfly⟩, g4, g5⟩
  obtain ⟨_, m', i1, i3, _⟩ := hc3
  have hgets : sg₂.countP (Gets c e x) = sg₂.countP (isSig c (isEv e x)) := by
    apply List.countP_congr
    intro y _
    simp [Gets, isSig, isEv, Bool.and_assoc]
  rw [hgets]
  have hone : 1 ≤ copies (regOf P ops₀) c e x := by
    unfold copies
    rcases hreg with hreg | hreg <;> rw [hreg] <;> simp only [if_true] <;> omega
  refine ⟨hone, ?_⟩
  simp only [due, hq'.2.2.1, hq'.2.2.2.1, hq'.2.2.2.2, List.map_nil, List.sum_nil, List.countP_nil, Nat.mul_zero, Nat.add_zero, Nat.zero_add] at i1
  have hmm : m + 1 ≤ m' := i3.quiet hq'
  have := Nat.mul_le_mul_left (copies (regOf P ops₀) c e x) hmm
  rw [Nat.mul_add, Nat.mul_one] at this
  generalize copies (regOf P ops₀) c e x * m' = a at *
  generalize copies (regOf P ops₀) c e x * m = b at *
  omega

/-- Every execution of the whole program is, without the watcher, an execution of `Sched` with the same signals, so all that is proved of these (C05, C30, C46)
holds of the whole program. -/
theorem C107_parts {cfg : Sched.Cfg} {X : Outside} {ops calls chgs sg} {s : FSt} (h : FRun cfg X FSt.init ops calls chgs sg s) :
    ∃ t, Sched.Exec Y cfg t s.sys ∧ Linux.signals t = sg := by
  suffices h' : (∃ t, Sched.Exec Y cfg t s.sys ∧ Linux.signals t = sg) ∧ s.sys.os = [] ∧ ∀ r t, s.plan = some (r, t) → Y.step s.sys.tree r t from h'.1
  have sig1 : ∀ t l, Linux.signals (t ++ [l]) = Linux.signals t ++ sigs l := by intro t l; simp [Linux.signals]
  induction h with
  | refl => exact ⟨⟨[], .nil, rfl⟩, rfl, by intro r t h; cases h⟩
  | step _ hs ih =>
    obtain ⟨⟨t, h1, h2⟩, h3, h4⟩ := ih
    cases hs with
    | go l sys' htr hfree =>
      refine ⟨⟨t ++ [l], h1.snoc htr, by rw [sig1, h2]⟩, ?_, ?_⟩
      · exact (Plain.free_os (P := P) htr hfree).trans h3
      · intro r t' hp
        simp only [free_tree (P := P) htr hfree]
        exact h4 r t' hp
    | send ei l ho hc hok =>
      refine ⟨⟨t ++ [.report [ei]] ++ [.push ei], ?_, ?_⟩, h3, h4⟩
      · have h6 := (h1.snoc (.report [ei] (by simpa using hok) h3)).snoc (.push ei [] rfl hc)
        simp only [h3] at h6 ⊢
        exact h6
      · rw [sig1, sig1, h2]; simp [sigs]
    | plan r ops' t' new hr hp ht hn =>
      exact ⟨⟨t, h1, by simpa using h2⟩, h3, by rintro r t ⟨⟩; exact Plain.plans_step (P := P) ht⟩
    | effect i r a b t' hcalls hp ht =>
      refine ⟨⟨t ++ [.effect i r], h1.snoc (.effect i r a b t' hcalls (h4 _ _ hp) fun _ => h3), by rw [sig1, h2]; rfl⟩, h3, ?_⟩
      intro r t h; cases h
    | intEffect ei t' hi hp ht =>
      refine ⟨⟨t ++ [.intEffect (.internal ei)], h1.snoc (.intEffect ei t' hi (h4 _ _ hp) fun _ => h3), by rw [sig1, h2]; rfl⟩, h3, ?_⟩
      intro r t h; cases h
    | change p fl hx => exact ⟨⟨t, h1, by simpa using h2⟩, h3, h4⟩
    | wait p a fl hh ho hp => exact ⟨⟨t, h1, by simpa using h2⟩, h3, h4⟩
    | process E p ge hx hh => exact ⟨⟨t, h1, by simpa using h2⟩, h3, h4⟩
    | call E c ok rest w' hx ht hs => exact ⟨⟨t, h1, by simpa using h2⟩, h3, h4⟩

/-! ### Nothing is left -/

/-- **C108 (partial).**  In any execution of the whole program as in C107, at a moment at which no operation is under way: if each channel that was passed to
Watch was stopped since, nothing is in the watcher's table, except files with empty sets, for which the watcher last asked the kernel to report nothing.
Missing: the kernel may have associations from before, also of files that are not in the table (`C108_refuted`). -/
theorem C108_left_partial {cfg : Sched.Cfg} {E : Env} (hE : Trg.Steady E) {ops calls chgs sg} {s : FSt}
    (h : FRun cfg (calm E) FSt.init ops calls chgs sg s) (hplan : s.plan = none) (hstop : ∀ c, ¬ NonRec.Pending c ops) (q : Path) :
    (s.w.lkp.get? q = none ∧ s.w.nat.get? q = none) ∨
      ∃ w, s.w.lkp.get? q = some w ∧ w.all = 0 ∧ s.w.nat.get? q = some 0 ∧ E.stat q = some w.isDir := by
  have hj := h.j hE (J.init E)
  have ha := hj.amid
  rw [hplan] at ha
  obtain ⟨h1, h2, _⟩ := ha.idle
  have h3 := NonRec.C13_all_stopped factsP h1 hstop
  have hz : ∀ q, Spec.Trg.want E.stat (Trg.skips E) (osOf s.log) q = none := by
    intro q
    have h0 : ∀ p, osOf s.log p = 0 := fun p => by rw [h2]; exact (h3 p).1
    unfold Spec.Trg.want Spec.Trg.indirect
    split
    · rfl
    · rw [if_pos]
      right
      rw [h0]
      split
      · decide
      · rw [h0]; decide
  rcases Trg.C66_any_partial hE (hj.drives.runs hE (hj.amid.valid factsP)) q with h4 | ⟨_, d, h5, h6, h7⟩
  · left
    rw [hz] at h4
    exact ⟨Trg.look_none h4.1, h4.2⟩
  · right
    obtain ⟨w, k1, k2, k3, k4⟩ := Trg.look_some h6
    refine ⟨w, k1, ?_, ?_, by rw [k2]; exact h5⟩
    · unfold Trg.W.all
      rw [k3, k4]
      show (0 : Event) ||| 0 = 0
      decide
    · rw [h7]
      cases d <;> rfl

/-! ### The premises can be met -/

namespace Ex
open Trg.Ex (E7 kd ke kf steady7)

def d : Path := [kd]
def e : Path := [kd, ke]
def x : Path := [kd, ke, kf]
def cfg : Sched.Cfg := ⟨2, 2, true, false⟩
def Wr : Event := P.write
def Re : Event := P.remove
def req1 : Sched.Req := .watch e false 1 Wr
def op1 : Op := .watch e false 1 Wr true
def t1 : St := (NonRec.watchOp P .ok (.dir .nil) NonRec.init e false 1 Wr).1

theorem goodE : GoodPath e := by simp [e, GoodPath, kd, ke]
theorem goodD : GoodPath d := by simp [d, GoodPath, kd]
theorem goodX : GoodPath x := by simp [x, GoodPath, kd, ke, kf]
theorem uW : NonRec.UserEvents P Wr := by unfold NonRec.UserEvents; decide
theorem uR : NonRec.UserEvents P Re := by unfold NonRec.UserEvents; decide

theorem step1 : NonRec.Step P true NonRec.init op1 t1 :=
  NonRec.Step.watch (O := .ok) goodE uW (by simp [DirTree.Named, Entries.Named]) (fun _ _ => rfl)

/-- The watcher watches `/d/e` for Write. -/
def w1 : Trg.St := (Watch E7 ⟨{}, []⟩ e Wr).1.t
def n1 : List NCall := (Watch E7 ⟨{}, []⟩ e Wr).1.n

/-- Channel 1 watches `/d/e` for Write; the call has returned. -/
def s1 : FSt :=
  { sys := { Sched.State.init Y with tree := t1, next := 1 }, w := w1, kern := n1.foldl Kern.call {}, log := [(.watch e Wr, true)] }

theorem run1 : FRun cfg (calm E7) FSt.init [op1] [(.watch e Wr, true)] [] [] s1 := by
  have h := FRun.refl (cfg := cfg) (X := calm E7) (s := FSt.init)
  have h := h.step (.go _ _ (.call (Y := Y) req1 (show GoodPath e ∧ NonRec.UserEvents P Wr from ⟨goodE, uW⟩) trivial) trivial)
  have h := h.step (.go _ _ (.lock 0 req1 [] [] rfl (by rintro ⟨_, _, _, _, h⟩; cases h)
    (by rintro ⟨_, _, h | h⟩ <;> cases h <;> contradiction) (by rintro ⟨_, h | h⟩ <;> cases h)) trivial)
  have h := h.step (.plan req1 [op1] t1 [(.watch e Wr, true)] (.inl ⟨0, .head _⟩) rfl ⟨NonRec.Steps.nil.snoc step1, op1, ⟨_, rfl⟩, .inl rfl⟩ rfl)
  have h := h.step (.call E7 (.watch e Wr) true [] _ rfl rfl (.watch e Wr (by decide)))
  have h := h.step (.effect 0 req1 [] [] t1 rfl rfl rfl)
  have h := h.step (.go _ _ (.unlock 0 req1 [] [] rfl) trivial)
  have h := h.step (.go _ _ (.ret 0 req1 [] [] rfl) trivial)
  exact h

theorem quiet1 : s1.Quiet := ⟨rfl, rfl, rfl, rfl, rfl⟩

def ei : EventInfo := { event := Wr, path := x, isDir := some false }

/-- The state with the same tree and the same table. -/
def st (t : Trg.St) (k : Kern) (n : Nat) : FSt :=
  { sys := { Sched.State.init Y with tree := t1, next := n }, w := t, kern := k, log := [(.watch e Wr, true)] }

/-- Associations: two of `/d/e` and `/d/e/f`, and those in `l` of the file. -/
def fan (a b : Nat) (l : List Nat) : List (Path × Nat × Event) := (x, b, 0x2) :: (e, a, 0x2) :: l.map fun i => (x, i, 0x2)

theorem scan (t : Trg.St) (ht : t.lkp = w1.lkp) : ∃ t', t'.lkp = w1.lkp ∧
    process E7 ⟨Trg.retrieved fen t e, []⟩ e 0x2 = (⟨t', [.assoc e 0x2 true, .assoc x 0x2 true]⟩, []) := by
  obtain ⟨l, n, k, g⟩ := t
  cases ht
  exact ⟨(process E7 ⟨Trg.retrieved fen ⟨w1.lkp, n, k, g⟩ e, []⟩ e 0x2).1.t, rfl, rfl⟩

theorem told (t : Trg.St) (ht : t.lkp = w1.lkp) : ∃ t', t'.lkp = w1.lkp ∧
    process E7 ⟨Trg.retrieved fen t x, []⟩ x 0x2 = (⟨t', [.assoc x 0x2 true]⟩, [⟨x, Wr, false⟩]) := by
  obtain ⟨l, n, k, g⟩ := t
  cases ht
  exact ⟨(process E7 ⟨Trg.retrieved fen ⟨w1.lkp, n, k, g⟩ x, []⟩ x 0x2).1.t, rfl, rfl⟩

theorem flags2 : (0x2 : Event) &&& (0x2 ||| exceptions) = 0x2 := by decide
theorem two_ne : (0x2 : Event) ≠ 0 := by decide
theorem x_ne_e : x ≠ e := by decide
theorem hitE (i : Nat) : hit e 0x2 (e, i, 0x2) = true := decide_eq_true ⟨rfl, by simp only [flags2]; exact two_ne⟩
theorem hitX (i : Nat) : hit x 0x2 (x, i, 0x2) = true := decide_eq_true ⟨rfl, by simp only [flags2]; exact two_ne⟩
theorem hitEX (i : Nat) : hit e 0x2 (x, i, 0x2) = false := decide_eq_false fun h => x_ne_e h.1
theorem hitXE (i : Nat) : hit x 0x2 (e, i, 0x2) = false := decide_eq_false fun h => x_ne_e h.1.symm

/-- Something changes in `/d/e`. -/
theorem round {t : Trg.St} (ht : t.lkp = w1.lkp) {k : Kern} {a b n : Nat} {l : List Nat} (hk : k.assoc = fan a b l) (hq : k.queue = []) :
    ∃ t' k' a' b', FRun cfg (calm E7) (st t k n) [] [] [(e, 0x2)] [] (st t' k' n) ∧ t'.lkp = w1.lkp ∧ k'.assoc = fan a' b' (b :: l) ∧ k'.queue = [] := by
  have h := FRun.refl (cfg := cfg) (X := calm E7) (s := st t k n)
  have h := h.step (.change e 0x2 (by unfold calm; decide))
  have hq1 : (k.change e 0x2).queue = [(e, a, 0x2)] := by
    simp only [Kern.change, hk, hq, fan, List.filter_cons, hitE, hitEX, List.filter_map, if_true, if_false, List.nil_append, Bool.false_eq_true]
    have : (List.filter (hit e 2 ∘ fun i => (x, i, 2)) l) = [] := by
      rw [List.filter_eq_nil_iff]; intro i _; simp only [Function.comp, hitEX, Bool.not_false, Bool.false_eq_true, not_false_eq_true]
    rw [this]
    simp only [List.map_cons, List.map_nil, flags2]
  have hk1 : (k.change e 0x2).assoc = (x, b, 0x2) :: l.map fun i => (x, i, 0x2) := by
    simp only [Kern.change, hk, fan, List.filter_cons, hitE, hitEX, Bool.not_true, Bool.not_false, if_true, if_false, Bool.false_eq_true, List.filter_map]
    congr 2
    rw [List.filter_eq_self]; intro i _; simp only [Function.comp, hitEX, Bool.not_false, Bool.false_eq_true, not_false_eq_true]
  have h := h.step (.wait e a 0x2 rfl rfl (by show _ ∈ (k.change e 0x2).queue; rw [hq1]; exact .head _))
  have h := h.step (.process E7 e 0x2 rfl rfl)
  obtain ⟨t', h1, h2⟩ := scan t ht
  simp only [FSt.woken, st] at h
  rw [h2] at h
  refine ⟨t', _, k.next, k.next + 1, h, h1, ?_, ?_⟩
  · simp only [List.foldl_cons, List.foldl_nil, Kern.call, if_true, hk1]
    rfl
  · show (k.change e 0x2).queue.erase (e, a, 0x2) = []
    rw [hq1]
    exact List.erase_cons_head ..

/-- The file has changed, and all its associations have reported it. -/
theorem drain : ∀ (l : List Nat) {t : Trg.St} (_ : t.lkp = w1.lkp) {k : Kern} {n : Nat} (_ : k.queue = l.map fun i => (x, i, 0x2)),
    ∃ t' k' n', FRun cfg (calm E7) (st t k n) [] [] [] (List.replicate l.length (.user 1, ei)) (st t' k' n') ∧ t'.lkp = w1.lkp ∧ k'.queue = []
  | [], t, ht, k, n, hq => ⟨t, k, n, .refl, ht, hq⟩
  | a :: l, t, ht, k, n, hq => by
    have h := FRun.refl (cfg := cfg) (X := calm E7) (s := st t k n)
    have h := h.step (.wait x a 0x2 rfl rfl (by show _ ∈ k.queue; rw [hq]; exact .head _))
    have h := h.step (.process E7 x 0x2 rfl rfl)
    obtain ⟨t', h1, h2⟩ := told t ht
    simp only [FSt.woken, st] at h
    rw [h2] at h
    have h := h.step (.send ei [] rfl (show 0 < 2 by decide) goodX)
    have h := h.step (.go _ _ (.spawn ei [] rfl) trivial)
    have h := h.step (.go _ _ (.rlock n ei [] [] rfl (by rintro ⟨_, _, h | h⟩ <;> cases h)
      (by rintro ⟨_, h | h⟩ <;> cases h) (by rintro _ (⟨_, _, h⟩ | ⟨_, h⟩) <;> cases h)) trivial)
    have hs : NonRec.sends P t1.root ei = [.user 1] := by decide
    have h := h.step (.go _ _ (.pick n ei [] (.user 1) [] [] rfl (by show _ < (NonRec.sends P t1.root ei).count _; rw [hs]; decide)) trivial)
    have h := h.step (.go _ _ (.send n ei [] (.user 1) [] [] rfl) trivial)
    have hh : Y.hand t1 ei = false := by decide
    have h := h.step (.go _ _ (.fin n ei [.user 1] [] [] rfl (by intro k; exact Nat.le_of_eq (congrArg (List.count k) hs)) hh) trivial)
    obtain ⟨t'', k'', n'', h3, h4, h5⟩ := drain l h1 (k := List.foldl Kern.call { k with queue := k.queue.erase (x, a, 0x2) } [.assoc x 0x2 true]) (n := n + 1) (by
      show k.queue.erase (x, a, 0x2) = _
      rw [hq]
      exact List.erase_cons_head ..)
    refine ⟨t'', k'', n'', ?_, h4, h5⟩
    have h6 := h.trans h3
    exact h6

theorem many : ∀ m, ∃ t k a b n l, FRun cfg (calm E7) s1 [] [] (List.replicate m (e, 0x2)) [] (st t k n) ∧ t.lkp = w1.lkp ∧ k.assoc = fan a b l ∧ k.queue = [] ∧
    l.length = m
  | 0 => ⟨w1, n1.foldl Kern.call {}, 0, 1, 1, [], .refl, rfl, rfl, rfl, rfl⟩
  | m + 1 => by
    obtain ⟨t, k, a, b, n, l, h, h1, h2, h3, h4⟩ := many m
    obtain ⟨t', k', a', b', h5, h6, h7, h8⟩ := round (n := n) h1 h2 h3
    refine ⟨t', k', a', b', n, b :: l, ?_, h6, h7, h8, by simp [h4]⟩
    rw [List.replicate_succ']
    exact h.trans h5

/-- After `m` changes of the directory, a change of the file is signalled `m + 1` times. -/
theorem many_signals (m : Nat) : ∃ s', FRun cfg (calm E7) s1 [] [] (List.replicate m (e, 0x2) ++ [(x, 0x2)]) (List.replicate (m + 1) (.user 1, ei)) s' ∧
    s'.plan = none ∧ s'.Quiet := by
  obtain ⟨t, k, a, b, n, l, h, h1, h2, h3, h4⟩ := many m
  have h := h.step (.change x 0x2 (by unfold calm; decide))
  obtain ⟨t', k', n', h5, h6, h7⟩ := drain (b :: l) h1 (k := k.change x 0x2) (n := n) (by
    simp only [Kern.change, h2, h3, fan, List.filter_cons, hitX, hitXE, List.filter_map, if_true, if_false, List.nil_append, Bool.false_eq_true]
    have : (List.filter (hit x 2 ∘ fun i => (x, i, 2)) l) = l := by
      rw [List.filter_eq_self]; intro i _; simp only [Function.comp, hitX]
    rw [this]
    simp only [List.map_cons, List.map_map, Function.comp_def, flags2])
  refine ⟨st t' k' n', ?_, rfl, h7, rfl, rfl, rfl, rfl⟩
  have h8 := h.trans h5
  simp only [List.append_nil, List.nil_append, List.length_cons, h4] at h8
  exact h8

/-- The premises of `C107_fen_partial`: here with three notifications. -/
example : ∃ s' k, FRun cfg (calm E7) s1 [] [] [(e, 0x2), (e, 0x2), (x, 0x2)] [(.user 1, ei), (.user 1, ei), (.user 1, ei)] s' ∧
    [(Key.user 1, ei), (.user 1, ei), (.user 1, ei)].countP (Gets 1 Wr x) = copies (regOf P [op1]) 1 Wr x * k ∧ 0 < k := by
  obtain ⟨s', h, _, hq⟩ := many_signals 2
  have h1 := (C107_fen_partial steady7 run1 rfl quiet1 (c := 1) (x := x) goodX (by decide) rfl (by decide) (e := Wr) (f := 0x2) (by decide) (.inr (by decide))
    (by simp [op1, NoFail]) h (by simp) (by simp)).2 ?_ hq
  · obtain ⟨_, k, h2, h3⟩ := h1
    exact ⟨s', k, h, h2, h3.1 (by decide)⟩
  · intro fl hfl
    obtain rfl : fl = 0x2 := by
      simp only [List.replicate, List.cons_append, List.nil_append, List.mem_cons, Prod.mk.injEq, List.not_mem_nil, or_false] at hfl
      rcases hfl with h | h | h <;> exact h.2
    refine ⟨by decide, fun e' f' h1 h2 h3 => ?_⟩
    have : ∀ y ∈ fenMeans, y.2 ⊑ (0x2 : Event) → y.1 ⊑ osOf s1.log x ||| osOf s1.log x.dropLast → y.1 = Wr := by decide
    exact this _ h1 h2 h3

/-- The premises of `C107_again_partial`. -/
example : ∃ s₁ s₂ s', FRun cfg (calm E7) s1 [] [] [(e, 0x2)] [] s₁ ∧ FStep cfg (calm E7) s₁ [] [] [(x, 0x2)] [] s₂ ∧
    FRun cfg (calm E7) s₂ [] [] [] [(.user 1, ei), (.user 1, ei)] s' ∧
    copies (regOf P [op1]) 1 Wr x ≤ [(Key.user 1, ei), (.user 1, ei)].countP (Gets 1 Wr x) := by
  obtain ⟨t, k, a, b, n, l, h, h1, h2, h3, h4⟩ := many 1
  obtain ⟨t', k', n', h5, h6, h7⟩ := drain (b :: l) h1 (k := k.change x 0x2) (n := n) (by
    simp only [Kern.change, h2, h3, fan, List.filter_cons, hitX, hitXE, List.filter_map, if_true, if_false, List.nil_append, Bool.false_eq_true]
    have : (List.filter (hit x 2 ∘ fun i => (x, i, 2)) l) = l := by
      rw [List.filter_eq_self]; intro i _; simp only [Function.comp, hitX]
    rw [this]
    simp only [List.map_cons, List.map_map, Function.comp_def, flags2])
  simp only [List.length_cons, h4] at h5
  have h2' : FStep cfg (calm E7) (st t k n) [] [] [(x, 0x2)] [] (st t (k.change x 0x2) n) := .change x 0x2 (by unfold calm; decide)
  refine ⟨_, _, _, h, h2', h5, (C107_again_partial steady7 run1 rfl quiet1 (c := 1) (x := x) goodX (by decide) rfl (by decide) (e := Wr) (f := 0x2)
    (by decide) (.inr (by decide)) (by simp [op1, NoFail]) h h2' h5 (by simp) (by simp) ?_ ⟨h7, rfl, rfl, rfl, rfl⟩).2⟩
  intro fl hfl
  obtain rfl : fl = 0x2 := by
    simp only [List.replicate, List.cons_append, List.nil_append, List.mem_cons, Prod.mk.injEq, List.not_mem_nil, or_false] at hfl
    rcases hfl with h | h <;> exact h.2
  refine ⟨by decide, fun e' f' h1 h2 h3 => ?_⟩
  have : ∀ y ∈ fenMeans, y.2 ⊑ (0x2 : Event) → y.1 ⊑ osOf s1.log x ||| osOf s1.log x.dropLast → y.1 = Wr := by decide
  exact this _ h1 h2 h3
end Ex

/-- **C107: there is no bound for the number of signals of one change.**  Channel 1 is registered once, for Write on `/d/e`.  For every `m` there is an execution
in which the file `/d/e/f` changes once, after `m` changes of its directory, and the channel is signalled `m + 1` times. -/
theorem C107_refuted : ∃ (E : Env) (ops₀ : List Op) (calls₀ : List (Call × Bool)) (s : FSt) (x : Path),
    Trg.Steady E ∧ FRun ⟨2, 2, true, false⟩ (calm E) FSt.init ops₀ calls₀ [] [] s ∧ s.plan = none ∧ s.Quiet ∧ copies (regOf P ops₀) 1 P.write x = 1 ∧
    ∀ m, ∃ chgs sg s', FRun ⟨2, 2, true, false⟩ (calm E) s [] [] chgs sg s' ∧ s'.plan = none ∧ s'.Quiet ∧
      chgs.countP (fun y => decide (y.1 = x)) = 1 ∧ sg.countP (Gets 1 P.write x) = m + 1 := by
  refine ⟨Trg.Ex.E7, [Ex.op1], _, Ex.s1, Ex.x, Trg.Ex.steady7, Ex.run1, rfl, Ex.quiet1, by decide, fun m => ?_⟩
  obtain ⟨s', h1, h2, h3⟩ := Ex.many_signals m
  refine ⟨_, _, s', h1, h2, h3, ?_, ?_⟩
  · rw [List.countP_append, List.countP_replicate, if_neg (by simpa using Ex.x_ne_e.symm)]
    simp
  · rw [List.countP_replicate, if_pos (by decide)]

namespace LostEx
open Ex
open Trg.Ex (E7 kd ke kf steady7)

def A : Event := 0x404
def req3 : Sched.Req := .watch e false 1 A
def op3 : Op := .watch e false 1 A true
def t3 : St := (NonRec.watchOp P .ok (.dir .nil) NonRec.init e false 1 A).1
theorem uA : NonRec.UserEvents P A := by unfold NonRec.UserEvents; decide
theorem step3 : NonRec.Step P true NonRec.init op3 t3 :=
  NonRec.Step.watch (O := .ok) goodE uA (by simp [DirTree.Named, Entries.Named]) (fun _ _ => rfl)

/-- Channel 1 watches `/d/e` for Write and FileAttrib; the call has returned. -/
def s3 : FSt :=
  { sys := { Sched.State.init Y with tree := t3, next := 1 }, w := (Watch E7 ⟨{}, []⟩ e A).1.t, kern := (Watch E7 ⟨{}, []⟩ e A).1.n.foldl Kern.call {}
    log := [(.watch e A, true)] }

theorem run3 : FRun cfg (calm E7) FSt.init [op3] [(.watch e A, true)] [] [] s3 := by
  have h := FRun.refl (cfg := cfg) (X := calm E7) (s := FSt.init)
  have h := h.step (.go _ _ (.call (Y := Y) req3 (show GoodPath e ∧ NonRec.UserEvents P A from ⟨goodE, uA⟩) trivial) trivial)
  have h := h.step (.go _ _ (.lock 0 req3 [] [] rfl (by rintro ⟨_, _, _, _, h⟩; cases h)
    (by rintro ⟨_, _, h | h⟩ <;> cases h <;> contradiction) (by rintro ⟨_, h | h⟩ <;> cases h)) trivial)
  have h := h.step (.plan req3 [op3] t3 [(.watch e A, true)] (.inl ⟨0, .head _⟩) rfl ⟨NonRec.Steps.nil.snoc step3, op3, ⟨_, rfl⟩, .inl rfl⟩ rfl)
  have h := h.step (.call E7 (.watch e A) true [] _ rfl rfl (.watch e A (by decide)))
  have h := h.step (.effect 0 req3 [] [] t3 rfl rfl rfl)
  have h := h.step (.go _ _ (.unlock 0 req3 [] [] rfl) trivial)
  have h := h.step (.go _ _ (.ret 0 req3 [] [] rfl) trivial)
  exact h

/-- `/d/e/f` is written, and its attributes are changed before the watcher has handled the first notification. -/
theorem run4 : ∃ s', FRun cfg (calm E7) s3 [] [] [(x, 0x2), (x, 0x4)] [(.user 1, ei)] s' ∧ s'.plan = none ∧ s'.Quiet := by
  have h := FRun.refl (cfg := cfg) (X := calm E7) (s := s3)
  have h := h.step (.change x 0x2 (by unfold calm; decide))
  have h := h.step (.change x 0x4 (by unfold calm; decide))
  have h := h.step (.wait x 1 0x2 rfl rfl (by decide))
  have h := h.step (.process E7 x 0x2 rfl (by decide))
  have h := h.step (.send ei [] (by decide) (by decide) goodX)
  have h := h.step (.go _ _ (.spawn ei [] rfl) trivial)
  have h := h.step (.go _ _ (.rlock 1 ei [] [] rfl (by rintro ⟨_, _, h | h⟩ <;> cases h)
    (by rintro ⟨_, h | h⟩ <;> cases h) (by rintro _ (⟨_, _, h⟩ | ⟨_, h⟩) <;> cases h)) trivial)
  have h := h.step (.go _ _ (.pick 1 ei [] (.user 1) [] [] rfl (by decide)) trivial)
  have h := h.step (.go _ _ (.send 1 ei [] (.user 1) [] [] rfl) trivial)
  have hs : NonRec.sends P t3.root ei = [.user 1] := by decide
  have h := h.step (.go _ _ (.fin 1 ei [.user 1] [] [] rfl (by intro k; exact Nat.le_of_eq (congrArg (List.count k) hs)) (by decide)) trivial)
  exact ⟨_, h, rfl, by decide, rfl, rfl, rfl, rfl⟩
end LostEx

/-- **C107 is false of the code if changes tell different events**: channel 1 is registered for Write and FileAttrib on `/d/e`.  The file `/d/e/f` is written and,
before the watcher has handled the notification, its attributes change.  The kernel has no association of the file at that moment.  Nothing is on its way any
more, and FileAttrib was not signalled. -/
theorem C107_lost_refuted : ∃ (E : Env) (ops₀ : List Op) (calls₀ : List (Call × Bool)) (s s' : FSt) (sg : List (Key × EventInfo)) (x : Path),
    Trg.Steady E ∧ FRun ⟨2, 2, true, false⟩ (calm E) FSt.init ops₀ calls₀ [] [] s ∧ s.plan = none ∧ s.Quiet ∧
    wants (regOf P ops₀) 1 0x4 x.dropLast = true ∧ (0x4, 0x4) ∈ fenMeans ∧
    FRun ⟨2, 2, true, false⟩ (calm E) s [] [] [(x, 0x2), (x, 0x4)] sg s' ∧ s'.plan = none ∧ s'.Quiet ∧ sg.countP (Gets 1 0x4 x) = 0 := by
  obtain ⟨s', h1, h2, h3⟩ := LostEx.run4
  exact ⟨Trg.Ex.E7, [LostEx.op3], _, LostEx.s3, s', _, Ex.x, Trg.Ex.steady7, LostEx.run3, rfl, ⟨rfl, rfl, rfl, rfl, rfl⟩, by decide, by decide, h1, h2, h3, by decide⟩

/-! ### C108 is false -/

namespace LeftEx
open Ex
open Trg.Ex (E7 kd ke kf steady7)

theorem step5 : NonRec.Step P true t1 (.stop 1) (NonRec.stop P .ok t1 1) := NonRec.Step.stop (fun _ => rfl)

/-- Something changes in `/d/e`, then the channel is stopped. -/
theorem run5 : ∃ calls s', FRun cfg (calm E7) FSt.init [op1, .stop 1] calls [(e, 0x2)] [] s' ∧ s'.plan = none ∧ s'.Quiet ∧
    s'.kern.assoc = [(x, 1, 0x2)] := by
  have h := run1
  have h := h.step (.change e 0x2 (by unfold calm; decide))
  have h := h.step (.wait e 0 0x2 rfl rfl (by decide))
  have h := h.step (.process E7 e 0x2 rfl (by decide))
  have h := h.step (.go _ _ (.call (Y := Y) (Sched.Req.stop 1) trivial trivial) trivial)
  have h := h.step (.go _ _ (.lock (Y := Y) 1 (Sched.Req.stop 1) [] [] rfl (by rintro ⟨_, _, _, _, h⟩; cases h)
    (by rintro ⟨_, _, h | h⟩ <;> cases h <;> contradiction) (by rintro ⟨_, h | h⟩ <;> cases h)) trivial)
  have h := h.step (.plan (.stop 1) [.stop 1] (NonRec.stop P .ok t1 1) [(.unwatch e, true)] (.inl ⟨1, .head _⟩) rfl
    ⟨NonRec.Steps.nil.snoc step5, .stop 1, rfl, .inl rfl⟩ rfl)
  have h := h.step (.call E7 (.unwatch e) true [] _ rfl rfl (.unwatch e (by decide)))
  have h := h.step (.effect 1 (.stop 1) [] [] _ rfl rfl rfl)
  have h := h.step (.go _ _ (.unlock (Y := Y) 1 (Sched.Req.stop 1) [] [] rfl) trivial)
  have h := h.step (.go _ _ (.ret (Y := Y) 1 (Sched.Req.stop 1) [] [] rfl) trivial)
  exact ⟨_, _, h, rfl, ⟨by decide, rfl, by decide, rfl, rfl⟩, by decide⟩

theorem stopped : ∀ c, ¬ NonRec.Pending c [op1, .stop 1] := by
  rintro c ⟨a, b, p, r, e, res, h, hn⟩
  rcases a with _ | ⟨a1, _ | ⟨a2, a⟩⟩ <;> simp [op1] at h
  obtain ⟨⟨_, _, rfl, _⟩, rfl⟩ := h
  simp at hn

/-- The premises of `C108_left_partial`. -/
example : ∃ s' : FSt, s'.kern.assoc = [(x, 1, 0x2)] ∧ ∀ q, (s'.w.lkp.get? q = none ∧ s'.w.nat.get? q = none) ∨
      ∃ w, s'.w.lkp.get? q = some w ∧ w.all = 0 ∧ s'.w.nat.get? q = some 0 ∧ E7.stat q = some w.isDir := by
  obtain ⟨_, s', h1, h2, _, h3⟩ := run5
  exact ⟨s', h3, C108_left_partial steady7 h1 h2 stopped⟩
end LeftEx

/-- **C108 is false of the code**: after the only channel was stopped, the kernel still has an association of a file, which asks for changes. -/
theorem C108_refuted : ∃ (E : Env) (ops : List Op) (calls : List (Call × Bool)) (chgs : List (Path × Event)) (s : FSt) (q : Path) (a : Nat),
    Trg.Steady E ∧ FRun ⟨2, 2, true, false⟩ (calm E) FSt.init ops calls chgs [] s ∧ s.plan = none ∧ s.Quiet ∧ (∀ c, ¬ NonRec.Pending c ops) ∧
    (q, a, 0x2) ∈ s.kern.assoc := by
  obtain ⟨calls, s', h1, h2, h3, h4⟩ := LeftEx.run5
  exact ⟨Trg.Ex.E7, _, calls, _, s', Ex.x, 1, Trg.Ex.steady7, h1, h2, h3, LeftEx.stopped, by rw [h4]; exact .head _⟩

end Fen
end Verif
