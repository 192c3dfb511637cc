/-
FEN: the watcher of `Fen` is the one of `Trigger`, and which associations it has.

Used by `PropsFen`; no definitions of the code here.
-/
import Verif.Fen
import Verif.BsdFd

namespace Verif
namespace Fen
open Trg (fen Env Res Mode W Ev Away)

/-- What the call does to the table of what was asked for last. -/
def natOf (n : GoMap Path Event) : NCall → GoMap Path Event
  | .assoc p m ok => if ok then n.set p m else n
  | .dissoc p => n.del p
  | .reassoc p m ok => if ok then n.set p m else n
  | .keep _ => n

/-- `s` with the recorded calls is the state `t` of `Trigger`; before the calls the table was `n₀`. -/
structure Sim (n₀ : GoMap Path Event) (s : Rec) (t : Trg.St) : Prop where
  st : s.t = t
  n : t.nat = s.n.foldl natOf n₀

section
variable {E : Env} {n₀ : GoMap Path Event} {s : Rec} {t : Trg.St} {p x : Path} {e : Event}

theorem W.add_all (w w' : W) (m : Mode) (e : Event) (h1 : w.eDir = w'.eDir) (h2 : w.eNonDir = w'.eNonDir) : (w.add m e).all = (w'.add m e).all := by
  cases m <;> simp [W.add, W.all, h1, h2]

theorem sw_nat (hr : ∀ p, E.reg p = true) (t : Trg.St) (p : Path) (e : Event) (m : Mode) (d : Bool) :
    (Trg.singlewatch fen E t p e m d).1.nat = (swCalls E t p e m d).foldl natOf t.nat := by
  unfold Trg.singlewatch swCalls
  cases t.lkp.get? p with
  | none =>
    simp only
    cases E.opn p with
    | ok =>
      simp only [hr p, if_true, List.foldl_cons, List.foldl_nil, natOf]
      rw [W.add_all { fd := t.next, isDir := d } { fd := 0, isDir := d } m e rfl rfl]
    | skip => rfl
    | err x => rfl
  | some w => simp [hr p, natOf]

theorem Sim.singlewatch (h : Sim n₀ s t) (hr : ∀ p, E.reg p = true) (p : Path) (e : Event) (m : Mode) (d : Bool) :
    Sim n₀ (singlewatch E s p e m d).1 (Trg.singlewatch fen E t p e m d).1 ∧ (singlewatch E s p e m d).2 = (Trg.singlewatch fen E t p e m d).2 := by
  obtain ⟨rfl, hn⟩ := h
  refine ⟨⟨rfl, ?_⟩, rfl⟩
  simp only [Fen.singlewatch, List.foldl_append]
  rw [← hn]
  exact sw_nat hr _ _ _ _ _

theorem su_nat (hr : ∀ p, E.reg p = true) (hu : ∀ p, E.unreg p = true) (t : Trg.St) (p : Path) (m : Mode) :
    (Trg.singleunwatch fen E t p m).1.nat = (suCalls E t p m).foldl natOf t.nat := by
  unfold Trg.singleunwatch suCalls
  cases t.lkp.get? p with
  | none => rfl
  | some w =>
    simp only [hu p, if_true, true_and, List.foldl_cons, natOf]
    split
    · unfold Trg.singlewatch
      simp [GoMap.get?_set, hr p, natOf]
    · rfl

theorem Sim.singleunwatch (h : Sim n₀ s t) (hr : ∀ p, E.reg p = true) (hu : ∀ p, E.unreg p = true) (p : Path) (m : Mode) :
    Sim n₀ (singleunwatch E s p m).1 (Trg.singleunwatch fen E t p m).1 ∧ (singleunwatch E s p m).2 = (Trg.singleunwatch fen E t p m).2 := by
  obtain ⟨rfl, hn⟩ := h
  refine ⟨⟨rfl, ?_⟩, rfl⟩
  simp only [Fen.singleunwatch, List.foldl_append]
  rw [← hn]
  exact su_nat hr hu _ _ _

/-- Loops with the same steps. -/
theorem walkLoop_sim {σ τ : Type} {R : σ → τ → Prop} {f : σ → Comp × Bool → σ × Res} {g : τ → Comp × Bool → τ × Res}
    (hf : ∀ s t x, R s t → R (f s x).1 (g t x).1 ∧ (f s x).2 = (g t x).2) : ∀ (l : List (Comp × Bool)) (s : σ) (t : τ), R s t →
    R (Trg.walkLoop f s l).1 (Trg.walkLoop g t l).1 ∧ (Trg.walkLoop f s l).2 = (Trg.walkLoop g t l).2
  | [], s, t, h => ⟨h, rfl⟩
  | x :: l, s, t, h => by
    obtain ⟨h1, h2⟩ := hf s t x h
    unfold Trg.walkLoop
    rcases hfx : f s x with ⟨s1, r1⟩
    rcases hgx : g t x with ⟨t1, r2⟩
    rw [hfx, hgx] at h1 h2
    simp only at h1 h2
    subst h2
    cases r1 with
    | ok => exact walkLoop_sim hf l s1 t1 h1
    | already => exact ⟨h1, rfl⟩
    | notWatched => exact ⟨h1, rfl⟩
    | err b => exact ⟨h1, rfl⟩

theorem walk_sim {σ τ : Type} {R : σ → τ → Prop} {f : σ → Comp × Bool → σ × Res} {g : τ → Comp × Bool → τ × Res}
    (hf : ∀ s t x, R s t → R (f s x).1 (g t x).1 ∧ (f s x).2 = (g t x).2) (p : Path) {s : σ} {t : τ} (h : R s t) :
    R (Trg.walk E p f s).1 (Trg.walk E p g t).1 ∧ (Trg.walk E p f s).2 = (Trg.walk E p g t).2 := by
  unfold Trg.walk
  cases E.list p with
  | error b => exact ⟨h, rfl⟩
  | ok l => exact walkLoop_sim hf l s t h

theorem Sim.watchKid (hr : ∀ p, E.reg p = true) (h : Sim n₀ s t) (y : Comp × Bool) :
    Sim n₀ (watchKid E p e s y).1 (Trg.watchKid fen E p e t y).1 ∧ (watchKid E p e s y).2 = (Trg.watchKid fen E p e t y).2 := by
  obtain ⟨h1, h2⟩ := h.singlewatch hr (Trg.join p y.1) e .ndir y.2
  unfold Fen.watchKid Trg.watchKid
  rcases h3 : Fen.singlewatch E s (Trg.join p y.1) e .ndir y.2 with ⟨s1, r1⟩
  rcases h4 : Trg.singlewatch fen E t (Trg.join p y.1) e .ndir y.2 with ⟨t1, r2⟩
  rw [h3, h4] at h1 h2
  simp only at h1 h2
  subst h2
  cases r1 <;> exact ⟨h1, rfl⟩

theorem Sim.watch (hr : ∀ p, E.reg p = true) (h : Sim n₀ s t) (p : Path) (e : Event) (d : Bool) :
    Sim n₀ (watch E s p e d).1 (Trg.watch fen E t p e d).1 ∧ (watch E s p e d).2 = (Trg.watch fen E t p e d).2 := by
  obtain ⟨h1, h2⟩ := h.singlewatch hr p e .dir d
  unfold Fen.watch Trg.watch
  rcases h3 : Fen.singlewatch E s p e .dir d with ⟨s1, r1⟩
  rcases h4 : Trg.singlewatch fen E t p e .dir d with ⟨t1, r2⟩
  rw [h3, h4] at h1 h2
  simp only at h1 h2
  subst h2
  have key : Sim n₀ (if d then Trg.walk E p (Fen.watchKid E p e) s1 else (s1, .ok)).1 (if d then Trg.walk E p (Trg.watchKid fen E p e) t1 else (t1, .ok)).1 ∧
      (if d then Trg.walk E p (Fen.watchKid E p e) s1 else (s1, .ok)).2 = (if d then Trg.walk E p (Trg.watchKid fen E p e) t1 else (t1, .ok)).2 := by
    cases d
    · exact ⟨h1, rfl⟩
    · exact walk_sim (fun s t y h => h.watchKid hr y) p h1
  cases r1 with
  | ok => exact key
  | already => exact key
  | notWatched => exact ⟨h1, rfl⟩
  | err b => exact ⟨h1, rfl⟩

theorem Sim.unwatchKid (hr : ∀ p, E.reg p = true) (hu : ∀ p, E.unreg p = true) (h : Sim n₀ s t) (y : Comp × Bool) :
    Sim n₀ (unwatchKid E p s y).1 (Trg.unwatchKid fen E p t y).1 ∧ (unwatchKid E p s y).2 = (Trg.unwatchKid fen E p t y).2 := by
  obtain ⟨h1, h2⟩ := h.singleunwatch hr hu (Trg.join p y.1) .ndir
  unfold Fen.unwatchKid Trg.unwatchKid
  rcases h3 : Fen.singleunwatch E s (Trg.join p y.1) .ndir with ⟨s1, r1⟩
  rcases h4 : Trg.singleunwatch fen E t (Trg.join p y.1) .ndir with ⟨t1, r2⟩
  rw [h3, h4] at h1 h2
  simp only at h1 h2
  subst h2
  cases r1 <;> exact ⟨h1, rfl⟩

theorem Sim.unwatch (hr : ∀ p, E.reg p = true) (hu : ∀ p, E.unreg p = true) (h : Sim n₀ s t) (p : Path) (d : Bool) :
    Sim n₀ (unwatch E s p d).1 (Trg.unwatch fen E t p d).1 ∧ (unwatch E s p d).2 = (Trg.unwatch fen E t p d).2 := by
  unfold Fen.unwatch Trg.unwatch
  cases d with
  | false => exact h.singleunwatch hr hu p .dir
  | true =>
    simp only [if_true]
    obtain ⟨h1, h2⟩ := walk_sim (E := E) (R := Sim n₀) (fun s t y h => h.unwatchKid (p := p) hr hu y) p h
    rcases h3 : Trg.walk E p (Fen.unwatchKid E p) s with ⟨s1, r1⟩
    rcases h4 : Trg.walk E p (Trg.unwatchKid fen E p) t with ⟨t1, r2⟩
    rw [h3, h4] at h1 h2
    simp only at h1 h2
    subst h2
    cases r1 with
    | ok => exact h1.singleunwatch hr hu p .dir
    | already => exact ⟨h1, rfl⟩
    | notWatched => exact ⟨h1, rfl⟩
    | err b => exact ⟨h1, rfl⟩

theorem Sim.Watch (hr : ∀ p, E.reg p = true) (h : Sim n₀ s t) (p : Path) (e : Event) :
    Sim n₀ (Watch E s p e).1 (Trg.Watch fen E t p e).1 ∧ (Watch E s p e).2 = (Trg.Watch fen E t p e).2 := by
  unfold Fen.Watch Trg.Watch
  cases E.stat p with
  | none => exact ⟨h, rfl⟩
  | some d => exact h.watch hr p e d

theorem Sim.Unwatch (hr : ∀ p, E.reg p = true) (hu : ∀ p, E.unreg p = true) (h : Sim n₀ s t) (p : Path) :
    Sim n₀ (Unwatch E s p).1 (Trg.Unwatch fen E t p).1 ∧ (Unwatch E s p).2 = (Trg.Unwatch fen E t p).2 := by
  unfold Fen.Unwatch Trg.Unwatch
  cases E.stat p with
  | none => exact ⟨h, rfl⟩
  | some d => exact h.unwatch hr hu p d

theorem Sim.Rewatch (hr : ∀ p, E.reg p = true) (hu : ∀ p, E.unreg p = true) (h : Sim n₀ s t) (p : Path) (e : Event) :
    Sim n₀ (Rewatch E s p e).1 (Trg.Rewatch fen E t p e).1 ∧ (Rewatch E s p e).2 = (Trg.Rewatch fen E t p e).2 := by
  unfold Fen.Rewatch Trg.Rewatch
  cases E.stat p with
  | none => exact ⟨h, rfl⟩
  | some d =>
    simp only
    obtain ⟨h1, h2⟩ := h.unwatch hr hu p d
    rcases h3 : Fen.unwatch E s p d with ⟨s1, r1⟩
    rcases h4 : Trg.unwatch fen E t p d with ⟨t1, r2⟩
    rw [h3, h4] at h1 h2
    simp only at h1 h2
    subst h2
    cases r1 with
    | ok => exact ⟨(h1.watch hr p e d).1, rfl⟩
    | already => exact ⟨h1, rfl⟩
    | notWatched => exact ⟨h1, rfl⟩
    | err b => exact ⟨h1, rfl⟩

theorem Sim.serves (hr : ∀ p, E.reg p = true) (hu : ∀ p, E.unreg p = true) (h : Sim n₀ s t) {c : Verif.Call} {ok : Bool} {s' : Rec}
    (hs : Serves E s c ok s') : Trg.Serves fen E t c ok s'.t ∧ s'.t.nat = s'.n.foldl natOf n₀ := by
  cases hs with
  | watch p e hsk =>
    obtain ⟨⟨h1, h2⟩, h3⟩ := h.Watch hr p e
    rw [h3, h1]
    exact ⟨.watch p e hsk, h2⟩
  | rewatch p old new hsk =>
    obtain ⟨⟨h1, h2⟩, h3⟩ := h.Rewatch hr hu p new
    rw [h3, h1]
    exact ⟨.rewatch p old new hsk, h2⟩
  | unwatch p hsk =>
    obtain ⟨⟨h1, h2⟩, h3⟩ := h.Unwatch hr hu p
    rw [h3, h1]
    exact ⟨.unwatch p hsk, h2⟩

/-! ### Notifications -/

theorem Sim.moved (hr : ∀ p, E.reg p = true) (hu : ∀ p, E.unreg p = true) {w : W} : ∀ (l : List Path) {s : Rec} {t : Trg.St}, Sim n₀ s t →
    Sim n₀ (moved E p w e s l).1 (Trg.moved fen E p w e t l).1 ∧ (moved E p w e s l).2 = (Trg.moved fen E p w e t l).2
  | [], _, _, h => ⟨h, rfl⟩
  | q :: l, s, t, h => by
    unfold Fen.moved Trg.moved
    split
    · obtain ⟨h1, h2⟩ := Sim.moved hr hu l (h.singleunwatch hr hu q .both).1
      exact ⟨h1, by simp only [h2]⟩
    · exact Sim.moved hr hu l h

theorem Sim.scanKid (hr : ∀ p, E.reg p = true) {w : W} {n : Rec × List Ev} {n' : Trg.St × List Ev} (h : Sim n₀ n.1 n'.1 ∧ n.2 = n'.2) (y : Comp × Bool) :
    (Sim n₀ (scanKid E p w n y).1.1 (Trg.scanKid fen E p w n' y).1.1 ∧ (scanKid E p w n y).1.2 = (Trg.scanKid fen E p w n' y).1.2) ∧
      (scanKid E p w n y).2 = (Trg.scanKid fen E p w n' y).2 := by
  obtain ⟨h, h'⟩ := h
  obtain ⟨h1, h2⟩ := h.singlewatch hr (Trg.join p y.1) w.eDir .ndir y.2
  unfold Fen.scanKid Trg.scanKid
  simp only
  rcases h3 : Fen.singlewatch E n.1 (Trg.join p y.1) w.eDir .ndir y.2 with ⟨s1, r1⟩
  rcases h4 : Trg.singlewatch fen E n'.1 (Trg.join p y.1) w.eDir .ndir y.2 with ⟨t1, r2⟩
  rw [h3, h4] at h1 h2
  simp only at h1 h2
  subst h2
  rw [h']
  cases r1 with
  | err b => cases b <;> exact ⟨⟨h1, rfl⟩, rfl⟩
  | _ => exact ⟨⟨h1, rfl⟩, rfl⟩

theorem Sim.del (h : Sim n₀ s t) (p : Path) (w : W) : Sim n₀ (del s p w) (Trg.del fen t p w) := by
  obtain ⟨rfl, hn⟩ := h
  exact ⟨rfl, hn⟩

theorem Sim.dir (hr : ∀ p, E.reg p = true) (hu : ∀ p, E.unreg p = true) (h : Sim n₀ s t) (p : Path) (w : W) (e ge : Event) :
    Sim n₀ (dir E s p w e ge).1 (Trg.dir fen E t p w e ge).1 ∧ (dir E s p w e ge).2 = (Trg.dir fen E t p w e ge).2 := by
  unfold Fen.dir Trg.dir
  split
  · simp only
    split
    · obtain ⟨h1, h2⟩ := h.moved hr hu (p := p) (e := e) (w := w) s.t.lkp.keys
      rw [h.st] at h1 h2 ⊢
      exact ⟨h1.del p w, by rw [h2]⟩
    · exact ⟨h.del p w, rfl⟩
  · split
    · exact (walk_sim (E := E) (R := fun (n : Rec × List Ev) (n' : Trg.St × List Ev) => Sim n₀ n.1 n'.1 ∧ n.2 = n'.2)
        (fun n n' y hn => Sim.scanKid hr hn y) p (s := (s, [])) (t := (t, [])) ⟨h, rfl⟩).1
    · exact ⟨h, rfl⟩

theorem Sim.renew (hr : ∀ p, E.reg p = true) (h : Sim n₀ s t) (p : Path) (w : W) (ge : Event) :
    Sim n₀ (renew E s p w ge) (Trg.renew fen E t p w ge) := by
  obtain ⟨rfl, hn⟩ := h
  refine ⟨rfl, ?_⟩
  unfold Fen.renew Trg.renew
  simp only [List.foldl_append]
  rw [← hn]
  split
  · cases E.stat p with
    | none => rfl
    | some d => simp [hr p, natOf]
  · rfl

theorem Sim.process (hr : ∀ p, E.reg p = true) (hu : ∀ p, E.unreg p = true) (h : Sim n₀ s t) (p : Path) (ge : Event) :
    Sim n₀ (process E s p ge).1 (Trg.process fen E t p ge).1 ∧ (process E s p ge).2 = (Trg.process fen E t p ge).2 := by
  unfold Fen.process Trg.process
  rw [h.st]
  cases t.lkp.get? p with
  | none => exact ⟨h, rfl⟩
  | some w =>
    simp only
    have h1 := h.renew hr p w ge
    split
    · exact ⟨h1, rfl⟩
    · have h2 : Sim n₀ (if w.isDir then Fen.dir E (Fen.renew E s p w ge) p w (Trg.decode fen.nat2not ge w.all) ge
            else (Fen.renew E s p w ge, [⟨p, Trg.decode fen.nat2not ge w.all, w.isDir⟩])).1
          (if w.isDir then Trg.dir fen E (Trg.renew fen E t p w ge) p w (Trg.decode fen.nat2not ge w.all) ge
            else (Trg.renew fen E t p w ge, [⟨p, Trg.decode fen.nat2not ge w.all, w.isDir⟩])).1 ∧
          (if w.isDir then Fen.dir E (Fen.renew E s p w ge) p w (Trg.decode fen.nat2not ge w.all) ge
            else (Fen.renew E s p w ge, [⟨p, Trg.decode fen.nat2not ge w.all, w.isDir⟩])).2 =
          (if w.isDir then Trg.dir fen E (Trg.renew fen E t p w ge) p w (Trg.decode fen.nat2not ge w.all) ge
            else (Trg.renew fen E t p w ge, [⟨p, Trg.decode fen.nat2not ge w.all, w.isDir⟩])).2 := by
        split
        · exact h1.dir hr hu p w _ ge
        · exact ⟨h1, rfl⟩
      split
      · exact ⟨h2.1.del p w, h2.2⟩
      · exact h2

/-! ### Which associations are ended -/

/-- Neither does the call end an association of `x` nor make one with old times. -/
def Spares (x : Path) : NCall → Prop
  | .dissoc p => p ≠ x
  | .reassoc p _ _ => p ≠ x
  | _ => True

/-- No association of `x` is ended by the recorded calls, or made with old times. -/
def Keeps (x : Path) (s : Rec) : Prop := ∀ c ∈ s.n, Spares x c

theorem sw_keeps (t : Trg.St) (p : Path) (e : Event) (m : Mode) (d : Bool) (q : Path) : ∀ c ∈ swCalls E t p e m d, Spares q c := by
  unfold swCalls
  split
  · split <;> simp [Spares]
  · simp [Spares]

theorem su_keeps {q : Path} (hq : p ≠ q) (t : Trg.St) (m : Mode) : ∀ c ∈ suCalls E t p m, Spares q c := by
  unfold suCalls
  split
  · simp
  · simp only [List.mem_cons, forall_eq_or_imp]
    refine ⟨hq, ?_⟩
    split <;> simp [Spares, hq]

theorem Keeps.append {l : List NCall} (h : Keeps x s) (hl : ∀ c ∈ l, Spares x c) (t : Trg.St) : Keeps x ⟨t, s.n ++ l⟩ :=
  fun c hc => (List.mem_append.1 hc).elim (h c) (hl c)

theorem Keeps.singlewatch (h : Keeps x s) (p : Path) (e : Event) (m : Mode) (d : Bool) : Keeps x (singlewatch E s p e m d).1 :=
  h.append (sw_keeps _ _ _ _ _ _) _

theorem Keeps.singleunwatch (h : Keeps x s) (hp : p ≠ x) (m : Mode) : Keeps x (singleunwatch E s p m).1 :=
  h.append (su_keeps hp _ _) _

theorem walkLoop_inv {σ : Type} {R : σ → Prop} {f : σ → Comp × Bool → σ × Res} (hf : ∀ s x, R s → R (f s x).1) :
    ∀ (l : List (Comp × Bool)) (s : σ), R s → R (Trg.walkLoop f s l).1
  | [], _, h => h
  | x :: l, s, h => by
    have h1 := hf s x h
    unfold Trg.walkLoop
    split
    · rename_i heq
      rw [heq] at h1
      exact walkLoop_inv hf l _ h1
    · rename_i heq
      rw [heq] at h1
      exact h1

theorem walk_inv {σ : Type} {R : σ → Prop} {f : σ → Comp × Bool → σ × Res} (hf : ∀ s x, R s → R (f s x).1) {s : σ} (h : R s) :
    R (Trg.walk E p f s).1 := by
  unfold Trg.walk
  split
  · exact h
  · exact walkLoop_inv hf _ _ h

theorem Keeps.watchKid (h : Keeps x s) (y : Comp × Bool) : Keeps x (watchKid E p e s y).1 := by
  have := h.singlewatch (E := E) (Trg.join p y.1) e .ndir y.2
  unfold Fen.watchKid
  split
  · rename_i heq; rw [heq] at this; exact this
  · exact this

theorem Keeps.watch (h : Keeps x s) (p : Path) (e : Event) (d : Bool) : Keeps x (watch E s p e d).1 := by
  have h1 := h.singlewatch (E := E) p e .dir d
  unfold Fen.watch
  split
  · rename_i heq; rw [heq] at h1; exact h1
  · rename_i heq; rw [heq] at h1; exact h1
  · rename_i heq
    rw [heq] at h1
    split
    · exact walk_inv (fun s y h => h.watchKid y) h1
    · exact h1

theorem Keeps.unwatchKid (hk : ∀ c, Trg.join p c ≠ x) (h : Keeps x s) (y : Comp × Bool) : Keeps x (unwatchKid E p s y).1 := by
  have := h.singleunwatch (E := E) (hk y.1) .ndir
  unfold Fen.unwatchKid
  split
  · rename_i heq; rw [heq] at this; exact this
  · exact this

theorem Keeps.unwatch (h : Keeps x s) (hp : p ≠ x) (hk : ∀ c, Trg.join p c ≠ x) (d : Bool) : Keeps x (unwatch E s p d).1 := by
  unfold Fen.unwatch
  split
  · have h1 : Keeps x (Trg.walk E p (Fen.unwatchKid E p) s).1 := walk_inv (fun s y h => h.unwatchKid hk y) h
    split
    · rename_i heq
      rw [heq] at h1
      exact h1.singleunwatch hp _
    · exact h1
  · exact h.singleunwatch hp _

theorem Keeps.serves (h : Keeps x s) (hlen : 2 ≤ x.length) {c : Verif.Call} {ok : Bool} {s' : Rec} (ha : Away x c) (hs : Serves E s c ok s') : Keeps x s' := by
  cases hs with
  | watch p e hsk =>
    unfold Fen.Watch
    split
    · exact h
    · exact h.watch _ _ _
  | rewatch p old new hsk =>
    unfold Fen.Rewatch
    split
    · exact h
    · rename_i d _
      have h1 := h.unwatch (E := E) ha.1 (Away.kids hlen ha.2) d
      split
      · rename_i heq
        rw [heq] at h1
        exact h1.watch _ _ _
      · rename_i heq
        rw [heq] at h1
        exact h1
  | unwatch p hsk =>
    unfold Fen.Unwatch
    split
    · exact h
    · exact h.unwatch ha.1 (Away.kids hlen ha.2) _

theorem Keeps.scanKid {w : W} {n : Rec × List Ev} (h : Keeps x n.1) (y : Comp × Bool) : Keeps x (scanKid E p w n y).1.1 := by
  have := h.singlewatch (E := E) (Trg.join p y.1) w.eDir .ndir y.2
  unfold Fen.scanKid
  simp only
  split <;> (rename_i heq; rw [heq] at this; exact this)

/-- The recorded calls only become more, as long as nothing is said about removals. -/
theorem Keeps.renew (h : Keeps x s) (p : Path) (w : W) (ge : Event) : Keeps x (renew E s p w ge) := by
  refine h.append ?_ _
  split
  · split <;> simp [Spares]
  · simp

theorem Keeps.process (h : Keeps x s) (p : Path) {ge : Event} (hge : ge &&& (fen.nRemove ||| fen.nRename) = 0) : Keeps x (process E s p ge).1 := by
  have hge' : ge &&& (fen.nRename ||| fen.nRemove) = 0 := by rw [BitVec.or_comm]; exact hge
  unfold Fen.process
  split
  · exact h
  · rename_i w hw
    simp only
    have h1 := h.renew (E := E) p w ge
    split
    · exact h1
    · rw [if_neg (by rw [hge]; exact fun h => h rfl)]
      split
      · unfold Fen.dir
        rw [if_neg (by rw [hge']; exact fun h => h rfl)]
        split
        · exact walk_inv (R := fun n : Rec × List Ev => Keeps x n.1) (fun n y h => h.scanKid y) h1
        · exact h1
      · exact h1

end

end Fen
end Verif
