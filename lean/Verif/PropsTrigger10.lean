/-
kqueue and FEN: what is done for one path leaves what is asked for other paths alone (C126).
-/
import Verif.PropsTrigger8

namespace Verif
namespace Trg
open Event

/-! ### Specification -/

/-- A call of the watcher or a notification, with what the system answers meanwhile. -/
inductive Deed
  | watch (E : Env) (p : Path) (e : Event)
  | rewatch (E : Env) (p : Path) (e : Event)
  | unwatch (E : Env) (p : Path)
  | note (E : Env) (p : Path) (ge : Event)

/-- The path it is about. -/
def Deed.path : Deed → Path
  | .watch _ p _ => p
  | .rewatch _ p _ => p
  | .unwatch _ p => p
  | .note _ p _ => p

/-- It is a notification that something has been renamed. -/
def Deed.renames (N : Native) : Deed → Prop
  | .note _ _ ge => ge &&& N.nRename ≠ 0
  | _ => False

def Deed.env : Deed → Env
  | .watch E _ _ => E
  | .rewatch E _ _ => E
  | .unwatch E _ => E
  | .note E _ _ => E

def Deed.run (N : Native) (s : St) : Deed → St
  | .watch E p e => (Watch N E s p e).1
  | .rewatch E p e => (Rewatch N E s p e).1
  | .unwatch E p => (Unwatch N E s p).1
  | .note E p ge => (process N E (retrieved N s p) p ge).1

/-- What is asked for a path itself. -/
def direct (s : St) (q : Path) : Event := ((s.lkp.get? q).map W.eDir).getD 0

/-- What is asked for a path because of its directory. -/
def viaDir (s : St) (q : Path) : Event := ((s.lkp.get? q).map W.eNonDir).getD 0

/-! ### Proof -/

section
variable {N : Native} {E : Env}

theorem direct_congr {s s' : St} {q : Path} (h : s'.lkp.get? q = s.lkp.get? q) : direct s' q = direct s q := by unfold direct; rw [h]

theorem viaDir_congr {s s' : St} {q : Path} (h : s'.lkp.get? q = s.lkp.get? q) : viaDir s' q = viaDir s q := by unfold viaDir; rw [h]

theorem walkLoop_each {σ : Type} (Q : σ → Prop) {f : σ → Comp × Bool → σ × Res} : ∀ (l : List (Comp × Bool)) (s : σ),
    (∀ s, ∀ x ∈ l, Q s → Q (f s x).1) → Q s → Q (walkLoop f s l).1
  | [], s, _, h => h
  | x :: l, s, hf, h => by
    have h1 := hf s x (by simp) h
    unfold walkLoop
    split
    · next s' he => exact walkLoop_each Q l s' (fun s y hy => hf s y (by simp [hy])) (by rw [he] at h1; exact h1)
    · next s' r _ he => rw [he] at h1; exact h1

theorem walk_each {σ : Type} (Q : σ → Prop) {p : Path} {f : σ → Comp × Bool → σ × Res} {s : σ}
    (hf : ∀ l, E.list p = .ok l → ∀ s, ∀ x ∈ l, Q s → Q (f s x).1) (h : Q s) : Q (walk E p f s).1 := by
  unfold walk
  split
  · exact h
  · next l hl => exact walkLoop_each Q l s (hf l hl) h

theorem singlewatch_direct (s : St) (p : Path) (e : Event) (d : Bool) (q : Path) :
    direct (singlewatch N E s p e .ndir d).1 q = direct s q := by
  by_cases hq : p = q
  · subst hq
    unfold singlewatch
    split
    · rename_i h
      split
      · rfl
      · rfl
      · simp only
        split
        · simp [direct, GoMap.get?_set, W.add, h]
        · rfl
    · rename_i w h
      simp only
      split <;> simp [direct, GoMap.get?_set, W.add, h]
  · exact direct_congr (singlewatch_other N E s p e _ d hq)

theorem singlewatch_viaDir (s : St) (p : Path) (e : Event) (d : Bool) (q : Path) :
    viaDir (singlewatch N E s p e .dir d).1 q = viaDir s q := by
  by_cases hq : p = q
  · subst hq
    unfold singlewatch
    split
    · rename_i h
      split
      · rfl
      · rfl
      · simp only
        split
        · simp [viaDir, GoMap.get?_set, W.add, h]
        · rfl
    · rename_i w h
      simp only
      split <;> simp [viaDir, GoMap.get?_set, W.add, h]
  · exact viaDir_congr (singlewatch_other N E s p e _ d hq)

/-- The entry is there: the new set is joined to the old one. -/
theorem singlewatch_old_sets (s : St) (p : Path) (e : Event) (m : Mode) (d : Bool) {w : W} (h : s.lkp.get? p = some w) :
    (singlewatch N E s p e m d).1.lkp.get? p = some (w.add m e) := by
  unfold singlewatch
  rw [h]
  simp only
  split <;> simp [GoMap.get?_set]

theorem singleunwatch_direct (s : St) (p : Path) (q : Path) : direct (singleunwatch N E s p .ndir).1 q = direct s q := by
  by_cases hq : p = q
  · subst hq
    unfold singleunwatch
    split
    · rfl
    · rename_i w h
      simp only
      split
      · split
        · have h1 := singlewatch_old_sets (N := N) (E := E) { s with lkp := s.lkp.set p (w.sub .ndir), nat := s.nat.del p } p
            ((w.sub .ndir).eNonDir ||| (w.sub .ndir).eDir) (if (w.sub .ndir).eNonDir ≠ 0 then Mode.ndir else Mode.dir) (w.sub .ndir).isDir
            (w := w.sub .ndir) (by simp [GoMap.get?_set])
          have h2 : ((w.sub .ndir).add (if (w.sub .ndir).eNonDir ≠ 0 then Mode.ndir else Mode.dir) ((w.sub .ndir).eNonDir ||| (w.sub .ndir).eDir)).eDir = w.eDir := by
            simp [W.sub, W.add]
          split <;> (rename_i heq; rw [heq] at h1; simp only [direct, h1, h, Option.map_some, Option.getD_some]; exact h2)
        · rename_i hz
          have hz' : w.eDir = 0 := by simpa [W.sub] using hz
          simp [direct, del, GoMap.get?_del, h, hz']
      · simp [direct, GoMap.get?_set, W.sub, h]
  · exact direct_congr (singleunwatch_other N E s p _ hq).1

theorem singleunwatch_viaDir (s : St) (p : Path) (q : Path) : viaDir (singleunwatch N E s p .dir).1 q = viaDir s q := by
  by_cases hq : p = q
  · subst hq
    unfold singleunwatch
    split
    · rfl
    · rename_i w h
      simp only
      split
      · split
        · rename_i hz
          have hne : w.eNonDir ≠ 0 := by simpa [W.sub] using hz
          have h1 := singlewatch_old_sets (N := N) (E := E) { s with lkp := s.lkp.set p (w.sub .dir), nat := s.nat.del p } p
            ((w.sub .dir).eNonDir ||| (w.sub .dir).eDir) (if (w.sub .dir).eNonDir ≠ 0 then Mode.ndir else Mode.dir) (w.sub .dir).isDir
            (w := w.sub .dir) (by simp [GoMap.get?_set])
          have h2 : ((w.sub .dir).add (if (w.sub .dir).eNonDir ≠ 0 then Mode.ndir else Mode.dir) ((w.sub .dir).eNonDir ||| (w.sub .dir).eDir)).eNonDir = w.eNonDir := by
            simp only [W.sub, W.add]
            split <;> simp
          split <;> (rename_i heq; rw [heq] at h1; simp only [viaDir, h1, h, Option.map_some, Option.getD_some]; exact h2)
        · rename_i hz
          have hz' : w.eNonDir = 0 := by simpa [W.sub] using hz
          simp [viaDir, del, GoMap.get?_del, h, hz']
      · simp [viaDir, GoMap.get?_set, W.sub, h]
  · exact viaDir_congr (singleunwatch_other N E s p _ hq).1

/-- What the calls keep: anything that the single steps for the path and for its entries keep. -/
theorem watch_each (Q : St → Prop) {p : Path} {e : Event} {d : Bool} {s : St} (h0 : ∀ s, Q s → Q (singlewatch N E s p e .dir d).1)
    (h1 : ∀ l, E.list p = .ok l → ∀ s, ∀ x ∈ l, Q s → Q (singlewatch N E s (join p x.1) e .ndir x.2).1) (h : Q s) : Q (watch N E s p e d).1 := by
  have h2 := h0 s h
  have key : ∀ s1, Q s1 → Q (walk E p (watchKid N E p e) s1).1 := fun s1 hs1 => by
    refine walk_each Q (fun l hl s x hx hs => ?_) hs1
    have := h1 l hl s x hx hs
    unfold watchKid
    split
    · next he => rw [he] at this; exact this
    · exact this
  unfold watch
  split
  · next he => rw [he] at h2; exact h2
  · next he => rw [he] at h2; exact h2
  · next he =>
    rw [he] at h2
    split
    · exact key _ h2
    · exact h2

theorem unwatch_each (Q : St → Prop) {p : Path} {d : Bool} {s : St} (h0 : ∀ s, Q s → Q (singleunwatch N E s p .dir).1)
    (h1 : ∀ l, E.list p = .ok l → ∀ s, ∀ x ∈ l, Q s → Q (singleunwatch N E s (join p x.1) .ndir).1) (h : Q s) : Q (unwatch N E s p d).1 := by
  have key : ∀ s1, Q s1 → Q (walk E p (unwatchKid N E p) s1).1 := fun s1 hs1 => by
    refine walk_each Q (fun l hl s x hx hs => ?_) hs1
    have := h1 l hl s x hx hs
    unfold unwatchKid
    split
    · next he => rw [he] at this; exact this
    · exact this
  unfold unwatch
  split
  · have h2 := key s h
    split
    · next he => rw [he] at h2; exact h0 _ h2
    · exact h2
  · exact h0 s h

theorem process_each (Q : St → Prop) {p : Path} {ge : Event} {s : St}
    (hr : ∀ s w, Q s → Q (renew N E s p w ge)) (hd : ∀ s w, Q s → Q (del N s p w))
    (h1 : ∀ l, E.list p = .ok l → ∀ s e, ∀ x ∈ l, Q s → Q (singlewatch N E s (join p x.1) e .ndir x.2).1)
    (hm : ge &&& N.nRename ≠ 0 → ∀ s w e, Q s → Q (moved N E p w e s s.lkp.keys).1) (h : Q s) : Q (process N E s p ge).1 := by
  have key : ∀ s1 w, Q s1 → Q (walk E p (scanKid N E p w) (s1, ([] : List Ev))).1.1 := fun s1 w hs1 => by
    refine walk_each (fun n : St × List Ev => Q n.1) (fun l hl n x hx hs => ?_) hs1
    have := h1 l hl n.1 w.eDir x hx hs
    unfold scanKid
    simp only
    split <;> (next he => rw [he] at this; exact this)
  unfold process
  split
  · exact h
  · next w hw =>
    simp only
    have h2 := hr s w h
    split
    · exact h2
    · have h3 : Q (if w.isDir then dir N E (renew N E s p w ge) p w (decode N.nat2not ge w.all) ge
          else (renew N E s p w ge, [⟨p, decode N.nat2not ge w.all, w.isDir⟩])).1 := by
        split
        · unfold dir
          split
          · simp only
            refine hd _ w ?_
            split
            · next hne => exact hm hne _ w _ h2
            · exact h2
          · split
            · exact key _ w h2
            · exact h2
        · exact h2
      split
      · exact hd _ w h3
      · exact h3

theorem del_other (s : St) (p : Path) (w : W) {q : Path} (hq : p ≠ q) :
    (del N s p w).lkp.get? q = s.lkp.get? q ∧ (del N s p w).nat.get? q = s.nat.get? q := by
  unfold del
  refine ⟨by simp [GoMap.get?_del, hq], ?_⟩
  simp only
  split <;> simp [GoMap.get?_del, hq]

theorem renew_other (s : St) (p : Path) (w : W) (ge : Event) {q : Path} (hq : p ≠ q) :
    (renew N E s p w ge).lkp.get? q = s.lkp.get? q ∧ (renew N E s p w ge).nat.get? q = s.nat.get? q := by
  unfold renew
  split
  · split
    · exact ⟨rfl, rfl⟩
    · split
      · exact ⟨rfl, by simp [GoMap.get?_set, hq]⟩
      · exact del_other s p w hq
  · exact ⟨rfl, rfl⟩

theorem moved_other (p : Path) (w : W) (e : Event) {q : Path} (hq : below p q = false) : ∀ (l : List Path) (s : St),
    (moved N E p w e s l).1.lkp.get? q = s.lkp.get? q ∧ (moved N E p w e s l).1.nat.get? q = s.nat.get? q
  | [], s => ⟨rfl, rfl⟩
  | x :: l, s => by
    unfold moved
    split
    · next hb =>
      have hx : x ≠ q := fun h => by rw [h, hq] at hb; cases hb
      have h1 := singleunwatch_other N E s x .both hx
      have h2 := moved_other p w e hq l (singleunwatch N E s x .both).1
      exact ⟨h2.1.trans h1.1, h2.2.trans h1.2⟩
    · exact moved_other p w e hq l s

/-- **C126, other directories.**  Whatever is called or notified for a path, and whatever fails: a path that is neither this path nor an entry of it, and if
it was renamed not below it, keeps its entry in the table and its native watch. -/
theorem C126_far (s : St) (a : Deed) (q : Path) (hq : a.path ≠ q) (hc : ∀ c, join a.path c ≠ q) (hb : a.renames N → below a.path q = false) :
    (a.run N s).lkp.get? q = s.lkp.get? q ∧ (a.run N s).nat.get? q = s.nat.get? q := by
  let Q : St → Prop := fun t => t.lkp.get? q = s.lkp.get? q ∧ t.nat.get? q = s.nat.get? q
  have h0 : Q s := ⟨rfl, rfl⟩
  have hw : ∀ E p e m d t, p ≠ q → Q t → Q (singlewatch N E t p e m d).1 := fun E p e m d t hp ht =>
    ⟨(singlewatch_other N E t p e m d hp).trans ht.1, (singlewatch_nat N E t p e m d hp).trans ht.2⟩
  have hu : ∀ E p m t, p ≠ q → Q t → Q (singleunwatch N E t p m).1 := fun E p m t hp ht =>
    ⟨(singleunwatch_other N E t p m hp).1.trans ht.1, (singleunwatch_other N E t p m hp).2.trans ht.2⟩
  cases a with
  | watch E p e =>
    show Q (Watch N E s p e).1
    unfold Watch
    split
    · exact h0
    · exact watch_each Q (fun t => hw E p e _ _ t hq) (fun l _ t x _ => hw E _ e _ _ t (hc x.1)) h0
  | unwatch E p =>
    show Q (Unwatch N E s p).1
    unfold Unwatch
    split
    · exact h0
    · exact unwatch_each Q (fun t => hu E p _ t hq) (fun l _ t x _ => hu E _ _ t (hc x.1)) h0
  | rewatch E p e =>
    show Q (Rewatch N E s p e).1
    unfold Rewatch
    split
    · exact h0
    · next d _ =>
      have h1 := unwatch_each (d := d) Q (fun t => hu E p _ t hq) (fun l _ t x _ => hu E _ _ t (hc x.1)) h0
      split
      · next he =>
        rw [he] at h1
        exact watch_each Q (fun t => hw E p e _ _ t hq) (fun l _ t x _ => hw E _ e _ _ t (hc x.1)) h1
      · next he => rw [he] at h1; exact h1
  | note E p ge =>
    show Q (process N E (retrieved N s p) p ge).1
    refine process_each Q (fun t w ht => ⟨(renew_other t p w ge hq).1.trans ht.1, (renew_other t p w ge hq).2.trans ht.2⟩)
      (fun t w ht => ⟨(del_other t p w hq).1.trans ht.1, (del_other t p w hq).2.trans ht.2⟩) (fun l _ t e x _ => hw E _ e _ _ t (hc x.1))
      (fun hne t w e ht => ?_) ⟨rfl, ?_⟩
    · have := moved_other (N := N) (E := E) p w e (hb hne) t.lkp.keys t
      exact ⟨this.1.trans ht.1, this.2.trans ht.2⟩
    · unfold retrieved
      simp only
      split
      · rw [GoMap.get?_del]; exact if_neg hq
      · rfl

/-- **C126, requests.**  Whatever is called or notified for a path, and whatever fails: what is asked for any other path itself stays, also for the entries of
a directory, unless a directory above was renamed. -/
theorem C126_requests (s : St) (a : Deed) (q : Path) (hq : a.path ≠ q) (hb : a.renames N → below a.path q = false) :
    direct (a.run N s) q = direct s q := by
  let Q : St → Prop := fun t => direct t q = direct s q
  have h0 : Q s := rfl
  cases a with
  | watch E p e =>
    show Q (Watch N E s p e).1
    unfold Watch
    split
    · exact h0
    · exact watch_each Q (fun t ht => (direct_congr (singlewatch_other N E t p e _ _ hq)).trans ht) (fun l _ t x _ ht => (singlewatch_direct t _ e _ q).trans ht) h0
  | unwatch E p =>
    show Q (Unwatch N E s p).1
    unfold Unwatch
    split
    · exact h0
    · exact unwatch_each Q (fun t ht => (direct_congr (singleunwatch_other N E t p _ hq).1).trans ht) (fun l _ t x _ ht => (singleunwatch_direct t _ q).trans ht) h0
  | rewatch E p e =>
    show Q (Rewatch N E s p e).1
    unfold Rewatch
    split
    · exact h0
    · next d _ =>
      have h1 := unwatch_each (d := d) Q (fun t ht => (direct_congr (singleunwatch_other N E t p _ hq).1).trans ht)
        (fun l _ t x _ ht => (singleunwatch_direct t _ q).trans ht) h0
      split
      · next he =>
        rw [he] at h1
        exact watch_each Q (fun t ht => (direct_congr (singlewatch_other N E t p e _ _ hq)).trans ht) (fun l _ t x _ ht => (singlewatch_direct t _ e _ q).trans ht) h1
      · next he => rw [he] at h1; exact h1
  | note E p ge =>
    show Q (process N E (retrieved N s p) p ge).1
    exact process_each Q (fun t w ht => (direct_congr (renew_other t p w ge hq).1).trans ht) (fun t w ht => (direct_congr (del_other t p w hq).1).trans ht)
      (fun l _ t e x _ ht => (singlewatch_direct t _ e _ q).trans ht)
      (fun hne t w e ht => (direct_congr (moved_other p w e (hb hne) t.lkp.keys t).1).trans ht) rfl

/-- **C126, the directory's requests.**  A call for a path leaves what is asked for it because of its directory; names in directories are not empty. -/
theorem C126_viaDir (s : St) (a : Deed) (ha : ∀ E p ge, a ≠ .note E p ge)
    (hn : ∀ E p e, (a = .watch E p e ∨ a = .rewatch E p e ∨ a = .unwatch E p) → ∀ l, E.list p = .ok l → ∀ x ∈ l, x.1 ≠ []) :
    viaDir (a.run N s) a.path = viaDir s a.path := by
  let Q : St → Prop := fun t => viaDir t a.path = viaDir s a.path
  have h0 : Q s := rfl
  cases a with
  | watch E p e =>
    have hn := hn E p e (.inl rfl)
    show Q (Watch N E s p e).1
    unfold Watch
    split
    · exact h0
    · exact watch_each Q (fun t ht => (singlewatch_viaDir t p e _ _).trans ht)
        (fun l hl t x hx ht => (viaDir_congr (singlewatch_other N E t _ e _ _ (join_ne (hn l hl x hx)))).trans ht) h0
  | unwatch E p =>
    have hn := hn E p 0 (.inr (.inr rfl))
    show Q (Unwatch N E s p).1
    unfold Unwatch
    split
    · exact h0
    · exact unwatch_each Q (fun t ht => (singleunwatch_viaDir t p _).trans ht)
        (fun l hl t x hx ht => (viaDir_congr (singleunwatch_other N E t _ _ (join_ne (hn l hl x hx))).1).trans ht) h0
  | rewatch E p e =>
    have hn := hn E p e (.inr (.inl rfl))
    show Q (Rewatch N E s p e).1
    unfold Rewatch
    split
    · exact h0
    · next d _ =>
      have h1 := unwatch_each (d := d) Q (fun t ht => (singleunwatch_viaDir t p _).trans ht)
        (fun l hl t x hx ht => (viaDir_congr (singleunwatch_other N E t _ _ (join_ne (hn l hl x hx))).1).trans ht) h0
      split
      · next he =>
        rw [he] at h1
        exact watch_each Q (fun t ht => (singlewatch_viaDir t p e _ _).trans ht)
          (fun l hl t x hx ht => (viaDir_congr (singlewatch_other N E t _ e _ _ (join_ne (hn l hl x hx)))).trans ht) h1
      · next he => rw [he] at h1; exact h1
  | note E p ge => exact absurd rfl (ha E p ge)

/-- What is asked for the path itself, and that it is watched natively. -/
def Keeps (q : Path) (v : Event) (t : St) : Prop := direct t q = v ∧ (t.nat.get? q).isSome = true

theorem Keeps.entry {q : Path} {v : Event} {t : St} (hv : v ≠ 0) (h : Keeps q v t) : ∃ w, t.lkp.get? q = some w ∧ w.eDir = v := by
  cases hw : t.lkp.get? q with
  | none => exact absurd (by simpa [direct, hw] using h.1.symm) hv
  | some w => exact ⟨w, rfl, by simpa [direct, hw] using h.1⟩

theorem Keeps.other {q : Path} {v : Event} {t t' : St} (h : Keeps q v t) (hl : t'.lkp.get? q = t.lkp.get? q) (hn : t'.nat.get? q = t.nat.get? q) :
    Keeps q v t' := ⟨(direct_congr hl).trans h.1, by rw [hn]; exact h.2⟩

theorem Keeps.single {q : Path} {v : Event} {t : St} (hr : E.reg q = true) (h : Keeps q v t) (p : Path) (e : Event) (d : Bool) :
    Keeps q v (singlewatch N E t p e .ndir d).1 := by
  refine ⟨(singlewatch_direct t p e d q).trans h.1, ?_⟩
  by_cases hq : p = q
  · subst hq
    unfold singlewatch
    split
    · split
      · exact h.2
      · exact h.2
      · simp [hr, GoMap.get?_set]
    · simp [hr, GoMap.get?_set]
  · rw [singlewatch_nat N E t p e _ d hq]; exact h.2

theorem Keeps.unsingle {q : Path} {v : Event} {t : St} (hv : v ≠ 0) (hr : E.reg q = true) (h : Keeps q v t) (p : Path) :
    Keeps q v (singleunwatch N E t p .ndir).1 := by
  refine ⟨(singleunwatch_direct t p q).trans h.1, ?_⟩
  by_cases hq : p = q
  · subst hq
    obtain ⟨w, hw, he⟩ := h.entry hv
    unfold singleunwatch
    rw [hw]
    simp only
    split
    · have hne : (w.sub .ndir).eNonDir ||| (w.sub .ndir).eDir ≠ 0 := by simpa [W.sub, he] using hv
      rw [if_pos hne]
      have h1 : ∀ m e d, ((singlewatch N E { t with lkp := t.lkp.set p (w.sub .ndir), nat := t.nat.del p } p e m d).1.nat.get? p).isSome = true := by
        intro m e d
        unfold singlewatch
        simp [GoMap.get?_set, hr]
      have h2 := h1 (if (w.sub .ndir).eNonDir ≠ 0 then Mode.ndir else Mode.dir) ((w.sub .ndir).eNonDir ||| (w.sub .ndir).eDir) (w.sub .ndir).isDir
      split <;> (next heq => rw [heq] at h2; exact h2)
    · exact h.2
  · rw [(singleunwatch_other N E t p _ hq).2]; exact h.2

/-- **C126, native watches.**  What is missing: the native watch of the path is lost if the system refuses to register it again (`C126_refuted`). -/
theorem C126_native_partial (s : St) (a : Deed) (q : Path) (hq : a.path ≠ q) (hb : a.renames N → below a.path q = false) (hd : direct s q ≠ 0)
    (hr : a.env.reg q = true) (hs : (s.nat.get? q).isSome = true) : ((a.run N s).nat.get? q).isSome = true := by
  let Q : St → Prop := Keeps q (direct s q)
  suffices Q (a.run N s) from this.2
  have h0 : Q s := ⟨rfl, hs⟩
  have hw : ∀ E p e d t, p ≠ q → Q t → Q (singlewatch N E t p e .dir d).1 := fun E p e d t hp ht =>
    ht.other (singlewatch_other N E t p e _ d hp) (singlewatch_nat N E t p e _ d hp)
  have hu : ∀ E p t, p ≠ q → Q t → Q (singleunwatch N E t p .dir).1 := fun E p t hp ht =>
    ht.other (singleunwatch_other N E t p _ hp).1 (singleunwatch_other N E t p _ hp).2
  cases a with
  | watch E p e =>
    show Q (Watch N E s p e).1
    unfold Watch
    split
    · exact h0
    · exact watch_each Q (fun t => hw E p e _ t hq) (fun l _ t x _ ht => Keeps.single hr ht _ e _) h0
  | unwatch E p =>
    show Q (Unwatch N E s p).1
    unfold Unwatch
    split
    · exact h0
    · exact unwatch_each Q (fun t => hu E p t hq) (fun l _ t x _ ht => Keeps.unsingle hd hr ht _) h0
  | rewatch E p e =>
    show Q (Rewatch N E s p e).1
    unfold Rewatch
    split
    · exact h0
    · next d _ =>
      have h1 := unwatch_each (d := d) Q (fun t => hu E p t hq) (fun l _ t x _ ht => Keeps.unsingle hd hr ht _) h0
      split
      · next he =>
        rw [he] at h1
        exact watch_each Q (fun t => hw E p e _ t hq) (fun l _ t x _ ht => Keeps.single hr ht _ e _) h1
      · next he => rw [he] at h1; exact h1
  | note E p ge =>
    show Q (process N E (retrieved N s p) p ge).1
    refine process_each Q (fun t w ht => ht.other (renew_other t p w ge hq).1 (renew_other t p w ge hq).2)
      (fun t w ht => ht.other (del_other t p w hq).1 (del_other t p w hq).2) (fun l _ t e x _ ht => Keeps.single hr ht _ e _)
      (fun hne t w e ht => ?_) (h0.other rfl ?_)
    · have := moved_other (N := N) (E := E) p w e (hb hne) t.lkp.keys t
      exact ht.other this.1 this.2
    · unfold retrieved
      simp only
      split
      · rw [GoMap.get?_del]; exact if_neg hq
      · rfl

/-- **C126, executions.**  As long as nothing is called or notified for a path, and no directory above it is renamed, what is asked for the path itself stays;
and if every attempt to register it succeeds it stays watched natively. -/
theorem C126_run_partial (q : Path) : ∀ (l : List Deed) (s : St), (∀ a ∈ l, a.path ≠ q ∧ (a.renames N → below a.path q = false)) →
    direct (l.foldl (Deed.run N) s) q = direct s q ∧
    ((∀ a ∈ l, a.env.reg q = true) → direct s q ≠ 0 → (s.nat.get? q).isSome = true → ((l.foldl (Deed.run N) s).nat.get? q).isSome = true)
  | [], _, _ => ⟨rfl, fun _ _ h => h⟩
  | a :: l, s, h => by
    obtain ⟨h1, h2⟩ := h a (by simp)
    obtain ⟨k1, k2⟩ := C126_run_partial q l (a.run N s) fun b hb => h b (by simp [hb])
    have k := C126_requests s a q h1 h2
    refine ⟨k1.trans k, fun hr hd hs => k2 (fun b hb => hr b (by simp [hb])) (by rw [k]; exact hd) ?_⟩
    exact C126_native_partial s a q h1 h2 hd (hr a (by simp)) hs

end

/-! ### Where it is false, and examples -/

namespace AloneEx

def d : Path := [['d']]
def f : Path := [['d'], ['f']]

/-- A directory with two files. -/
def E : Env where
  stat p := if p = d then some true else some false
  opn _ := .ok
  reg _ := true
  unreg _ := true
  list p := if p = d then .ok [(['f'], false), (['g'], false)] else .error false

/-- The same; but the system does not register the first file. -/
def E' : Env := { E with reg := fun p => decide (p ≠ f) }

def la : List Deed := [.watch E f kqueue.P.write, .watch E d (kqueue.P.create ||| kqueue.P.rename)]
def s : St := la.foldl (Deed.run kqueue) {}
end AloneEx

/-- **C126, full statement refuted.**  A file is watched, and its directory, too.  When the directory is unwatched the native watch of the file is ended and
made again; if the latter fails the file is not watched any more, although a channel asks for it. -/
theorem C126_refuted : ¬ ∀ (l : List Deed) (s : St) (a : Deed) (q : Path), s = l.foldl (Deed.run kqueue) {} → a.path ≠ q → ¬ a.renames kqueue → direct s q ≠ 0 →
    (s.nat.get? q).isSome = true → ((a.run kqueue s).nat.get? q).isSome = true := by
  intro h
  have := h AloneEx.la AloneEx.s (.unwatch AloneEx.E' AloneEx.d) AloneEx.f rfl (by decide) (fun h => h) (by decide) (by decide)
  exact absurd this (by decide)

namespace AloneEx

/-- The hypotheses of the theorems are met: the file is watched by itself and because of its directory. -/
example : direct s f = kqueue.P.write ∧ viaDir s f = kqueue.P.create ||| kqueue.P.rename ∧ (s.nat.get? f).isSome = true ∧ d ≠ f ∧ E.reg f = true ∧
    s.lkp.keys.length = 3 ∧ direct s d = kqueue.P.create ||| kqueue.P.rename := by decide

/-- Unwatch of the directory removes the other file and keeps this one; renaming the directory removes both. -/
example : ((Deed.run kqueue s (.unwatch E d)).lkp.keys.length = 1) ∧ direct (Deed.run kqueue s (.unwatch E d)) f = kqueue.P.write ∧
    ((Deed.run kqueue s (.note E d kqueue.nRename)).lkp.keys.length = 0) ∧ Deed.renames kqueue (.note E d kqueue.nRename) ∧ below d f = true := by
  refine ⟨by decide, by decide, by decide, ?_, by decide⟩
  show kqueue.nRename &&& kqueue.nRename ≠ 0
  decide

/-- Unwatch of the file leaves what its directory asks for. -/
example : direct (Deed.run kqueue s (.unwatch E f)) f = 0 ∧ viaDir (Deed.run kqueue s (.unwatch E f)) f = kqueue.P.create ||| kqueue.P.rename ∧
    (∀ l, E.list d = .ok l → ∀ x ∈ l, x.1 ≠ []) := by
  refine ⟨by decide, by decide, ?_⟩
  intro l hl
  have : l = [(['f'], false), (['g'], false)] := by
    have h : E.list d = .ok [(['f'], false), (['g'], false)] := rfl
    rw [h] at hl
    injection hl with hl
    exact hl.symm
  subst this
  decide
end AloneEx

end Trg
end Verif
