/-
kqueue and FEN: a file that appears in a directory watched for Create, while other calls are made (C121).

The systems only tell that the directory has changed.  The watcher reads the directory and reports what is not in its table
(watcher_trigger.go:333-348); so whatever puts the new entry into the table before hides its creation.
-/
import Verif.PropsBsd

namespace Verif
namespace Trg
open NonRec (GoodPath)

/-! ### What calls keep -/

section
variable {N : Native} {E : Env}

theorem walkLoop_keep {σ : Type} {f : σ → Comp × Bool → σ × Res} {I : σ → Prop} : ∀ (l : List (Comp × Bool)) (s : σ),
    (∀ s, ∀ x ∈ l, I s → I (f s x).1) → I s → I (walkLoop f s l).1
  | [], _, _, h => h
  | x :: l, s, hf, h => by
    have h1 := hf s x (by simp) h
    unfold walkLoop
    split
    · rename_i heq
      rw [heq] at h1
      exact walkLoop_keep l _ (fun s y hy => hf s y (by simp [hy])) h1
    · rename_i heq
      rw [heq] at h1
      exact h1

/-- What a Watch for the path `q` does to single entries keeps `I`. -/
structure Adds (N : Native) (E : Env) (I : St → Prop) (q : Path) : Prop where
  sw : ∀ s e d, I s → I (singlewatch N E s q e .dir d).1
  swk : ∀ s e l, E.list q = .ok l → ∀ x ∈ l, I s → I (singlewatch N E s (join q x.1) e .ndir x.2).1

/-- What any call for the path `q` does to single entries keeps `I`. -/
structure Frame (N : Native) (E : Env) (I : St → Prop) (q : Path) : Prop extends Adds N E I q where
  suw : ∀ s, I s → I (singleunwatch N E s q .dir).1
  suwk : ∀ s c, I s → I (singleunwatch N E s (join q c) .ndir).1

variable {I : St → Prop} {q : Path}

theorem Adds.watch (h : Adds N E I q) {s : St} (hs : I s) (e : Event) (d : Bool) : I (watch N E s q e d).1 := by
  have h1 := h.sw s e d hs
  unfold Trg.watch
  split
  · rename_i heq; rw [heq] at h1; exact h1
  · rename_i heq; rw [heq] at h1; exact h1
  · rename_i heq
    rw [heq] at h1
    split
    · unfold walk
      split
      · exact h1
      · rename_i l hl
        refine walkLoop_keep _ _ (fun s x hx hs => ?_) h1
        have h2 := h.swk s e l hl x hx hs
        unfold watchKid
        split
        · rename_i heq; rw [heq] at h2; exact h2
        · exact h2
    · exact h1

theorem Frame.unwatch (h : Frame N E I q) {s : St} (hs : I s) (d : Bool) : I (unwatch N E s q d).1 := by
  unfold Trg.unwatch
  split
  · have h1 : I (walk E q (unwatchKid N E q) s).1 := by
      unfold walk
      split
      · exact hs
      · refine walkLoop_keep _ _ (fun s x _ hs => ?_) hs
        have h2 := h.suwk s x.1 hs
        unfold unwatchKid
        split
        · rename_i heq; rw [heq] at h2; exact h2
        · exact h2
    split
    · rename_i heq
      rw [heq] at h1
      exact h.suw _ h1
    · exact h1
  · exact h.suw _ hs

theorem Adds.Watch (h : Adds N E I q) {s : St} (hs : I s) (e : Event) : I (Watch N E s q e).1 := by
  unfold Trg.Watch
  split
  · exact hs
  · exact h.watch hs _ _

theorem Frame.Unwatch (h : Frame N E I q) {s : St} (hs : I s) : I (Unwatch N E s q).1 := by
  unfold Trg.Unwatch
  split
  · exact hs
  · exact h.unwatch hs _

theorem Frame.Rewatch (h : Frame N E I q) {s : St} (hs : I s) (e : Event) : I (Rewatch N E s q e).1 := by
  unfold Trg.Rewatch
  split
  · exact hs
  · rename_i d _
    have h1 := h.unwatch hs d
    split
    · rename_i heq; rw [heq] at h1; exact h.toAdds.watch h1 _ _
    · rename_i heq; rw [heq] at h1; exact h1
end

/-! ### A directory watched for Create and an entry of it that is not in the table -/

/-- The directory `p` is in the table, watched for Create; its entry `n` is not. -/
structure Unseen (N : Native) (p : Path) (n : Comp) (s : St) : Prop where
  dir : ∃ w, s.lkp.get? p = some w ∧ w.isDir = true ∧ w.eDir &&& N.P.create ≠ 0
  new : s.lkp.get? (p ++ [n]) = none

section
variable {N : Native} {E : Env} {p : Path} {n : Comp} {s : St}

theorem join_entry {p : Path} (hp : GoodPath p) (n : Comp) : join p n = p ++ [n] := by
  unfold join
  rw [if_neg]
  rintro rfl
  exact hp.2 (by simp)

theorem append_ne (p : Path) (n : Comp) : p ++ [n] ≠ p := fun h => by simpa using congrArg List.length h

theorem or_ne {a b c : Event} (h : a &&& c ≠ 0) : (a ||| b) &&& c ≠ 0 := by
  intro h0
  apply h
  rw [Event.bext] at h0 ⊢
  intro i
  have := h0 i
  simp only [BitVec.getLsbD_and, BitVec.getLsbD_or] at this ⊢
  revert this
  cases a.getLsbD i <;> cases b.getLsbD i <;> cases c.getLsbD i <;> simp

theorem add_eDir {w : W} (h : w.eDir &&& N.P.create ≠ 0) (m : Mode) (e : Event) : (w.add m e).eDir &&& N.P.create ≠ 0 := by
  cases m <;> first | exact or_ne h | exact h

theorem add_isDir (w : W) (m : Mode) (e : Event) : (w.add m e).isDir = w.isDir := by cases m <;> rfl

theorem Unseen.singlewatch (h : Unseen N p n s) {q : Path} (hq : q ≠ p ++ [n]) (e : Event) (m : Mode) (d : Bool) :
    Unseen N p n (singlewatch N E s q e m d).1 := by
  refine ⟨?_, by rw [singlewatch_other N E s q e m d hq]; exact h.new⟩
  obtain ⟨w, h1, h2, h3⟩ := h.dir
  by_cases hp : q = p
  · subst hp
    refine ⟨w.add m e, ?_, by rw [add_isDir]; exact h2, add_eDir h3 m e⟩
    unfold Trg.singlewatch
    rw [h1]
    simp only
    split <;> simp [GoMap.get?_set]
  · exact ⟨w, by rw [singlewatch_other N E s q e m d hp]; exact h1, h2, h3⟩

theorem Unseen.singleunwatch (h : Unseen N p n s) {q : Path} {m : Mode} (hm : q = p → m = .ndir) :
    Unseen N p n (singleunwatch N E s q m).1 := by
  by_cases hq : q = p ++ [n]
  · subst hq
    have : Trg.singleunwatch N E s (p ++ [n]) m = (s, .notWatched) := by
      unfold Trg.singleunwatch
      rw [h.new]
    rw [this]
    exact h
  by_cases hp : q = p
  · subst hp
    cases hm rfl
    obtain ⟨w, h1, h2, h3⟩ := h.dir
    have hs : ∀ nat, Unseen N q n { s with lkp := s.lkp.set q (w.sub .ndir), nat := nat } := fun nat =>
      ⟨⟨w.sub .ndir, by simp [GoMap.get?_set], h2, h3⟩, by
        simp only [GoMap.get?_set, if_neg (Ne.symm (append_ne q n))]; exact h.new⟩
    unfold Trg.singleunwatch
    rw [h1]
    simp only
    split
    · split
      · have h4 := (hs (s.nat.del q)).singlewatch (E := E) (q := q) (Ne.symm (append_ne q n)) ((w.sub .ndir).eNonDir ||| (w.sub .ndir).eDir)
          (if (w.sub .ndir).eNonDir ≠ 0 then .ndir else .dir) (w.sub .ndir).isDir
        split
        · rename_i heq; rw [heq] at h4; exact h4
        · rename_i heq; rw [heq] at h4; exact h4
        · rename_i heq; rw [heq] at h4; exact h4
      · rename_i hz
        exfalso
        apply hz
        intro h0
        apply h3
        have h0' : w.eDir = 0 := by
          have : (0 : Event) ||| w.eDir = 0 := h0
          simpa using this
        rw [h0']
        simp
    · exact hs s.nat
  · obtain ⟨w, h1, h2, h3⟩ := h.dir
    exact ⟨⟨w, by rw [(singleunwatch_other N E s q m hp).1]; exact h1, h2, h3⟩, by rw [(singleunwatch_other N E s q m hq).1]; exact h.new⟩

theorem join_ne_entry {q : Path} (hp : GoodPath p) (hq : q ≠ p) (c : Comp) : join q c ≠ p ++ [n] := by
  unfold join
  split
  · intro h
    have := congrArg List.length h
    simp at this
    exact hp.1 this
  · intro h
    exact hq (List.append_inj_left' h rfl)

/-- Calls for other paths than the directory and the entry. -/
theorem Unseen.frame (hp : GoodPath p) {q : Path} (hq : q ≠ p) (hqn : q ≠ p ++ [n]) : Frame N E (Unseen N p n) q where
  sw := fun _ e d h => h.singlewatch hqn e .dir d
  swk := fun _ e _ _ x _ h => h.singlewatch (join_ne_entry hp hq x.1) e .ndir x.2
  suw := fun _ h => h.singleunwatch fun hh => absurd hh hq
  suwk := fun _ _ h => h.singleunwatch fun _ => rfl

theorem Unseen.del (h : Unseen N p n s) {q : Path} (hq : q ≠ p) (w : W) : Unseen N p n (del N s q w) := by
  obtain ⟨w', h1, h2, h3⟩ := h.dir
  refine ⟨⟨w', ?_, h2, h3⟩, ?_⟩
  · simp only [Trg.del, GoMap.get?_del, if_neg hq]; exact h1
  · simp only [Trg.del, GoMap.get?_del]
    split
    · rfl
    · exact h.new

theorem Unseen.renew (h : Unseen N p n s) {q : Path} (hr : q = p → E.reg p = true) (w : W) (ge : Event) : Unseen N p n (renew N E s q w ge) := by
  unfold Trg.renew
  split
  · split
    · exact h
    · split
      · exact ⟨h.dir, h.new⟩
      · rename_i hreg
        exact h.del (fun hq => hreg (by rw [hq]; exact hr hq)) w
  · exact h

theorem Unseen.moved {q : Path} (hq : below q p = false) (w : W) (e : Event) : ∀ (l : List Path) (s : St), Unseen N p n s →
    Unseen N p n (moved N E q w e s l).1
  | [], _, h => h
  | k :: l, s, h => by
    unfold Trg.moved
    split
    · rename_i hb
      refine Unseen.moved hq w e l _ (h.singleunwatch fun hk => ?_)
      subst hk
      rw [hq] at hb
      cases hb
    · exact Unseen.moved hq w e l s h

/-- A Create of the entry is among the events. -/
def Told (N : Native) (p : Path) (n : Comp) (evs : List Ev) : Prop := ∃ d, (⟨p ++ [n], N.P.create, d⟩ : Ev) ∈ evs

theorem Told.append_left {evs : List Ev} (h : Told N p n evs) (evs' : List Ev) : Told N p n (evs ++ evs') :=
  h.imp fun _ h => List.mem_append_left _ h

theorem Told.append_right {evs : List Ev} (h : Told N p n evs) (evs' : List Ev) : Told N p n (evs' ++ evs) :=
  h.imp fun _ h => List.mem_append_right _ h

/-- The scan of the directory. -/
theorem scan_told (hp : GoodPath p) {w : W} (hc : w.eDir &&& N.P.create ≠ 0) : ∀ (l : List (Comp × Bool)) (z : St × List Ev),
    Unseen N p n z.1 ∨ Told N p n z.2 →
    (Unseen N p n (l.foldl (fun z x => (scanKid N E p w z x).1) z).1 ∨ Told N p n (l.foldl (fun z x => (scanKid N E p w z x).1) z).2) ∧
    (E.opn (p ++ [n]) = .skip ∨ (E.opn (p ++ [n]) = .ok ∧ E.reg (p ++ [n]) = true) → n ∈ l.map (·.1) ∨ Told N p n z.2 →
      Told N p n (l.foldl (fun z x => (scanKid N E p w z x).1) z).2)
  | [], z, h => ⟨h, fun _ h => by simpa using h⟩
  | x :: l, z, h => by
    rw [List.foldl_cons]
    have key : (Unseen N p n (scanKid N E p w z x).1.1 ∨ Told N p n (scanKid N E p w z x).1.2) ∧
        (E.opn (p ++ [n]) = .skip ∨ (E.opn (p ++ [n]) = .ok ∧ E.reg (p ++ [n]) = true) → n = x.1 ∨ Told N p n z.2 →
          Told N p n (scanKid N E p w z x).1.2) := by
      rw [scanKid_eq]
      simp only
      rcases h with h | h
      · by_cases hx : x.1 = n
        · subst hx
          have hev : (E.opn (p ++ [x.1]) = .skip ∨ (E.opn (p ++ [x.1]) = .ok ∧ E.reg (p ++ [x.1]) = true)) →
              Told N p x.1 (scanEvents N E p w z.1 x) := by
            intro ho
            refine ⟨x.2, ?_⟩
            have : (Trg.singlewatch N E z.1 (p ++ [x.1]) w.eDir .ndir x.2).2 = .ok := by
              unfold Trg.singlewatch
              rw [h.new]
              rcases ho with ho | ⟨ho, hr⟩
              · rw [ho]
              · rw [ho]; simp [hr]
            unfold scanEvents
            rw [join_entry hp, this]
            simp only
            rw [if_pos hc]
            simp
          constructor
          · cases ho : E.opn (p ++ [x.1]) with
            | skip => exact .inr ((hev (.inl ho)).append_right _)
            | err b =>
              left
              have : Trg.singlewatch N E z.1 (p ++ [x.1]) w.eDir .ndir x.2 = (z.1, .err b) := by
                unfold Trg.singlewatch
                rw [h.new, ho]
              rw [join_entry hp, this]
              exact h
            | ok =>
              cases hr : E.reg (p ++ [x.1]) with
              | true => exact .inr ((hev (.inr ⟨ho, hr⟩)).append_right _)
              | false =>
                left
                rw [join_entry hp]
                unfold Trg.singlewatch
                rw [h.new, ho]
                simp only [hr]
                exact ⟨h.dir, h.new⟩
          · exact fun ho _ => (hev ho).append_right _
        · refine ⟨.inl (h.singlewatch ?_ _ _ _), fun _ hh => ?_⟩
          · rw [join_entry hp]
            intro hh
            exact hx (by simpa using hh)
          · rcases hh with hh | hh
            · exact absurd hh.symm hx
            · exact hh.append_left _
      · exact ⟨.inr (h.append_left _), fun _ _ => h.append_left _⟩
    obtain ⟨h1, h2⟩ := scan_told hp hc l (scanKid N E p w z x).1 key.1
    refine ⟨h1, fun ho hh => h2 ho ?_⟩
    simp only [List.map_cons, List.mem_cons] at hh
    rcases hh with (hh | hh) | hh
    · exact .inr (key.2 ho (.inl hh))
    · exact .inl hh
    · exact .inr (key.2 ho (.inr hh))

/-- A notification of a path.  It may be about a removal or renaming unless it is of the directory or of one above. -/
theorem Unseen.process (h : Unseen N p n s) (hp : GoodPath p) {q : Path} {ge : Event} (hr : q = p → E.reg p = true)
    (hge : ge &&& (N.nRemove ||| N.nRename) = 0 ∨ ¬ q <+: p) :
    Unseen N p n (Trg.process N E s q ge).1 ∨ Told N p n (Trg.process N E s q ge).2 := by
  have hne : ge &&& (N.nRemove ||| N.nRename) ≠ 0 → q ≠ p ∧ below q p = false := by
    intro hg
    have hg := hge.resolve_left hg
    refine ⟨fun hq => hg (hq ▸ List.prefix_refl _), ?_⟩
    unfold below
    rw [Bool.and_eq_false_iff]
    left
    rw [← Bool.not_eq_true, List.isPrefixOf_iff_prefix]
    exact hg
  unfold Trg.process
  split
  · exact .inl h
  · rename_i w hw
    simp only
    have h1 := h.renew (E := E) hr w ge
    split
    · exact .inl h1
    · have key : Unseen N p n (if w.isDir = true then Trg.dir N E (Trg.renew N E s q w ge) q w (decode N.nat2not ge w.all) ge
          else (Trg.renew N E s q w ge, [⟨q, decode N.nat2not ge w.all, w.isDir⟩])).1 ∨
          Told N p n (if w.isDir = true then Trg.dir N E (Trg.renew N E s q w ge) q w (decode N.nat2not ge w.all) ge
          else (Trg.renew N E s q w ge, [⟨q, decode N.nat2not ge w.all, w.isDir⟩])).2 := by
        split
        · unfold Trg.dir
          split
          · rename_i hg
            rw [BitVec.or_comm] at hg
            obtain ⟨g1, g2⟩ := hne hg
            left
            simp only
            refine Unseen.del ?_ g1 w
            split
            · exact Unseen.moved g2 w _ _ _ h1
            · exact h1
          · split
            · unfold walk
              split
              · exact .inl h1
              · rename_i l _
                simp only [scan_fold]
                by_cases hq : q = p
                · subst hq
                  obtain ⟨w', k1, _, k3⟩ := h.dir
                  rw [hw] at k1
                  cases k1
                  exact (scan_told hp k3 l (Trg.renew N E s q w ge, []) (.inl h1)).1
                · left
                  have := walkLoop_keep (f := scanKid N E q w) (I := fun z : St × List Ev => Unseen N p n z.1) l (Trg.renew N E s q w ge, [])
                    (fun z x _ hz => by
                      rw [scanKid_eq]
                      exact hz.singlewatch (join_ne_entry hp hq x.1) _ _ _) h1
                  rw [scan_fold] at this
                  exact this
            · exact .inl h1
        · exact .inl h1
      split
      · rename_i hg
        rcases key with key | key
        · exact .inl (key.del (hne hg).1 w)
        · exact .inr key
      · exact key

/-- A notification that the contents of the directory have changed, and the entry is found. -/
theorem Unseen.found (h : Unseen N p n s) (hp : GoodPath p) {ge : Event} (hr : E.reg p = true) (hge : ge &&& (N.nRemove ||| N.nRename) = 0)
    (hw : ge &&& N.nWrite ≠ 0) {l : List (Comp × Bool)} (hl : E.list p = .ok l) (hn : n ∈ l.map (·.1))
    (ho : E.opn (p ++ [n]) = .skip ∨ (E.opn (p ++ [n]) = .ok ∧ E.reg (p ++ [n]) = true)) : Told N p n (Trg.process N E s p ge).2 := by
  have hge' : ge &&& (N.nRename ||| N.nRemove) = 0 := by rw [BitVec.or_comm]; exact hge
  obtain ⟨w, k1, k2, k3⟩ := h.dir
  have h1 := h.renew (E := E) (q := p) (fun _ => hr) w ge
  unfold Trg.process
  rw [k1]
  simp only [k2, if_true]
  rw [if_neg (by rintro ⟨_, h | h⟩; exact absurd h (by simp); exact hw h), if_neg (by simp [hge])]
  unfold Trg.dir
  rw [if_neg (by simp [hge']), if_pos hw]
  unfold walk
  rw [hl]
  simp only [scan_fold]
  exact (scan_told hp k3 l (Trg.renew N E s p w ge, []) (.inl h1)).2 ho (.inl hn)
end

/-! ### C121: the watcher -/

/-- What happens to the watcher: calls of the tree, and notifications that are retrieved and processed; each with what the OS answers. -/
inductive Act
  | watch (E : Env) (q : Path) (e : Event)
  | rewatch (E : Env) (q : Path) (e : Event)
  | unwatch (E : Env) (q : Path)
  | note (E : Env) (q : Path) (ge : Event)

/-- The state afterwards and the events sent. -/
def act (N : Native) (s : St) : Act → St × List Ev
  | .watch E q e => ((Watch N E s q e).1, [])
  | .rewatch E q e => ((Rewatch N E s q e).1, [])
  | .unwatch E q => ((Unwatch N E s q).1, [])
  | .note E q ge => process N E (retrieved N s q) q ge

def acts (N : Native) : St → List Act → St × List Ev
  | s, [] => (s, [])
  | s, a :: l => ((acts N (act N s a).1 l).1, (act N s a).2 ++ (acts N (act N s a).1 l).2)

/-- Calls are not for the directory nor for the entry; the directory is not removed or renamed, nor is one above it, and it can be registered again. -/
def Act.Apart (N : Native) (p : Path) (n : Comp) : Act → Prop
  | .watch _ q _ | .rewatch _ q _ | .unwatch _ q => q ≠ p ∧ q ≠ p ++ [n]
  | .note E q ge => (q = p → E.reg p = true) ∧ (ge &&& (N.nRemove ||| N.nRename) = 0 ∨ ¬ q <+: p)

section
variable {N : Native} {p : Path} {n : Comp}

theorem Unseen.act {s : St} (h : Unseen N p n s) (hp : GoodPath p) (a : Act) (ha : a.Apart N p n) :
    Unseen N p n (Trg.act N s a).1 ∨ Told N p n (Trg.act N s a).2 := by
  cases a with
  | watch E q e => exact .inl ((Unseen.frame hp ha.1 ha.2).toAdds.Watch h e)
  | rewatch E q e => exact .inl ((Unseen.frame hp ha.1 ha.2).Rewatch h e)
  | unwatch E q => exact .inl ((Unseen.frame hp ha.1 ha.2).Unwatch h)
  | note E q ge => exact Unseen.process (s := retrieved N s q) ⟨h.dir, h.new⟩ hp ha.1 ha.2

theorem Unseen.acts (hp : GoodPath p) : ∀ (l : List Act) (s : St), Unseen N p n s → (∀ a ∈ l, a.Apart N p n) →
    Unseen N p n (Trg.acts N s l).1 ∨ Told N p n (Trg.acts N s l).2
  | [], _, h, _ => .inl h
  | a :: l, s, h, hl => by
    rcases h.act hp a (hl a (by simp)) with h1 | h1
    · rcases Unseen.acts hp l _ h1 (fun b hb => hl b (by simp [hb])) with h2 | h2
      · exact .inl h2
      · exact .inr (h2.append_right _)
    · exact .inr (h1.append_left _)

/-- **C121 for the watcher, without calls for the directory or the new entry**: the directory `p` is watched for Create and has no entry `n` in the
watcher's table.  Whatever calls for other paths and notifications come, and whatever the OS answers to them: once a notification that the contents
of `p` have changed is processed, with `n` in the directory and possible to open, a Create of it has been sent.  Missing are calls for `p` and `p/n`;
with them it is false (`C121_refuted`). -/
theorem C121_trg_partial (hp : GoodPath p) {s : St} {w : W} (hw : s.lkp.get? p = some w) (hd : w.isDir = true) (hc : w.eDir &&& N.P.create ≠ 0)
    (hn : s.lkp.get? (p ++ [n]) = none) {l : List Act} (hl : ∀ a ∈ l, a.Apart N p n) {E : Env} {ge : Event} (hr : E.reg p = true)
    (hge : ge &&& (N.nRemove ||| N.nRename) = 0) (hwr : ge &&& N.nWrite ≠ 0) {es : List (Comp × Bool)} (hes : E.list p = .ok es)
    (hin : n ∈ es.map (·.1)) (ho : E.opn (p ++ [n]) = .skip ∨ (E.opn (p ++ [n]) = .ok ∧ E.reg (p ++ [n]) = true)) :
    ∃ d, (⟨p ++ [n], N.P.create, d⟩ : Ev) ∈ (acts N s (l ++ [.note E p ge])).2 := by
  have happ : ∀ (l : List Act) (s : St), (acts N s (l ++ [.note E p ge])).2 = (acts N s l).2 ++ (act N (acts N s l).1 (.note E p ge)).2 := by
    intro l
    induction l with
    | nil => intro s; simp [acts]
    | cons a l ih => intro s; simp [acts, ih]
  rw [happ]
  rcases Unseen.acts hp l s ⟨⟨w, hw, hd, hc⟩, hn⟩ hl with h | h
  · exact (Unseen.found (s := retrieved N (acts N s l).1 p) ⟨h.dir, h.new⟩ hp hr hge hwr hes hin ho : Told N p n _).append_right _
  · exact h.append_left _
end

namespace NewEx
open Ex (E7 kd ke kf steady7)

/-- Without the file `/d/e/f`. -/
def E0 : Env :=
  { E7 with
    stat := fun p => if p = [kd, ke, kf] then none else E7.stat p
    list := fun p => if p = [kd, ke] then .ok [] else E7.list p }

theorem steady0 : Steady E0 := by
  have hs : ∀ q, q ≠ [kd, ke, kf] → E0.stat q = E7.stat q := fun q h => by simp [E0, h]
  have hn : ∀ q, E0.stat q ≠ none → q ≠ [kd, ke, kf] ∧ E7.stat q ≠ none := by
    intro q h
    by_cases hq : q = [kd, ke, kf]
    · exact absurd (by simp [E0, hq]) h
    · exact ⟨hq, hs q hq ▸ h⟩
  constructor
  · exact fun p h => steady7.form p (hn p h).2
  · intro p h
    have hp := (hn p (by rw [h]; simp)).1
    obtain ⟨l, h1, h2, h3⟩ := steady7.list p (hs p hp ▸ h)
    by_cases hpe : p = [kd, ke]
    · subst hpe
      refine ⟨[], rfl, by simp, fun c d => ⟨fun h => by simp at h, ?_⟩⟩
      rintro ⟨hc, hx⟩
      exfalso
      obtain ⟨k1, _⟩ := hn _ (by rw [hx]; simp)
      have k2 := (h3 c d).2 ⟨hc, hs _ k1 ▸ hx⟩
      have : l = [(kf, false)] := by
        have : E7.list [kd, ke] = .ok [(kf, false)] := rfl
        rw [this] at h1
        cases h1
        rfl
      subst this
      cases List.mem_singleton.1 k2
      exact k1 rfl
    · refine ⟨l, by simp [E0, hpe, h1], h2, fun c d => (h3 c d).trans ⟨fun hh => ⟨hh.1, ?_⟩, fun hh => ⟨hh.1, ?_⟩⟩⟩
      · rw [hs _ (join_ne_entry (p := [kd, ke]) (n := kf) (by simp [GoodPath, kd, ke]) hpe c)]; exact hh.2
      · rw [← hs _ (join_ne_entry (p := [kd, ke]) (n := kf) (by simp [GoodPath, kd, ke]) hpe c)]; exact hh.2
  · intro p c hp hc h
    have h1 := steady7.isdir p c hp hc (hn _ h).2
    by_cases hpx : p = [kd, ke, kf]
    · subst hpx; cases h1
    · rw [hs p hpx]; exact h1
  · exact fun p h => steady7.opn p (hn p h).2
  · exact fun p => steady7.reg p
  · exact fun p => steady7.unreg p

/-- `/d/e` is watched for Create. -/
def s0 : St := (Watch kqueue E0 {} [kd, ke] kqueue.P.create).1

/-- `/d` is watched and unwatched by another, something happens to it, and then the file is found. -/
example : ∃ d, (⟨[kd, ke, kf], kqueue.P.create, d⟩ : Ev) ∈
    (acts kqueue s0 ([.watch E7 [kd] 0x400, .note E7 [kd] 0x2, .unwatch E7 [kd]] ++ [.note E7 [kd, ke] 0x2])).2 :=
  C121_trg_partial (N := kqueue) (p := [kd, ke]) (n := kf) (by simp [GoodPath, kd, ke]) (w := ⟨0, true, kqueue.P.create, 0⟩)
    (by decide) rfl (by decide) (by decide) (by simp [Act.Apart, E7, kd, ke, kf]; decide) (E := E7) rfl (by decide) (by decide)
    (es := [(kf, false)]) rfl (by decide) (.inr ⟨rfl, rfl⟩)
end NewEx

end Trg

namespace Bsd
open Trg (kqueue Env)
open NonRec (Op regOf NoFail GoodPath)
open Spec (wants)
open Plain (Leaves)

/-! ### C121 for the whole program -/

/-- C121 in full, on the BSDs: channel `c` is registered for Create on the directory `p`, nothing is on its way.  A file `n` appears in it, and the kernel
is to report that the directory has changed.  Others call Watch and Stop, `c` does not.  Once nothing is on its way any more, `c` was signalled. -/
def C121_bsd : Prop :=
  ∀ (cfg : Sched.Cfg) (E E' : Env) (ops₀ ops : List Op) (calls₀ calls : List (Call × Bool)) (chgs₀ chgs : List (Path × Event))
    (sg₀ sg : List (Key × EventInfo)) (s s' : KSt) (c : Nat) (p : Path) (n : Comp),
    Trg.Steady E → Trg.Steady E' → E.stat (p ++ [n]) = none → E'.stat (p ++ [n]) ≠ none → (∀ q, q ≠ p ++ [n] → E'.stat q = E.stat q) →
    KRun cfg (calm E) KSt.init ops₀ calls₀ chgs₀ sg₀ s → s.plan = none → s.Quiet → (∀ op ∈ ops₀, NoFail c op) → GoodPath p →
    wants (regOf P ops₀) c P.create p = true →
    KRun cfg (calm E') s ops calls chgs sg s' → (∃ fl, (p, fl) ∈ chgs ∧ kqueue.nWrite ⊑ fl) → (∀ op ∈ ops, Leaves P c (p ++ [n]) op) →
    s'.plan = none → s'.Quiet → ∃ ei, (Key.user c, ei) ∈ sg ∧ ei.event = P.create ∧ ei.path = p ++ [n]

namespace NewEx
open Ex (cfg d e x Wr goodE goodX uW)
open Trg.Ex (E7 kd ke kf steady7)
open Trg.NewEx (E0 steady0)

def Cr : Event := P.create
theorem uC : NonRec.UserEvents P Cr := by unfold NonRec.UserEvents; decide
def req1 : Sched.Req := .watch e false 1 Cr
def op1 : Op := .watch e false 1 Cr true
def t1 : St := (NonRec.watchOp P .ok (.dir .nil) NonRec.init e false 1 Cr).1
theorem step1 : NonRec.Step P true NonRec.init op1 t1 :=
  NonRec.Step.watch (O := .ok) goodE uC (by simp [DirTree.Named, Entries.Named]) (fun _ _ => rfl)
def w1 : Trg.St := (Trg.Watch kqueue E0 {} e Cr).1

/-- Channel 1 watches the empty directory `/d/e` for Create. -/
def s1 : KSt :=
  { sys := { Sched.State.init Y with tree := t1, next := 1 }, w := w1, pend := live w1 (fun _ => 0), log := [(.watch e Cr, true)] }

theorem run1 : KRun cfg (calm E0) KSt.init [op1] [(.watch e Cr, true)] [] [] s1 := by
  have h := KRun.refl (cfg := cfg) (X := calm E0) (s := KSt.init)
  have h := h.step (.go _ _ (.call (Y := Y) req1 (show GoodPath e ∧ NonRec.UserEvents P Cr from ⟨goodE, uC⟩) trivial) trivial)
  have h := h.step (.go _ _ (.lock 0 req1 [] [] rfl (by rintro ⟨_, _, _, _, h⟩; cases h)
    (by rintro ⟨_, _, h | h⟩ <;> cases h <;> contradiction) (by rintro ⟨_, h | h⟩ <;> cases h)) trivial)
  have h := h.step (.plan req1 [op1] t1 [(.watch e Cr, true)] (.inl ⟨0, .head _⟩) rfl ⟨NonRec.Steps.nil.snoc step1, op1, ⟨_, rfl⟩, .inl rfl⟩ rfl)
  have h := h.step (.call E0 (.watch e Cr) true [] w1 rfl rfl (.watch e Cr (by decide)))
  have h := h.step (.effect 0 req1 [] [] t1 rfl rfl rfl)
  have h := h.step (.go _ _ (.unlock 0 req1 [] [] rfl) trivial)
  have h := h.step (.go _ _ (.ret 0 req1 [] [] rfl) trivial)
  exact h

theorem quiet1 : s1.Quiet := by
  refine ⟨fun q => ?_, rfl, rfl, rfl, rfl⟩
  simp only [s1, live]
  split <;> rfl

def req2 : Sched.Req := .watch x false 2 Wr
def op2 : Op := .watch x false 2 Wr true
def t2 : St := (NonRec.watchOp P .ok (.dir .nil) t1 x false 2 Wr).1
theorem step2 : NonRec.Step P true t1 op2 t2 :=
  NonRec.Step.watch (O := .ok) goodX uW (by simp [DirTree.Named, Entries.Named]) (fun _ _ => rfl)
def w2 : Trg.St := (Trg.Watch kqueue E7 w1 x Wr).1

/-- `/d/e/f` appears; channel 2 watches it before the notification of `/d/e` is retrieved. -/
theorem run2 : ∃ s', KRun cfg (calm E7) s1 [op2] [(.watch x Wr, true)] [(e, 0x2)] [] s' ∧ s'.plan = none ∧ s'.Quiet := by
  have h := KRun.refl (cfg := cfg) (X := calm E7) (s := s1)
  have h := h.step (.change e 0x2 0x2 (by unfold calm; decide) (by decide) (by decide))
  have h := h.step (.go _ _ (.call (Y := Y) req2 (show GoodPath x ∧ NonRec.UserEvents P Wr from ⟨goodX, uW⟩) trivial) trivial)
  have h := h.step (.go _ _ (.lock 1 req2 [] [] rfl (by rintro ⟨_, _, _, _, h⟩; cases h)
    (by rintro ⟨_, _, h | h⟩ <;> cases h <;> contradiction) (by rintro ⟨_, h | h⟩ <;> cases h)) trivial)
  have h := h.step (.plan req2 [op2] t2 [(.watch x Wr, true)] (.inl ⟨1, .head _⟩) rfl ⟨NonRec.Steps.nil.snoc step2, op2, ⟨_, rfl⟩, .inl rfl⟩ rfl)
  have h := h.step (.call E7 (.watch x Wr) true [] w2 rfl rfl (.watch x Wr (by decide)))
  have h := h.step (.effect 1 req2 [] [] t2 rfl rfl rfl)
  have h := h.step (.go _ _ (.unlock 1 req2 [] [] rfl) trivial)
  have h := h.step (.go _ _ (.ret 1 req2 [] [] rfl) trivial)
  have h := h.step (.wait e ⟨0, true, Cr, 0⟩ rfl rfl (by decide) (by decide))
  have h := h.step (.process E7 0 e 0x2 rfl (by decide))
  refine ⟨_, h, rfl, fun q => ?_, rfl, by decide, rfl, rfl⟩
  by_cases hq : q = e
  · subst hq; rfl
  · simp only [live, hq, if_false, s1]
    split <;> simp
end NewEx

/-- **C121 is false of the code**: channel 1 is registered for Create on the empty directory `/d/e`.  The file `/d/e/f` appears, and before the watcher looks
at the directory channel 2 is registered for Write on the file.  The watcher, then reading the directory, has the file in its table already and tells
nobody that it was created (watcher_trigger.go:333-348). -/
theorem C121_refuted : ¬ C121_bsd := by
  intro h
  obtain ⟨s', h1, h2, h3⟩ := NewEx.run2
  obtain ⟨ei, hm, _⟩ := h Ex.cfg Trg.NewEx.E0 Trg.Ex.E7 _ _ _ _ _ _ _ _ _ _ 1 Ex.e Trg.Ex.kf Trg.NewEx.steady0 Trg.Ex.steady7 (by decide) (by decide)
    (fun q hq => (if_neg hq).symm) NewEx.run1 rfl NewEx.quiet1 (by simp [NewEx.op1, NoFail]) Ex.goodE (by decide) h1
    ⟨0x2, by simp, by decide⟩ (by simp [NewEx.op2, Leaves]) h2 h3
  cases hm

end Bsd
end Verif
