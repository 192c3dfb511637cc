/-
C46: concurrent calls and deliveries are equivalent to sequential ones.
-/
import Verif.PropsSched2

namespace Verif
namespace Sched

variable {Y : Sys} {cfg : Cfg}

/-- The requests that took effect, in order. -/
def effects {R : Type} (t : List (Lab R)) : List R :=
  t.filterMap fun | .effect _ r => some r | .intEffect r => some r | _ => none

/-- The keys to which goroutine `i` has sent, in order. -/
def sentBy (i : Nat) {R : Type} (t : List (Lab R)) : List Key :=
  t.filterMap fun | .send j k _ => if j = i then some k else none | _ => none

theorem sentBy_append (i : Nat) {R : Type} (t t' : List (Lab R)) : sentBy i (t ++ t') = sentBy i t ++ sentBy i t' := by
  simp [sentBy]

theorem effects_append {R : Type} (t t' : List (Lab R)) : effects (t ++ t') = effects t ++ effects t' := by
  simp [effects]

/-- Goroutines with an identifier not yet used have sent nothing; the others what they remember. -/
structure Sent (t : List (Lab Y.Req)) (s : State Y) : Prop where
  fresh : ∀ i, s.next ≤ i → sentBy i t = []
  start : ∀ i ei, (i, ei, Disp.start) ∈ s.disp → sentBy i t = []
  reading : ∀ i ei d a, (i, ei, Disp.reading d a) ∈ s.disp → sentBy i t = d.reverse ∧
    ∀ k, d.count k ≤ (Y.sends s.tree ei).count k

theorem Sent.same {t : List (Lab Y.Req)} {s s' : State Y} {l : Lab Y.Req} (h : Sent t s)
    (hl : ∀ i, sentBy i [l] = []) (hn : s.next ≤ s'.next) (hd : s'.disp = s.disp)
    (ht : s'.tree = s.tree ∨ s.nR = 0) : Sent (t ++ [l]) s' where
  fresh i hi := by rw [sentBy_append, hl, h.fresh i (by omega)]; rfl
  start i ei hm := by rw [sentBy_append, hl, h.start i ei (by rwa [← hd])]; rfl
  reading i ei d a hm := by
    rw [hd] at hm
    obtain ⟨h1, h2⟩ := h.reading i ei d a hm
    rw [sentBy_append, hl, h1]
    rcases ht with ht | ht
    · rw [ht]; exact ⟨by simp, h2⟩
    · have : s.Reading := ⟨i, ei, d, a, hm⟩
      rw [reading_iff] at this; omega

/-- Replacing the state of one goroutine. -/
theorem Sent.repl {t : List (Lab Y.Req)} {s : State Y} {l : Lab Y.Req} {i : Nat} {ei : EventInfo} {x : Disp}
    {a b : List (Nat × EventInfo × Disp)} (h : Sent t s) (hid : Ids s) (hh : s.disp = a ++ (i, ei, x) :: b)
    (hl : ∀ j, j ≠ i → sentBy j [l] = []) (new : List (Nat × EventInfo × Disp))
    (hnew : ∀ z ∈ new, z.1 = i ∧ (z.2.2 = .start → sentBy i (t ++ [l]) = []) ∧
      ∀ d ab, z.2.2 = .reading d ab → sentBy i (t ++ [l]) = d.reverse ∧ ∀ k, d.count k ≤ (Y.sends s.tree z.2.1).count k)
    (rq : List EventInfo) :
    Sent (t ++ [l]) { s with disp := a ++ (new ++ b), rq := rq } := by
  have hi : i < s.next := hid.disp (i, ei, x) (by rw [hh]; simp)
  have hne : ∀ z ∈ a ++ b, z.1 ≠ i := by
    have := hid.nodup
    rw [hh] at this
    simp only [List.map_append, List.map_cons] at this
    rw [List.perm_middle.nodup_iff, List.nodup_cons] at this
    intro z hz hzi
    exact this.1 (by rw [← List.map_append]; exact List.mem_map.2 ⟨z, hz, hzi⟩)
  have hold : ∀ z ∈ a ++ b, z ∈ s.disp := by
    intro z hz
    rw [hh]
    rcases List.mem_append.1 hz with hz | hz <;> simp [hz]
  have hsplit : ∀ z, z ∈ a ++ (new ++ b) → z ∈ a ++ b ∨ z ∈ new := by
    intro z hz
    simp only [List.mem_append] at hz ⊢
    rcases hz with hz | hz | hz <;> simp [hz]
  refine ⟨fun j hj => ?_, fun j ej hm => ?_, fun j ej d ab hm => ?_⟩
  · have hj' : s.next ≤ j := hj
    rw [sentBy_append, h.fresh j hj', hl j (by omega)]; rfl
  · rcases hsplit _ hm with hm | hm
    · rw [sentBy_append, hl j (hne _ hm), h.start j ej (hold _ hm)]; rfl
    · obtain ⟨h1, h2, _⟩ := hnew _ hm
      simp only at h1; subst h1
      exact h2 rfl
  · rcases hsplit _ hm with hm | hm
    · obtain ⟨h1, h2⟩ := h.reading j ej d ab (hold _ hm)
      rw [sentBy_append, hl j (hne _ hm), h1]
      exact ⟨by simp, h2⟩
    · obtain ⟨h1, _, h3⟩ := hnew _ hm
      simp only at h1; subst h1
      exact h3 d ab rfl

theorem Exec.sent (L : Laws Y) {t : List (Lab Y.Req)} {s : State Y} (h : Exec Y cfg t s) : Sent t s := by
  induction h with
  | nil => exact ⟨fun _ _ => rfl, by simp [State.init], by simp [State.init]⟩
  | @snoc t s l s' hx ht ih =>
    have hi := Exec.inv L hx
    cases ht with
    | report evs hok hh => exact ih.same (fun _ => rfl) (Nat.le_refl _) rfl (.inl rfl)
    | push ei r hh hc => exact ih.same (fun _ => rfl) (Nat.le_refl _) rfl (.inl rfl)
    | call r hok hu => exact ih.same (fun _ => rfl) (Nat.le_succ _) rfl (.inl rfl)
    | spawn ei q hh =>
      refine ⟨fun j hj => ?_, fun j ej hm => ?_, fun j ej d ab hm => ?_⟩
      · have hj' : s.next + 1 ≤ j := hj
        rw [sentBy_append, ih.fresh j (by omega)]; rfl
      · rw [sentBy_append]
        rcases List.mem_cons.1 hm with hm | hm
        · simp at hm; rw [ih.fresh j (by omega)]; rfl
        · rw [ih.start j ej hm]; rfl
      · rcases List.mem_cons.1 hm with hm | hm
        · simp at hm
        · obtain ⟨h1, h2⟩ := ih.reading j ej d ab hm
          rw [sentBy_append, h1]
          exact ⟨by simp [sentBy], h2⟩
    | rlock i ei a b hh hw hI hp =>
      refine ih.repl hi.ids hh (fun _ _ => rfl) [(i, ei, .reading [] none)] ?_ s.rq
      intro z hz
      simp at hz; subst hz
      refine ⟨rfl, fun h => by simp at h, fun d ab h => ?_⟩
      simp at h
      obtain ⟨rfl, rfl⟩ := h
      rw [sentBy_append, ih.start i ei (by rw [hh]; simp)]
      exact ⟨rfl, by simp⟩
    | pick i ei d k a b hh hk =>
      refine ih.repl hi.ids hh (fun _ _ => rfl) [(i, ei, .reading d (some k))] ?_ s.rq
      intro z hz
      simp at hz; subst hz
      refine ⟨rfl, fun h => by simp at h, fun d' ab h => ?_⟩
      simp at h
      obtain ⟨rfl, rfl⟩ := h
      obtain ⟨h1, h2⟩ := ih.reading i ei d none (by rw [hh]; simp)
      rw [sentBy_append, h1]
      exact ⟨by simp [sentBy], h2⟩
    | send i ei d k a b hh =>
      refine ih.repl hi.ids hh (fun j hj => by simp [sentBy, Ne.symm hj]) [(i, ei, .reading (k :: d) none)] ?_ s.rq
      intro z hz
      simp at hz; subst hz
      refine ⟨rfl, fun h => by simp at h, fun d' ab h => ?_⟩
      simp at h
      obtain ⟨rfl, rfl⟩ := h
      obtain ⟨h1, h2⟩ := ih.reading i ei d (some k) (by rw [hh]; simp)
      have h3 := hi.about i ei d k (by rw [hh]; simp)
      rw [sentBy_append, h1]
      refine ⟨by simp [sentBy], fun k' => ?_⟩
      by_cases hk : k = k'
      · subst hk; rw [List.count_cons_self]; exact h3
      · rw [List.count_cons_of_ne (by simpa using hk)]; exact h2 k'
    | runlock i ei d a b hh hk hd =>
      refine ih.repl hi.ids hh (fun _ _ => rfl) [(i, ei, .handing)] ?_ s.rq
      intro z hz
      simp at hz; subst hz
      exact ⟨rfl, fun h => by simp at h, fun d ab h => by simp at h⟩
    | fin i ei d a b hh hk hd =>
      exact ih.repl hi.ids hh (fun _ _ => rfl) [] (by simp) s.rq
    | handed i ei a b hh hc =>
      exact ih.repl hi.ids hh (fun _ _ => rfl) [] (by simp) (s.rq ++ [ei])
    | lock i r a b hh hr hw hI => exact ih.same (fun _ => rfl) (Nat.le_refl _) rfl (.inl rfl)
    | effect i r a b t' hh hst hos =>
      exact ih.same (fun _ => rfl) (Nat.le_refl _) rfl
        (.inr (hi.excl.noReader_call (i := i) (r := r) (by rw [hh]; simp)))
    | unlock i r a b hh => exact ih.same (fun _ => rfl) (Nat.le_refl _) rfl (.inl rfl)
    | ret i r a b hh => exact ih.same (fun _ => rfl) (Nat.le_refl _) rfl (.inl rfl)
    | intRecv ei q hh hI => exact ih.same (fun _ => rfl) (Nat.le_refl _) rfl (.inl rfl)
    | intLock ei hh hr hw => exact ih.same (fun _ => rfl) (Nat.le_refl _) rfl (.inl rfl)
    | intEffect ei t' hh hst hos =>
      exact ih.same (fun _ => rfl) (Nat.le_refl _) rfl (.inr (hi.excl.noReader_int ⟨ei, .inl hh⟩))
    | intUnlock ei hh => exact ih.same (fun _ => rfl) (Nat.le_refl _) rfl (.inl rfl)

/-- What the goroutine of an event has sent when it releases the lock is what the tree of that moment says,
up to order. -/
theorem delivered (L : Laws Y) {t : List (Lab Y.Req)} {s : State Y} {i : Nat} {ei : EventInfo} {d : List Key}
    (h : Exec Y cfg t s) (hm : (i, ei, Disp.reading d none) ∈ s.disp)
    (hk : ∀ k, (Y.sends s.tree ei).count k ≤ d.count k) : (sentBy i t).Perm (Y.sends s.tree ei) := by
  obtain ⟨h1, h2⟩ := (Exec.sent L h).reading i ei d none hm
  rw [h1]
  refine (List.reverse_perm d).trans (List.perm_iff_count.2 fun k => ?_)
  exact Nat.le_antisymm (h2 k) (hk k)

/-- The steps of the tree are those of the requests that took effect. -/
inductive Lin (Y : Sys) (t : Y.σ) : List Y.Req → Y.σ → Prop
  | nil : Lin Y t [] t
  | snoc {rs t' r t''} : Lin Y t rs t' → Y.step t' r t'' → Lin Y t (rs ++ [r]) t''

theorem Exec.lin {t : List (Lab Y.Req)} {s : State Y} (h : Exec Y cfg t s) : Lin Y Y.init (effects t) s.tree := by
  induction h with
  | nil => exact .nil
  | @snoc t s l s' hx ht ih =>
    rw [effects_append]
    cases ht with
    | effect i r a b t' hh hst hos => exact ih.snoc hst
    | intEffect ei t' hh hst hos => exact ih.snoc hst
    | _ => simpa [effects] using ih

/-- Calls take effect after they are made. -/
theorem Exec.called {t : List (Lab Y.Req)} {s : State Y} (h : Exec Y cfg t s) :
    ∀ i r k, (i, r, k) ∈ s.calls → .call i r ∈ t := by
  induction h with
  | nil => simp [State.init]
  | @snoc t s l s' _ h2 ih =>
    intro j q k hm
    rw [List.mem_append]
    cases h2 with
    | call r hok hu =>
      rcases List.mem_cons.1 hm with hm | hm
      · simp at hm; obtain ⟨rfl, rfl, rfl⟩ := hm; exact .inr (by simp)
      · exact .inl (ih j q k hm)
    | lock i r a b hh hr hw hi => obtain ⟨k', hk'⟩ := mem_repl hm; exact .inl (ih j q k' (by rw [hh]; exact hk'))
    | effect i r a b t' hh hst hos => obtain ⟨k', hk'⟩ := mem_repl hm; exact .inl (ih j q k' (by rw [hh]; exact hk'))
    | unlock i r a b hh => obtain ⟨k', hk'⟩ := mem_repl hm; exact .inl (ih j q k' (by rw [hh]; exact hk'))
    | ret i r a b hh =>
      refine .inl (ih j q k ?_)
      rw [hh]
      rcases List.mem_append.1 hm with hm | hm <;> simp [hm]
    | _ => exact .inl (ih j q k hm)

theorem Exec.effect_called {t : List (Lab Y.Req)} {s : State Y} {i : Nat} {r : Y.Req}
    (h : Exec Y cfg (t ++ [.effect i r]) s) : .call i r ∈ t := by
  obtain ⟨s₁, h1, h2⟩ := Run.split h
  have h3 := h2.single
  cases h3 with
  | effect _ _ a b _ hh hst hos => exact Exec.called h1 i r .locked (by rw [hh]; simp)

/-! ### The claims -/

variable {P : Platform}

/-- The request of a step of a history. -/
def reqOf : NonRec.Op → Option Req
  | .watch p isrec c e _ => some (.watch p isrec c e)
  | .stop c => some (.stop c)
  | .internal ei => some (.internal ei)
  | .shuffle => none

def reqOfR : Rec.ROp → Option Req
  | .watch p isrec c e _ => some (.watch p isrec c e)
  | .stop c => some (.stop c)
  | .shuffle => none

theorem lin_hist {rs : List (plainTree P).Req} {s : (plainTree P).σ} (h : Lin (plainTree P) (plainTree P).init rs s) :
    ∃ ops, NonRec.Hist P false ops s ∧ ops.filterMap reqOf = rs := by
  induction h with
  | nil => exact ⟨[], .nil, rfl⟩
  | @snoc rs t' r t'' _ hst ih =>
    obtain ⟨ops, h1, rfl⟩ := ih
    obtain ⟨s₁, h2, h3⟩ := hst
    have h1' : ∃ ops', NonRec.Hist P false ops' s₁ ∧ ops'.filterMap reqOf = ops.filterMap reqOf := by
      rcases h2 with rfl | h2
      · exact ⟨ops, h1, rfl⟩
      · exact ⟨_, h1.snoc h2, by simp [reqOf]⟩
    obtain ⟨ops', h4, h5⟩ := h1'
    rw [← h5]
    cases r with
    | watch p isrec c e => obtain ⟨res, h3⟩ := h3; exact ⟨_, h4.snoc h3, by simp [reqOf]⟩
    | stop c => exact ⟨_, h4.snoc h3, by simp [reqOf]⟩
    | internal ei => exact ⟨_, h4.snoc h3, by simp [reqOf]⟩

/-- **C46** (non-recursive tree).  Whatever the schedule, the tree is the one that a sequential history
leads to; its operations are those of the calls, and of the internal goroutine, that took effect, in that
order.  Every call takes effect after it is made and before it returns. -/
theorem C46_linearizable {t : List (Lab Req)} {s : State (plainTree P)} (h : Exec (plainTree P) cfg t s) :
    (∃ ops, NonRec.Hist P false ops s.tree ∧ ops.filterMap reqOf = effects t) ∧
    (∀ t₁ t₂ i r, t = t₁ ++ .effect i r :: t₂ → .call i r ∈ t₁) ∧
    (∀ t₁ t₂ i r, t = t₁ ++ .ret i r :: t₂ → .effect i r ∈ t₁) := by
  refine ⟨lin_hist (Exec.lin h), ?_, ?_⟩
  · rintro t₁ t₂ i r rfl
    rw [List.append_cons] at h
    obtain ⟨s₁, h1, _⟩ := Run.split h
    exact Exec.effect_called h1
  · rintro t₁ t₂ i r rfl
    rw [List.append_cons] at h
    obtain ⟨s₁, h1, _⟩ := Run.split h
    obtain ⟨a, b, rfl⟩ := Exec.ret_effect h1
    simp

/-- **C46**, deliveries (non-recursive tree).  When the goroutine of an event releases the lock, it has sent
the event to the channels, and as often, as one delivery in the tree of that moment does. -/
theorem C46_delivery (hP : P.Facts) {t : List (Lab Req)} {s : State (plainTree P)} {i : Nat} {ei : EventInfo}
    {d : List Key} (h : Exec (plainTree P) cfg t s) (hm : (i, ei, Disp.reading d none) ∈ s.disp)
    (hk : ∀ k, (NonRec.sends P s.tree.root ei).count k ≤ d.count k) :
    (sentBy i t).Perm (NonRec.sends P s.tree.root ei) :=
  delivered (plainLaws P hP) h hm hk

theorem lin_rhist {rs : List (recTree P).Req} {s : (recTree P).σ} (h : Lin (recTree P) (recTree P).init rs s) (hr : ∀ ei, .internal ei ∉ rs) :
    ∃ ops, Rec.RHist P false ops s ∧ ops.filterMap reqOfR = rs := by
  induction h with
  | nil => exact ⟨[], .nil, rfl⟩
  | @snoc rs t' r t'' _ hst ih =>
    obtain ⟨ops, h1, rfl⟩ := ih (fun ei hm => hr ei (by simp [hm]))
    obtain ⟨s₁, h2, h3⟩ := hst
    have h1' : ∃ ops', Rec.RHist P false ops' s₁ ∧ ops'.filterMap reqOfR = ops.filterMap reqOfR := by
      rcases h2 with rfl | h2
      · exact ⟨ops, h1, rfl⟩
      · exact ⟨_, h1.snoc h2, by simp [reqOfR]⟩
    obtain ⟨ops', h4, h5⟩ := h1'
    cases r with
    | watch p isrec c e => rw [← h5]; obtain ⟨res, h3⟩ := h3; exact ⟨_, h4.snoc h3, by simp [reqOfR]⟩
    | stop c => rw [← h5]; exact ⟨_, h4.snoc h3, by simp [reqOfR]⟩
    | internal ei => exact absurd (by simp) (hr ei)

/-- The recursive tree has no work for an internal goroutine. -/
structure Quiet (t : List (Lab Req)) (s : State (recTree P)) : Prop where
  rq : s.rq = []
  int : s.int = .idle
  disp : ∀ i ei, (i, ei, Disp.handing) ∉ s.disp
  calls : ∀ i r k, (i, r, k) ∈ s.calls → (recTree P).user r
  eff : ∀ ei, .internal ei ∉ effects t

theorem Exec.quiet {t : List (Lab (recTree P).Req)} {s : State (recTree P)} (h : Exec (recTree P) cfg t s) : Quiet t s := by
  induction h with
  | nil => exact ⟨rfl, rfl, by simp [State.init], by simp [State.init], by simp [effects]⟩
  | @snoc t s l s' _ ht ih =>
    obtain ⟨h1, h2, h3, h4, h5⟩ := ih
    have he : ∀ l : Lab Req, effects [l] = [] → ∀ ei, .internal ei ∉ effects (t ++ [l]) := by
      intro l hl ei; rw [effects_append, hl]; simpa using h5 ei
    cases ht with
    | call r hok hu =>
      refine ⟨h1, h2, h3, fun i q k hm => ?_, he _ rfl⟩
      rcases List.mem_cons.1 hm with hm | hm
      · simp only [Prod.mk.injEq] at hm; rw [hm.2.1]; exact hu
      · exact h4 i q k hm
    | spawn ei q hh => exact ⟨h1, h2, by simpa using h3, h4, he _ rfl⟩
    | rlock i ei a b hh hw hI hp => rw [hh] at h3; exact ⟨h1, h2, by simpa using h3, h4, he _ rfl⟩
    | pick i ei d k a b hh hk => rw [hh] at h3; exact ⟨h1, h2, by simpa using h3, h4, he _ rfl⟩
    | send i ei d k a b hh => rw [hh] at h3; exact ⟨h1, h2, by simpa using h3, h4, he _ rfl⟩
    | runlock i ei d a b hh hk hd => cases hd
    | fin i ei d a b hh hk hd => rw [hh] at h3; exact ⟨h1, h2, by simpa using h3, h4, he _ rfl⟩
    | handed i ei a b hh hc => exact absurd (by rw [hh]; simp) (h3 i ei)
    | lock i r a b hh hr hw hI =>
      refine ⟨h1, h2, h3, fun j q k hm => ?_, he _ rfl⟩
      obtain ⟨k', hk'⟩ := mem_repl hm; exact h4 j q k' (by rw [hh]; exact hk')
    | effect i r a b t' hh hst hos =>
      refine ⟨h1, h2, h3, fun j q k hm => ?_, fun ei hm => ?_⟩
      · obtain ⟨k', hk'⟩ := mem_repl hm; exact h4 j q k' (by rw [hh]; exact hk')
      · rw [effects_append, List.mem_append] at hm
        rcases hm with hm | hm
        · exact h5 ei hm
        · have hr : r = .internal ei := by
            have : Req.internal ei ∈ [r] := hm
            exact (List.mem_singleton.1 this).symm
          have := h4 i r .locked (by rw [hh]; simp)
          rw [hr] at this
          exact this
    | unlock i r a b hh =>
      refine ⟨h1, h2, h3, fun j q k hm => ?_, he _ rfl⟩
      obtain ⟨k', hk'⟩ := mem_repl hm; exact h4 j q k' (by rw [hh]; exact hk')
    | ret i r a b hh =>
      refine ⟨h1, h2, h3, fun j q k hm => h4 j q k ?_, he _ rfl⟩
      rw [hh]
      rcases List.mem_append.1 hm with hm | hm <;> simp [hm]
    | intRecv ei q hh hI => rw [h1] at hh; cases hh
    | intLock ei hh hr hw => rw [h2] at hh; cases hh
    | intEffect ei t' hh hst hos => rw [h2] at hh; cases hh
    | intUnlock ei hh => rw [h2] at hh; cases hh
    | _ => exact ⟨h1, h2, h3, h4, he _ rfl⟩

/-- **C46** (recursive tree). -/
theorem C46_linearizable_rec {t : List (Lab Req)} {s : State (recTree P)} (h : Exec (recTree P) cfg t s) :
    (∃ ops, Rec.RHist P false ops s.tree ∧ ops.filterMap reqOfR = effects t) ∧
    (∀ t₁ t₂ i r, t = t₁ ++ .effect i r :: t₂ → .call i r ∈ t₁) ∧
    (∀ t₁ t₂ i r, t = t₁ ++ .ret i r :: t₂ → .effect i r ∈ t₁) := by
  refine ⟨lin_rhist (Exec.lin h) (Exec.quiet h).eff, ?_, ?_⟩
  · rintro t₁ t₂ i r rfl
    rw [List.append_cons] at h
    obtain ⟨s₁, h1, _⟩ := Run.split h
    exact Exec.effect_called h1
  · rintro t₁ t₂ i r rfl
    rw [List.append_cons] at h
    obtain ⟨s₁, h1, _⟩ := Run.split h
    obtain ⟨a, b, rfl⟩ := Exec.ret_effect h1
    simp

/-- **C46**, deliveries (recursive tree). -/
theorem C46_delivery_rec (hP : P.Facts) {t : List (Lab Req)} {s : State (recTree P)} {i : Nat} {ei : EventInfo}
    {d : List Key} (h : Exec (recTree P) cfg t s) (hm : (i, ei, Disp.reading d none) ∈ s.disp)
    (hk : ∀ k, (Rec.sends P s.tree.root ei).count k ≤ d.count k) :
    (sentBy i t).Perm (Rec.sends P s.tree.root ei) :=
  delivered (recLaws P hP) h hm hk

/-- Non-trivial case of C46: goroutine 2 has sent event B to channel 1, while goroutine 1 was under way. -/
example : Exec Ex.T Ex.conf (Ex.watchTrace ++ Ex.badTrace) Ex.w2 ∧
    sentBy 2 (Ex.watchTrace ++ Ex.badTrace) = [.user 1] ∧ effects (Ex.watchTrace ++ Ex.badTrace) = [Ex.R1] ∧
    (2, Ex.evB, Disp.reading [.user 1] none) ∈ Ex.w2.disp ∧
    ∀ k, (NonRec.sends NonRec.Ex.I Ex.w2.tree.root Ex.evB).count k ≤ [Key.user 1].count k :=
  ⟨Ex.run1.trans Ex.run2, rfl, rfl, by simp [Ex.w2], fun k => by
    rw [show NonRec.sends NonRec.Ex.I Ex.w2.tree.root Ex.evB = [.user 1] from Ex.sendsB]; exact Nat.le_refl _⟩

end Sched
end Verif
