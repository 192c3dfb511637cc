/-
Invariants of the transition system of `Sched`.
-/
import Verif.Sched
import Mathlib.Data.List.Count
import Mathlib.Data.List.Induction

namespace Verif
namespace Sched

variable {Y : Sys} {cfg : Cfg}

/-- What the proofs use of a tree. -/
structure Laws (Y : Sys) where
  inv : Y.σ → Prop
  /-- The channel has no registration. -/
  absent : Nat → Y.σ → Prop
  isStop : Nat → Y.Req → Prop
  isWatch : Nat → Y.Req → Prop
  inv_init : inv Y.init
  inv_step : ∀ {t r t'}, inv t → Y.okReq r → Y.step t r t' → inv t'
  total : ∀ t r, Y.okReq r → ∃ t', Y.step t r t'
  intern_ok : ∀ {ei}, Y.okEv ei → Y.okReq (Y.intern ei)
  intern_watch : ∀ c ei, ¬ isWatch c (Y.intern ei)
  stop_absent : ∀ {t r t' c}, inv t → Y.okReq r → isStop c r → Y.step t r t' → absent c t'
  keep : ∀ {t r t' c}, inv t → Y.okReq r → ¬ isWatch c r → absent c t → Y.step t r t' → absent c t'
  silent : ∀ {t c ei}, inv t → absent c t → Y.okEv ei → Key.user c ∉ Y.sends t ei

def Disp.isR : Disp → Bool
  | .reading _ _ => true
  | _ => false

def Call.holds : Call → Bool
  | .locked => true
  | .applied => true
  | _ => false

def Intern.holds : Intern → Bool
  | .locked _ => true
  | .applied _ => true
  | _ => false

/-- Number of readers. -/
def State.nR (s : State Y) : Nat := s.disp.countP (·.2.2.isR)

/-- Number of calls holding the write lock. -/
def State.nC (s : State Y) : Nat := s.calls.countP (·.2.2.holds)

theorem reading_iff (s : State Y) : s.Reading ↔ 0 < s.nR := by
  unfold State.Reading State.nR
  rw [List.countP_pos_iff]
  constructor
  · rintro ⟨i, ei, d, a, h⟩
    exact ⟨_, h, rfl⟩
  · rintro ⟨⟨i, ei, d⟩, h, h'⟩
    cases d with
    | reading d a => exact ⟨i, ei, d, a, h⟩
    | start => cases h'
    | handing => cases h'

theorem callHolds_iff (s : State Y) : s.CallHolds ↔ 0 < s.nC := by
  unfold State.CallHolds State.nC
  rw [List.countP_pos_iff]
  constructor
  · rintro ⟨i, r, h | h⟩
    · exact ⟨_, h, rfl⟩
    · exact ⟨_, h, rfl⟩
  · rintro ⟨⟨i, r, c⟩, h, h'⟩
    cases c with
    | waiting => cases h'
    | unlocked => cases h'
    | locked => exact ⟨i, r, .inl h⟩
    | applied => exact ⟨i, r, .inr h⟩

theorem intHolds_iff (s : State Y) : s.IntHolds ↔ s.int.holds = true := by
  unfold State.IntHolds
  cases s.int <;> simp [Intern.holds]

/-- The lock: at most one writer, and no reader beside it. -/
structure Excl (s : State Y) : Prop where
  one : s.nC + (if s.int.holds then 1 else 0) ≤ 1
  excl : s.nR = 0 ∨ s.nC + (if s.int.holds then 1 else 0) = 0

theorem Excl.init : Excl (State.init Y) := ⟨by simp [State.init, State.nC, Intern.holds], by simp [State.init, State.nR]⟩

theorem Excl.tr {s s' : State Y} {l : Lab Y.Req} (h : Excl s) (ht : Tr Y cfg s l s') : Excl s' := by
  obtain ⟨h1, h2⟩ := h
  cases ht with
  | report evs hok hh => exact ⟨h1, h2⟩
  | push ei r hh hc => exact ⟨h1, h2⟩
  | call r hok hu => exact ⟨by simpa [State.nC, Call.holds] using h1, by simpa [State.nC, State.nR, Call.holds] using h2⟩
  | spawn ei q hh => exact ⟨by simpa [State.nC] using h1, by simpa [State.nC, State.nR, Disp.isR] using h2⟩
  | rlock i ei a b hh hw hi hp =>
    rw [callHolds_iff] at hw
    rw [intHolds_iff] at hi
    refine ⟨h1, .inr ?_⟩
    simp only [State.nC] at hw ⊢
    simp only [hi]; simp only [Bool.false_eq_true, if_false]; omega
  | pick i ei d k a b hh hk =>
    refine ⟨h1, ?_⟩
    simpa [State.nC, State.nR, hh, Disp.isR] using h2
  | send i ei d k a b hh =>
    refine ⟨h1, ?_⟩
    simpa [State.nC, State.nR, hh, Disp.isR] using h2
  | runlock i ei d a b hh hk hd =>
    refine ⟨h1, ?_⟩
    simp [State.nC, State.nR, hh, Disp.isR] at h2 ⊢
    exact .inr h2
  | fin i ei d a b hh hk hd =>
    refine ⟨h1, ?_⟩
    simp [State.nC, State.nR, hh, Disp.isR] at h2 ⊢
    exact .inr h2
  | handed i ei a b hh hc =>
    refine ⟨h1, ?_⟩
    simpa [State.nC, State.nR, hh, Disp.isR] using h2
  | lock i r a b hh hr hw hi =>
    rw [callHolds_iff] at hw
    rw [intHolds_iff] at hi
    rw [reading_iff] at hr
    simp only [State.nC, State.nR, hh, List.countP_append, List.countP_cons, Call.holds] at hr hw ⊢
    exact ⟨by simp only [State.nC, hi, Call.holds, List.countP_append, List.countP_cons, if_true, Bool.false_eq_true, if_false] at hw ⊢; omega,
      .inl (by simp only [State.nR]; omega)⟩
  | effect i r a b t' hh hst hos =>
    simp only [State.nC, State.nR, hh, List.countP_append, List.countP_cons, Call.holds] at h1 h2
    exact ⟨by simpa [State.nC, Call.holds] using h1, by simpa [State.nC, State.nR, Call.holds] using h2⟩
  | unlock i r a b hh =>
    simp only [State.nC, State.nR, hh, List.countP_append, List.countP_cons, Call.holds, if_true] at h1 h2
    refine ⟨?_, ?_⟩
    · simp [State.nC, Call.holds]; omega
    · simp only [State.nC, State.nR, List.countP_append, List.countP_cons, Call.holds]
      rcases h2 with h2 | h2
      · exact .inl h2
      · omega
  | ret i r a b hh =>
    simp only [State.nC, State.nR, hh, List.countP_append, List.countP_cons, Call.holds] at h1 h2
    exact ⟨by simpa [State.nC, Call.holds] using h1, by simpa [State.nC, State.nR, Call.holds] using h2⟩
  | intRecv ei q hh hi =>
    simp [hi, Intern.holds] at h1 h2
    exact ⟨by simpa [Intern.holds, State.nC] using h1, by simpa [Intern.holds, State.nC, State.nR] using h2⟩
  | intLock ei hh hr hw =>
    rw [callHolds_iff] at hw
    rw [reading_iff] at hr
    refine ⟨?_, .inl ?_⟩
    · simp only [State.nC, Intern.holds] at hw ⊢; simp; simpa using hw
    · simp only [State.nR] at hr ⊢; omega
  | intEffect ei t' hh hst hos =>
    simp only [hh, Intern.holds] at h1 h2
    exact ⟨h1, h2⟩
  | intUnlock ei hh =>
    simp only [hh, Intern.holds, if_true] at h1 h2
    refine ⟨by simp only [Intern.holds, State.nC] at *; simp; omega, ?_⟩
    simp only [Intern.holds, State.nC, State.nR] at *
    rcases h2 with h2 | h2
    · exact .inl h2
    · omega

/-- Everything in flight is a permitted event or request. -/
structure Oks (s : State Y) : Prop where
  os : ∀ ei ∈ s.os, Y.okEv ei
  cq : ∀ ei ∈ s.cq, Y.okEv ei
  rq : ∀ ei ∈ s.rq, Y.okEv ei
  disp : ∀ x ∈ s.disp, Y.okEv x.2.1
  calls : ∀ x ∈ s.calls, Y.okReq x.2.1
  int : ∀ ei, s.int = .waiting ei ∨ s.int = .locked ei → Y.okEv ei

theorem Oks.init : Oks (State.init Y) := by
  constructor <;> simp [State.init]

theorem Oks.tr {s s' : State Y} {l : Lab Y.Req} (h : Oks s) (ht : Tr Y cfg s l s') : Oks s' := by
  obtain ⟨h1, h2, h3, h4, h5, h6⟩ := h
  cases ht with
  | report evs hok hh => exact ⟨hok, h2, h3, h4, h5, h6⟩
  | push ei r hh hc =>
    rw [hh] at h1
    exact ⟨fun x hx => h1 x (.tail _ hx), by simpa [or_imp, forall_and] using ⟨h2, h1 ei (.head _)⟩, h3, h4, h5, h6⟩
  | call r hok hu => exact ⟨h1, h2, h3, h4, by simpa [hok] using h5, h6⟩
  | spawn ei q hh =>
    rw [hh] at h2
    exact ⟨h1, fun x hx => h2 x (.tail _ hx), h3, by simpa [h2 ei (.head _)] using h4, h5, h6⟩
  | rlock i ei a b hh hw hi hp =>
    rw [hh] at h4
    refine ⟨h1, h2, h3, fun x hx => ?_, h5, h6⟩
    simp only [List.mem_append, List.mem_cons] at hx h4
    rcases hx with hx | rfl | hx
    · exact h4 _ (.inl hx)
    · exact h4 (i, ei, .start) (.inr (.inl rfl))
    · exact h4 _ (.inr (.inr hx))
  | pick i ei d k a b hh hk =>
    rw [hh] at h4
    refine ⟨h1, h2, h3, fun x hx => ?_, h5, h6⟩
    simp only [List.mem_append, List.mem_cons] at hx h4
    rcases hx with hx | rfl | hx
    · exact h4 _ (.inl hx)
    · exact h4 (i, ei, .reading d none) (.inr (.inl rfl))
    · exact h4 _ (.inr (.inr hx))
  | send i ei d k a b hh =>
    rw [hh] at h4
    refine ⟨h1, h2, h3, fun x hx => ?_, h5, h6⟩
    simp only [List.mem_append, List.mem_cons] at hx h4
    rcases hx with hx | rfl | hx
    · exact h4 _ (.inl hx)
    · exact h4 (i, ei, .reading d (some k)) (.inr (.inl rfl))
    · exact h4 _ (.inr (.inr hx))
  | runlock i ei d a b hh hk hd =>
    rw [hh] at h4
    refine ⟨h1, h2, h3, fun x hx => ?_, h5, h6⟩
    simp only [List.mem_append, List.mem_cons] at hx h4
    rcases hx with hx | rfl | hx
    · exact h4 _ (.inl hx)
    · exact h4 (i, ei, .reading d none) (.inr (.inl rfl))
    · exact h4 _ (.inr (.inr hx))
  | fin i ei d a b hh hk hd =>
    rw [hh] at h4
    refine ⟨h1, h2, h3, fun x hx => ?_, h5, h6⟩
    simp only [List.mem_append, List.mem_cons] at hx h4
    rcases hx with hx | hx
    · exact h4 _ (.inl hx)
    · exact h4 _ (.inr (.inr hx))
  | handed i ei a b hh hc =>
    rw [hh] at h4
    simp only [List.mem_append, List.mem_cons] at h4
    refine ⟨h1, h2, fun x hx => ?_, fun x hx => ?_, h5, h6⟩
    · rcases List.mem_append.1 hx with hx | hx
      · exact h3 _ hx
      · simp at hx; subst hx; exact h4 (i, x, .handing) (.inr (.inl rfl))
    · rcases List.mem_append.1 hx with hx | hx
      · exact h4 _ (.inl hx)
      · exact h4 _ (.inr (.inr hx))
  | lock i r a b hh hr hw hi =>
    rw [hh] at h5
    refine ⟨h1, h2, h3, h4, fun x hx => ?_, h6⟩
    simp only [List.mem_append, List.mem_cons] at hx h5
    rcases hx with hx | rfl | hx
    · exact h5 _ (.inl hx)
    · exact h5 (i, r, .waiting) (.inr (.inl rfl))
    · exact h5 _ (.inr (.inr hx))
  | effect i r a b t' hh hst hos =>
    rw [hh] at h5
    refine ⟨h1, h2, h3, h4, fun x hx => ?_, h6⟩
    simp only [List.mem_append, List.mem_cons] at hx h5
    rcases hx with hx | rfl | hx
    · exact h5 _ (.inl hx)
    · exact h5 (i, r, .locked) (.inr (.inl rfl))
    · exact h5 _ (.inr (.inr hx))
  | unlock i r a b hh =>
    rw [hh] at h5
    refine ⟨h1, h2, h3, h4, fun x hx => ?_, h6⟩
    simp only [List.mem_append, List.mem_cons] at hx h5
    rcases hx with hx | rfl | hx
    · exact h5 _ (.inl hx)
    · exact h5 (i, r, .applied) (.inr (.inl rfl))
    · exact h5 _ (.inr (.inr hx))
  | ret i r a b hh =>
    rw [hh] at h5
    refine ⟨h1, h2, h3, h4, fun x hx => ?_, h6⟩
    simp only [List.mem_append, List.mem_cons] at hx h5
    rcases hx with hx | hx
    · exact h5 _ (.inl hx)
    · exact h5 _ (.inr (.inr hx))
  | intRecv ei q hh hi =>
    rw [hh] at h3
    refine ⟨h1, h2, fun x hx => h3 x (.tail _ hx), h4, h5, fun x hx => ?_⟩
    simp at hx; subst hx; exact h3 _ (.head _)
  | intLock ei hh hr hw =>
    refine ⟨h1, h2, h3, h4, h5, fun x hx => ?_⟩
    simp at hx; subst hx; exact h6 _ (.inl hh)
  | intEffect ei t' hh hst hos =>
    refine ⟨h1, h2, h3, h4, h5, fun x hx => ?_⟩
    simp at hx
  | intUnlock ei hh =>
    refine ⟨h1, h2, h3, h4, h5, fun x hx => ?_⟩
    simp at hx

/-- What a goroutine is about to send is what the tree says now, and was not sent yet. -/
def About (s : State Y) : Prop :=
  ∀ i ei d k, (i, ei, Disp.reading d (some k)) ∈ s.disp → d.count k < (Y.sends s.tree ei).count k

theorem About.of_noReader {s : State Y} (h : s.nR = 0) : About s := by
  intro i ei d k hm
  have : s.Reading := ⟨i, ei, d, some k, hm⟩
  rw [reading_iff] at this; omega

/-- A locked call or internal goroutine excludes readers. -/
theorem Excl.noReader_call {s : State Y} (h : Excl s) {i : Nat} {r : Y.Req} (hm : (i, r, Call.locked) ∈ s.calls) :
    s.nR = 0 := by
  have : s.CallHolds := ⟨i, r, .inl hm⟩
  rw [callHolds_iff] at this
  rcases h.excl with h | h
  · exact h
  · omega

theorem Excl.noReader_int {s : State Y} (h : Excl s) (hm : s.IntHolds) : s.nR = 0 := by
  rw [intHolds_iff] at hm
  rcases h.excl with h | h
  · exact h
  · simp [hm] at h

theorem About.tr {s s' : State Y} {l : Lab Y.Req} (h : About s) (hx : Excl s) (ht : Tr Y cfg s l s') : About s' := by
  cases ht with
  | report evs hok hh => exact h
  | push ei r hh hc => exact h
  | call r hok hu => exact h
  | spawn ei q hh =>
    intro i ei' d k hm
    rcases List.mem_cons.1 hm with hm | hm
    · simp at hm
    · exact h i ei' d k hm
  | rlock i ei a b hh hw hi hp =>
    intro j ei' d k hm
    simp at hm
    exact h j ei' d k (by rw [hh]; simp [hm])
  | pick i ei d k a b hh hk =>
    intro j ei' d' k' hm
    simp only [List.mem_append, List.mem_cons] at hm
    rcases hm with hm | hm | hm
    · exact h j ei' d' k' (by rw [hh]; simp [hm])
    · simp at hm
      obtain ⟨rfl, rfl, rfl, rfl⟩ := hm
      exact hk
    · exact h j ei' d' k' (by rw [hh]; simp [hm])
  | send i ei d k a b hh =>
    intro j ei' d' k' hm
    simp at hm
    exact h j ei' d' k' (by rw [hh]; simp only [List.mem_append, List.mem_cons]; rcases hm with hm | hm <;> simp [hm])
  | runlock i ei d a b hh hk hd =>
    intro j ei' d' k' hm
    simp at hm
    exact h j ei' d' k' (by rw [hh]; simp only [List.mem_append, List.mem_cons]; rcases hm with hm | hm <;> simp [hm])
  | fin i ei d a b hh hk hd =>
    intro j ei' d' k' hm
    simp at hm
    exact h j ei' d' k' (by rw [hh]; simp only [List.mem_append, List.mem_cons]; rcases hm with hm | hm <;> simp [hm])
  | handed i ei a b hh hc =>
    intro j ei' d' k' hm
    simp at hm
    exact h j ei' d' k' (by rw [hh]; simp only [List.mem_append, List.mem_cons]; rcases hm with hm | hm <;> simp [hm])
  | lock i r a b hh hr hw hi => exact h
  | effect i r a b t' hh hst hos =>
    exact About.of_noReader (hx.noReader_call (i := i) (r := r) (by rw [hh]; simp))
  | unlock i r a b hh => exact h
  | ret i r a b hh => exact h
  | intRecv ei q hh hi => exact h
  | intLock ei hh hr hw => exact h
  | intEffect ei t' hh hst hos => exact About.of_noReader (hx.noReader_int ⟨ei, .inl hh⟩)
  | intUnlock ei hh => exact h

/-- Identifiers are fresh and not shared by two goroutines. -/
structure Ids (s : State Y) : Prop where
  disp : ∀ x ∈ s.disp, x.1 < s.next
  nodup : (s.disp.map (·.1)).Nodup
  calls : ∀ x ∈ s.calls, x.1 < s.next
  cnodup : (s.calls.map (·.1)).Nodup

theorem Ids.init : Ids (State.init Y) := by constructor <;> simp [State.init]

theorem lt_repl {α : Type} {a b : List (Nat × α)} {i n : Nat} {x y : α} (h : ∀ z ∈ a ++ (i, x) :: b, z.1 < n) :
    ∀ z ∈ a ++ (i, y) :: b, z.1 < n := by
  intro z hz
  simp only [List.mem_append, List.mem_cons] at hz h
  rcases hz with hz | rfl | hz
  · exact h _ (.inl hz)
  · exact h (i, x) (.inr (.inl rfl))
  · exact h _ (.inr (.inr hz))

theorem Ids.tr {s s' : State Y} {l : Lab Y.Req} (h : Ids s) (ht : Tr Y cfg s l s') : Ids s' := by
  obtain ⟨h1, h2, h3, h4⟩ := h
  cases ht with
  | report evs hok hh => exact ⟨h1, h2, h3, h4⟩
  | push ei r hh hc => exact ⟨h1, h2, h3, h4⟩
  | call r hok hu =>
    refine ⟨fun x hx => Nat.lt_succ_of_lt (h1 x hx), h2, fun x hx => ?_, ?_⟩
    · rcases List.mem_cons.1 hx with rfl | hx
      · exact Nat.lt_succ_self _
      · exact Nat.lt_succ_of_lt (h3 x hx)
    · simp only [List.map_cons, List.nodup_cons]
      refine ⟨fun hm => ?_, h4⟩
      obtain ⟨x, hx, he⟩ := List.mem_map.1 hm
      have := h3 x hx; omega
  | spawn ei q hh =>
    refine ⟨fun x hx => ?_, ?_, fun x hx => Nat.lt_succ_of_lt (h3 x hx), h4⟩
    · rcases List.mem_cons.1 hx with rfl | hx
      · exact Nat.lt_succ_self _
      · exact Nat.lt_succ_of_lt (h1 x hx)
    · simp only [List.map_cons, List.nodup_cons]
      refine ⟨fun hm => ?_, h2⟩
      obtain ⟨x, hx, he⟩ := List.mem_map.1 hm
      have := h1 x hx; omega
  | rlock i ei a b hh hw hi hp => rw [hh] at h1 h2; exact ⟨lt_repl h1, by simpa using h2, h3, h4⟩
  | pick i ei d k a b hh hk => rw [hh] at h1 h2; exact ⟨lt_repl h1, by simpa using h2, h3, h4⟩
  | send i ei d k a b hh => rw [hh] at h1 h2; exact ⟨lt_repl h1, by simpa using h2, h3, h4⟩
  | runlock i ei d a b hh hk hd => rw [hh] at h1 h2; exact ⟨lt_repl h1, by simpa using h2, h3, h4⟩
  | fin i ei d a b hh hk hd =>
    rw [hh] at h1 h2
    refine ⟨fun x hx => h1 x ?_, List.Nodup.sublist ?_ h2, h3, h4⟩
    · rcases List.mem_append.1 hx with hx | hx <;> simp [hx]
    · exact (List.Sublist.append_left (List.sublist_cons_self _ _) _).map _
  | handed i ei a b hh hc =>
    rw [hh] at h1 h2
    refine ⟨fun x hx => h1 x ?_, List.Nodup.sublist ?_ h2, h3, h4⟩
    · rcases List.mem_append.1 hx with hx | hx <;> simp [hx]
    · exact (List.Sublist.append_left (List.sublist_cons_self _ _) _).map _
  | lock i r a b hh hr hw hi => rw [hh] at h3 h4; exact ⟨h1, h2, lt_repl h3, by simpa using h4⟩
  | effect i r a b t' hh hst hos => rw [hh] at h3 h4; exact ⟨h1, h2, lt_repl h3, by simpa using h4⟩
  | unlock i r a b hh => rw [hh] at h3 h4; exact ⟨h1, h2, lt_repl h3, by simpa using h4⟩
  | ret i r a b hh =>
    rw [hh] at h3 h4
    refine ⟨h1, h2, fun x hx => h3 x ?_, List.Nodup.sublist ?_ h4⟩
    · rcases List.mem_append.1 hx with hx | hx <;> simp [hx]
    · exact (List.Sublist.append_left (List.sublist_cons_self _ _) _).map _
  | intRecv ei q hh hi => exact ⟨h1, h2, h3, h4⟩
  | intLock ei hh hr hw => exact ⟨h1, h2, h3, h4⟩
  | intEffect ei t' hh hst hos => exact ⟨h1, h2, h3, h4⟩
  | intUnlock ei hh => exact ⟨h1, h2, h3, h4⟩

/-- How a transition changes the tree. -/
theorem Tr.tree {s s' : State Y} {l : Lab Y.Req} (hok : Oks s) (L : Laws Y) (ht : Tr Y cfg s l s') :
    s'.tree = s.tree ∨ ∃ r, Y.okReq r ∧ Y.step s.tree r s'.tree ∧
      ((∃ i, l = .effect i r) ∨ ∃ ei, l = .intEffect r ∧ r = Y.intern ei) := by
  cases ht with
  | effect i r a b t' hh hst hos =>
    exact .inr ⟨r, hok.calls (i, r, .locked) (by rw [hh]; simp), hst, .inl ⟨i, rfl⟩⟩
  | intEffect ei t' hh hst hos =>
    exact .inr ⟨_, L.intern_ok (hok.int ei (.inr hh)), hst, .inr ⟨ei, rfl, rfl⟩⟩
  | _ => exact .inl rfl

/-- All invariants. -/
structure Inv (L : Laws Y) (s : State Y) : Prop where
  excl : Excl s
  oks : Oks s
  about : About s
  ids : Ids s
  tree : L.inv s.tree

theorem Inv.init (L : Laws Y) : Inv L (State.init Y) :=
  ⟨.init, .init, About.of_noReader (by simp [State.init, State.nR]), .init, L.inv_init⟩

theorem Inv.tr {L : Laws Y} {s s' : State Y} {l : Lab Y.Req} (h : Inv L s) (ht : Tr Y cfg s l s') : Inv L s' where
  excl := h.excl.tr ht
  oks := h.oks.tr ht
  about := h.about.tr h.excl ht
  ids := h.ids.tr ht
  tree := by
    rcases ht.tree h.oks L with h' | ⟨r, hr, hst, _⟩
    · rw [h']; exact h.tree
    · exact L.inv_step h.tree hr hst

theorem Inv.run {L : Laws Y} {s s' : State Y} {t : List (Lab Y.Req)} (h : Inv L s) (ht : Run Y cfg s t s') : Inv L s' := by
  induction ht with
  | nil => exact h
  | snoc _ h2 ih => exact ih.tr h2

theorem Exec.inv (L : Laws Y) {t : List (Lab Y.Req)} {s : State Y} (h : Exec Y cfg t s) : Inv L s := (Inv.init L).run h

theorem Run.trans {s₀ s₁ s₂ : State Y} {a b : List (Lab Y.Req)} (h₁ : Run Y cfg s₀ a s₁) (h₂ : Run Y cfg s₁ b s₂) :
    Run Y cfg s₀ (a ++ b) s₂ := by
  induction h₂ with
  | nil => simpa using h₁
  | snoc _ hs ih => rw [← List.append_assoc]; exact ih.snoc hs

theorem Run.split {s₀ s : State Y} {a b : List (Lab Y.Req)} (h : Run Y cfg s₀ (a ++ b) s) :
    ∃ s₁, Run Y cfg s₀ a s₁ ∧ Run Y cfg s₁ b s := by
  induction b using List.reverseRecOn generalizing s with
  | nil => exact ⟨s, by simpa using h, .nil⟩
  | append_singleton b l ih =>
    rw [← List.append_assoc] at h
    generalize hx : a ++ b ++ [l] = x at h
    cases h with
    | nil => simp at hx
    | @snoc t s' l' _ h1 h2 =>
      obtain ⟨rfl, hl⟩ := List.append_inj' hx rfl
      simp at hl; subst hl
      obtain ⟨s₁, h3, h4⟩ := ih h1
      exact ⟨s₁, h3, h4.snoc h2⟩

theorem Run.nil_inv {s s' : State Y} (h : Run Y cfg s [] s') : s = s' := by
  generalize hx : ([] : List (Lab Y.Req)) = x at h
  cases h with
  | nil => rfl
  | snoc _ _ => simp at hx

theorem Run.single {s s' : State Y} {l : Lab Y.Req} (h : Run Y cfg s [l] s') : Tr Y cfg s l s' := by
  generalize hx : [l] = x at h
  cases h with
  | nil => simp at hx
  | @snoc t s₁ l' _ h1 h2 =>
    cases t with
    | nil => simp at hx; subst hx; rw [h1.nil_inv]; exact h2
    | cons a t => simp at hx

theorem Run.cons {s s₁ s' : State Y} {l : Lab Y.Req} {t : List (Lab Y.Req)} (h : Tr Y cfg s l s₁)
    (h' : Run Y cfg s₁ t s') : Run Y cfg s (l :: t) s' :=
  Run.trans (Run.nil.snoc h) h'

end Sched
end Verif
