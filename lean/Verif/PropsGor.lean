/-
C115: how many goroutines there are.

tree_nonrecursive.go:35-75 and tree_recursive.go:117-140 start one goroutine for every event that is received from `c`, whatever the
others are doing.
-/
import Verif.PropsSched2

namespace Verif
namespace Sched

variable {Y : Sys} {cfg : Cfg}

/-- How many events the OS reported. -/
def nReported {R : Type} : List (Lab R) → Nat
  | [] => 0
  | .report evs :: t => evs.length + nReported t
  | _ :: t => nReported t

/-- How many goroutines ended. -/
def nFinished {R : Type} : List (Lab R) → Nat
  | [] => 0
  | .fin _ :: t => nFinished t + 1
  | _ :: t => nFinished t

theorem nReported_append {R : Type} (t t' : List (Lab R)) : nReported (t ++ t') = nReported t + nReported t' := by
  induction t with
  | nil => simp [nReported]
  | cons l t ih => cases l <;> simp [nReported, ih] <;> omega

theorem nFinished_append {R : Type} (t t' : List (Lab R)) : nFinished (t ++ t') = nFinished t + nFinished t' := by
  induction t with
  | nil => simp [nFinished]
  | cons l t ih => cases l <;> simp [nFinished, ih] <;> omega

/-- **C115, the part that holds: one goroutine for each event.**  The events that the OS reported are those that the watcher has not sent
yet, those that wait in `c`, those whose goroutine is alive, and those whose goroutine ended. -/
theorem C115_count_partial {t : List (Lab Y.Req)} {s : State Y} (h : Exec Y cfg t s) :
    nReported t = s.os.length + s.cq.length + s.disp.length + nFinished t := by
  induction h with
  | nil => rfl
  | snoc _ htr ih =>
    rw [nReported_append, nFinished_append, ih]
    cases htr <;> simp_all [nReported, nFinished] <;> omega

/-- The transition is one of goroutine `i` of the dispatch. -/
def Lab.goes {R : Type} (i : Nat) : Lab R → Prop
  | .rlock j => j = i
  | .pick j _ => j = i
  | .send j _ _ => j = i
  | .runlock j => j = i
  | .fin j => j = i
  | _ => False

/-- **C115, the part that holds: they wait for nothing else than Watch, Stop and the internal goroutine.**  While none of these runs and
`rec` has room, every goroutine can go on. -/
theorem C115_moves_partial {s : State Y} (hc : s.calls = []) (hi : s.int = .idle) (hr : s.rq.length < cfg.capR) {i : Nat} {ei : EventInfo} {d : Disp}
    (hd : (i, ei, d) ∈ s.disp) : ∃ l s', Tr Y cfg s l s' ∧ l.goes i := by
  obtain ⟨a, b, h⟩ := List.append_of_mem hd
  have h1 : ¬ s.CallHolds := by rintro ⟨j, r, hj | hj⟩ <;> rw [hc] at hj <;> cases hj
  have h2 : ¬ s.IntHolds := by rintro ⟨e, he | he⟩ <;> rw [hi] at he <;> cases he
  have h3 : ¬ s.WriterWaits := by
    rintro (⟨j, r, hj⟩ | ⟨e, he⟩)
    · rw [hc] at hj; cases hj
    · rw [hi] at he; cases he
  cases d with
  | start => exact ⟨_, _, .rlock i ei a b h h1 h2 (fun _ => h3), rfl⟩
  | reading d o =>
    cases o with
    | some k => exact ⟨_, _, .send i ei d k a b h, rfl⟩
    | none =>
      by_cases hk : ∃ k, d.count k < (Y.sends s.tree ei).count k
      · obtain ⟨k, hk⟩ := hk
        exact ⟨_, _, .pick i ei d k a b h hk, rfl⟩
      · have hk' : ∀ k, (Y.sends s.tree ei).count k ≤ d.count k := fun k => by
          by_contra hlt
          exact hk ⟨k, by omega⟩
        cases hh : Y.hand s.tree ei with
        | true => exact ⟨_, _, .runlock i ei d a b h hk' hh, rfl⟩
        | false => exact ⟨_, _, .fin i ei d a b h hk' hh, rfl⟩
  | handing => exact ⟨_, _, .handed i ei a b h hr, rfl⟩

/-- While a call holds the lock, as many goroutines as there are events wait for it. -/
theorem pile {r : Y.Req} (hok : Y.okReq r) (hu : Y.user r) {ei : EventInfo} (he : Y.okEv ei) (hC : 0 < cfg.capC) (n : Nat) :
    ∃ t s, Exec Y cfg t s ∧ s.os = [] ∧ s.cq = [] ∧ s.calls = [(0, r, .locked)] ∧ s.disp.length = n ∧ (∀ x ∈ s.disp, x.2.2 = .start) ∧
      nReported t = n ∧ (∀ i q, .call i q ∈ t → i = 0) := by
  induction n with
  | zero =>
    refine ⟨_, _, (Run.nil.snoc (.call r hok hu)).snoc (.lock 0 r [] [] rfl ?_ ?_ ?_), rfl, rfl, rfl, rfl, ?_, rfl, ?_⟩
    · rintro ⟨i, e, d, a, h⟩; cases h
    · rintro ⟨i, q, h | h⟩ <;> simp [State.init] at h
    · rintro ⟨e, h | h⟩ <;> cases h
    · intro x hx; cases hx
    · intro i q h
      simp [State.init] at h
      exact h.1
  | succ n ih =>
    obtain ⟨t, s, h, h1, h2, h3, h4, h5, h6, h7⟩ := ih
    have e1 := h.snoc (.report [ei] (by simpa using he) h1)
    have e2 := e1.snoc (.push ei [] rfl (by simpa [h2] using hC))
    have e3 := e2.snoc (.spawn ei [] (by simp [h2]))
    refine ⟨_, _, e3, rfl, rfl, h3, by simp [h4], ?_, ?_, ?_⟩
    · intro x hx
      rcases List.mem_cons.1 hx with rfl | hx
      · rfl
      · exact h5 x hx
    · simp [nReported_append, nReported, h6]
    · intro i q hm
      simp at hm
      exact h7 i q hm

/-- **C115 is false of the non-recursive tree**: there is no bound to the number of goroutines: already while one single call of Stop holds
the lock, there can be any number of them. -/
theorem C115_refuted_plain (P : Platform) (hC : 0 < cfg.capC) : ¬ ∃ n, ∀ t s, Exec (plainTree P) cfg t s → s.disp.length ≤ n := by
  rintro ⟨n, h⟩
  obtain ⟨t, s, h1, _, _, _, h2, _⟩ := pile (Y := plainTree P) (cfg := cfg) (r := .stop 0) (ei := { event := P.create, path := [['a']] })
    trivial trivial (by show NonRec.GoodPath _; simp [NonRec.GoodPath]) hC (n + 1)
  have := h t s h1
  omega

/-- **C115 is false of the recursive tree**. -/
theorem C115_refuted_rec (P : Platform) (hC : 0 < cfg.capC) : ¬ ∃ n, ∀ t s, Exec (recTree P) cfg t s → s.disp.length ≤ n := by
  rintro ⟨n, h⟩
  obtain ⟨t, s, h1, _, _, _, h2, _⟩ := pile (Y := recTree P) (cfg := cfg) (r := .stop 0) (ei := { event := P.create, path := [['a']] })
    trivial trivial (by show NonRec.GoodPath _; simp [NonRec.GoodPath]) hC (n + 1)
  have := h t s h1
  omega

/-- The same while a Watch holds the lock, the one that scans a directory: three goroutines of three events. -/
example : ∃ t s, Exec Ex.T Ex.conf t s ∧ s.disp.length = 3 ∧ s.calls = [(0, Ex.R1, .locked)] ∧ nReported t = 3 ∧ nFinished t = 0 := by
  obtain ⟨t, s, h, h1, h2, h3, h4, _, h6, _⟩ := pile (Y := Ex.T) (cfg := Ex.conf) (r := Ex.R1) Ex.okR1 trivial Ex.okA (by decide) 3
  have := C115_count_partial h
  rw [h1, h2, h4, h6] at this
  exact ⟨t, s, h, h4, h3, h6, by simpa using this⟩

end Sched
end Verif
