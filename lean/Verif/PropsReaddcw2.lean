/-
C60-C63: the table of watches of the Windows watcher, its asynchronous changes and its memory.
-/
import Verif.PropsReaddcw

namespace Verif
namespace Dcw
open Platform (readdcw)

/-! ### Specification -/

/-- What was asked for last, by successful calls; `none` after `Unwatch`. -/
def askedStep (f : Path → Option (Event × Bool)) : Op → Path → Option (Event × Bool)
  | .watch p e r true, q => if q = p then some (e, r) else f q
  | .rewatch p _ e r true, q => if q = p then some (e, r) else f q
  | .unwatch p true, q => if q = p then none else f q
  | _, q => f q

def asked : List Op → Path → Option (Event × Bool) := fun l => l.foldl askedStep (fun _ => none)

/-- The contract of the interface (watcher.go:24-43): `Watch` is for a path that is not watched, `Rewatch` for a watched one
with its set, `Unwatch` for a watched one; sets are not empty. -/
def LegalOp (f : Path → Option (Event × Bool)) : Op → Prop
  | .watch p e _ _ => f p = none ∧ e ≠ 0 ∧ valid e = true
  | .rewatch p old e _ _ => (f p).map (·.1) = some old ∧ e ≠ 0 ∧ valid e = true
  | .unwatch p _ => f p ≠ none
  | .tau => True

instance (f : Path → Option (Event × Bool)) (op : Op) : Decidable (LegalOp f op) := by
  cases op <;> simp only [LegalOp] <;> infer_instance

/-- Executions whose calls follow the contract. -/
inductive LHist : List Op → St → Prop
  | nil : LHist [] St.init
  | snoc {l : List Op} {s s' : St} {op : Op} : LHist l s → LegalOp (asked l) op → Step s op s' → LHist (l ++ [op]) s'

/-- What the kernel watches for a path: filters and whether below directories, too. -/
def held (s : St) (p : Path) : List (Event × Bool) :=
  (s.reads.filter fun r => decide ((s.grips r.g).path = p)).map fun r => (r.native, r.sub)

/-- What the kernel should watch for a set: files and, if needed, directories. -/
def wanted (e : Event) (r : Bool) : List (Event × Bool) :=
  (if hasFile e then [(encode (fileFilter e), r)] else []) ++ (if hasDir e then [(encode (dirFilter e), r)] else [])

/-- Everything reported is handled. -/
def Quiet (s : St) : Prop := s.queue = [] ∧ s.loop = .idle

instance (s : St) : Decidable (Quiet s) := inferInstanceAs (Decidable (_ ∧ _))

/-- The number of outstanding reads that use the memory of a grip. -/
def inUse (s : St) (g : Nat) : Nat := s.reads.countP (·.g = g)

/-! ### Running examples -/

/-- A step with the answers of the kernel; `complete i` is for the read number `i`. -/
inductive Act
  | watch (p : Path) (e : Event) (r : Bool) (a0 a1 : Ans)
  | rewatch (p : Path) (old new : Event) (r : Bool)
  | unwatch (p : Path) (gone : Bool)
  | complete (i : Nat)
  | take
  | again (ok : Bool)
  | state (a0 a1 : Ans)

def run1 (s : St) : Act → Option (St × Op)
  | .watch p e r a0 a1 => some ((watch s p e r a0 a1).1, .watch p e r (watch s p e r a0 a1).2)
  | .rewatch p old new r => (rewatch s p old new r).map fun x => (x.1, .rewatch p old new r x.2)
  | .unwatch p gone => some ((unwatch s p gone).1, .unwatch p (unwatch s p gone).2)
  | .complete i => s.reads[i]?.map fun r => (complete s r, .tau)
  | .take => some (take s, .tau)
  | .again ok => some (again s ok, .tau)
  | .state a0 a1 => (loopstate s a0 a1).map fun x => (x, .tau)

theorem run1_step {s s' : St} {a : Act} {op : Op} (h : run1 s a = some (s', op)) : Step s op s' := by
  cases a with
  | watch p e r a0 a1 => cases h; exact .watch ..
  | unwatch p gone => cases h; exact .unwatch ..
  | take => cases h; exact .take _
  | again ok => cases h; exact .again ..
  | rewatch p old new r =>
    simp only [run1, Option.map_eq_some_iff] at h
    obtain ⟨x, h1, h2⟩ := h
    cases h2
    exact .rewatch _ _ _ _ _ _ _ h1
  | complete i =>
    simp only [run1, Option.map_eq_some_iff] at h
    obtain ⟨x, h1, h2⟩ := h
    cases h2
    exact .complete _ _ (List.mem_of_getElem? h1)
  | state a0 a1 =>
    simp only [run1, Option.map_eq_some_iff] at h
    obtain ⟨x, h1, h2⟩ := h
    cases h2
    exact .state _ _ _ _ h1

/-- Runs the steps as long as the calls follow the contract. -/
def runAll : List Act → Option (St × List Op) → Option (St × List Op)
  | [], x => x
  | _, none => none
  | a :: l, some (s, ops) =>
    match run1 s a with
    | none => none
    | some (s', op) => if LegalOp (asked ops) op then runAll l (some (s', ops ++ [op])) else none

theorem runAll_none (l : List Act) : runAll l none = none := by cases l <;> rfl

theorem runAll_hist : ∀ (l : List Act) {s : St} {ops : List Op} {x : St × List Op}, LHist ops s →
    runAll l (some (s, ops)) = some x → LHist x.2 x.1
  | [], s, ops, x, hh, h => by cases h; exact hh
  | a :: l, s, ops, x, hh, h => by
    rw [runAll] at h
    cases hr : run1 s a with
    | none => rw [hr] at h; cases h
    | some y =>
      rw [hr] at h
      simp only at h
      split at h
      · rename_i hl
        exact runAll_hist l (hh.snoc hl (run1_step hr)) h
      · cases h

def runs (l : List Act) : Option (St × List Op) := runAll l (some (.init, []))

/-- The result of a run; the start if it is not possible. -/
def final (l : List Act) : St × List Op := (runs l).getD (.init, [])

theorem final_hist (l : List Act) : LHist (final l).2 (final l).1 := by
  unfold final
  cases h : runs l with
  | none => exact .nil
  | some x => exact runAll_hist l .nil h

namespace Ex2

def p : Path := [['d']]

/-- Watch for Create; Unwatch; Watch for Write. -/
def la : List Act := [.watch p readdcw.create false {} {}, .unwatch p false, .watch p readdcw.write false {} {}]

/-- One round of the loop, without errors. -/
def round : List Act := [.take, .again true, .state {} {}]

/-- Watch for Create; Rewatch for Write; the loop handles everything. -/
def lb : List Act := [.watch p readdcw.create false {} {}, .rewatch p readdcw.create readdcw.write false] ++ round ++ round

/-- Watch for Create; Rewatch for the names of directories; the loop handles everything. -/
def lc : List Act := [.watch p readdcw.create false {} {}, .rewatch p readdcw.create dirName false] ++ round ++ round

/-- An event arrives before the first read is known to the loop. -/
def ld : List Act := [.watch p readdcw.write false { early := true } {}]

example : held (final lb).1 p = wanted readdcw.write false ∧ Quiet (final lb).1 := by decide

end Ex2

/-- **C60 is false of the code**: after an `Unwatch` and a `Watch` with another set, both successful, and with no event in
between, the kernel watches for the old set: `watch` finds the old entry and only takes the mark off. -/
theorem C60_refuted : ¬ ∀ (ops : List Op) (s : St) (p : Path) (e : Event) (r : Bool), LHist ops s → Quiet s →
    asked ops p = some (e, r) → held s p = wanted e r := by
  intro h
  have := h _ _ Ex2.p readdcw.write false (final_hist Ex2.la) (by decide) (by decide)
  revert this; decide

/-- Other ways to lose a watch.  A `Rewatch` for the names of directories alone: the first handle is registered again, with
an empty filter (the state bit in the set keeps it from being dropped), which the kernel refuses; the error is ignored and
the entry keeps its mark for ever. -/
theorem C60_dirname_refuted : ¬ ∀ (ops : List Op) (s : St) (p : Path) (e : Event) (r : Bool), LHist ops s → Quiet s →
    (∀ p e r, Op.unwatch p true ∉ ops ∧ Op.watch p e r false ∉ ops) → asked ops p = some (e, r) → held s p = wanted e r := by
  intro h
  have h0 : (final Ex2.lc).2 = [.watch Ex2.p readdcw.create false true, .rewatch Ex2.p readdcw.create dirName false true,
    .tau, .tau, .tau, .tau, .tau, .tau] := by rfl
  have := h _ _ Ex2.p dirName false (final_hist Ex2.lc) (by decide) (by rw [h0]; simp) (by rw [h0]; decide)
  revert this; decide

/-- An event between the first read of a new watch and the moment when the loop can find the watch: the packet is dropped,
no other read follows, and the directory is never heard of again. -/
theorem C60_early_refuted : ∃ s, LHist [.watch Ex2.p readdcw.write false true] s ∧ Quiet s ∧ held s Ex2.p = [] ∧
    s.opened ≠ [] ∧ wanted readdcw.write false ≠ [] :=
  ⟨(final Ex2.ld).1, final_hist Ex2.ld, by decide, by decide, by decide, by decide⟩

/-- After `Unwatch` of an existing directory the kernel goes on watching it, until the next event. -/
theorem C60_unwatch_refuted : ¬ ∀ (ops : List Op) (s : St) (p : Path), LHist ops s → Quiet s → asked ops p = none →
    held s p = [] := by
  intro h
  have := h _ _ Ex2.p (final_hist (Ex2.la.take 2)) (by decide) (by decide)
  revert this; decide

/-! ### Memory -/

/-- The kernel or the queue has a pointer to the memory of the grip. -/
def Needed (s : St) (g : Nat) : Prop := (∃ r ∈ s.reads, r.g = g) ∨ g ∈ s.queue

/-- The program has a pointer to it: from the table of watches, or the loop has it. -/
def Reachable (s : St) (g : Nat) : Prop :=
  (∃ p w, s.m.get? p = some w ∧ ((s.wds w).g0 = some g ∨ (s.wds w).g1 = some g)) ∨ s.loop = .got g ∨ s.loop = .st g

namespace Ex2

/-- The loop has read again after an event and not yet looked at the state when `Rewatch` is called: its closing of the
handle counts twice: the second handle is opened again too early and gets two reads. -/
def le : List Act := [.watch p readdcw.create false {} {}, .complete 0, .take, .again true,
  .rewatch p readdcw.create (readdcw.create ||| readdcw.write) false, .state {} {}] ++ round ++ round

/-- The same without a race: after `Unwatch`, one event, and `Watch`, the entry has one read less than it counts. -/
def lf : List Act := [.watch p readdcw.create false {} {}, .unwatch p false, .complete 0] ++ round ++
  [.watch p readdcw.create false {} {}, .rewatch p readdcw.create (readdcw.create ||| readdcw.write) false] ++ round ++ [.take, .again true]

/-- `Unwatch`, and an event: the entry is dropped while its last read is in the queue. -/
def lg : List Act := [.watch p readdcw.write false {} {}, .unwatch p false, .complete 0] ++ round

/-- `Unwatch`, `Watch`, `Rewatch`. -/
def lh : List Act := [.watch p readdcw.create false {} {}, .unwatch p false, .watch p readdcw.write false {} {}]

end Ex2

/-- **C61 is false of the code**: two reads may be outstanding with the memory of one handle, even if nothing fails. -/
theorem C61_refuted : (¬ ∀ (ops : List Op) (s : St) (g : Nat), LHist ops s → inUse s g ≤ 1) ∧
    inUse (final Ex2.le).1 1 = 2 ∧ inUse (final Ex2.lf).1 1 = 2 := by
  refine ⟨fun h => ?_, by decide, by decide⟩
  have := h _ _ 1 (final_hist Ex2.le)
  revert this; decide

/-- **C61, second part, is false of the code**: the entry of an unwatched directory is dropped while the kernel still has
the address of its memory, for every `Unwatch` of an existing directory. -/
theorem C61_drop_refuted : ¬ ∀ (ops : List Op) (s : St) (g : Nat), LHist ops s → Needed s g → Reachable s g := by
  intro h
  have h1 := h _ _ 0 (final_hist Ex2.lg) (.inr (by decide))
  rcases h1 with ⟨p, w, h2, _⟩ | h2 | h2
  · have : (final Ex2.lg).1.m = [] := by decide
    rw [this] at h2; cases h2
  · revert h2; decide
  · revert h2; decide

/-- **C62 is false of the code**: calls that follow the contract, with a kernel that never fails, run into the panic of
`rewatch`: after `Watch`, `Unwatch`, `Watch` with another set, `Rewatch` finds the old set. -/
theorem C62_panic_refuted : ∃ ops s, LHist ops s ∧ LegalOp (asked ops) (.rewatch Ex2.p readdcw.write readdcw.rename false true) ∧
    rewatch s Ex2.p readdcw.write readdcw.rename false = none :=
  ⟨_, _, final_hist Ex2.lh, by decide, by rfl⟩

/-- A second `Rewatch` shortly after the first fails, with a kernel that never fails. -/
theorem C62_refuted : ∃ ops s, LHist ops s ∧ LegalOp (asked ops) (.rewatch Ex2.p readdcw.write readdcw.rename false true) ∧
    ∃ s', rewatch s Ex2.p readdcw.write readdcw.rename false = some (s', false) :=
  ⟨_, _, final_hist (Ex2.lb.take 2), by decide, _, rfl⟩

/-- **C63 is false of the code**: a `Watch` whose first read is refused fails and leaves its handle open for ever. -/
theorem C63_refuted : ∃ s, LHist [.watch Ex2.p readdcw.write false false] s ∧ s.opened = [0] ∧ s.m = [] ∧
    ∀ g, Needed s g → False := by
  refine ⟨(final [.watch Ex2.p readdcw.write false { read := false } {}]).1,
    final_hist [.watch Ex2.p readdcw.write false { read := false } {}], by decide, by decide, ?_⟩
  rintro g (⟨r, h, _⟩ | h)
  · have : (final [.watch Ex2.p readdcw.write false { read := false } {}]).1.reads = [] := by decide
    rw [this] at h; cases h
  · have : (final [.watch Ex2.p readdcw.write false { read := false } {}]).1.queue = [] := by decide
    rw [this] at h; cases h

end Dcw
end Verif
