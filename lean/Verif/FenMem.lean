/-
FEN (Solaris, illumos): file objects in C memory and associations (C79, C80).

Models /repo/watcher_fen_cgo.go: `portAssociate` (71-80), `portDissociate` (82-92), `cfo2fo` (98-106), `portGet` (108-120), `free` (132-142, never called),
and how /repo/watcher_fen.go calls them (`Unwatch` 102-104, `Watch` 107-109, `Wait` 112-119).

Of the kernel (port_associate(3C), port_dissociate(3C), port_get(3C)): an association belongs to the address of the file object, not to the name in it;
the event of an association ends it; port_dissociate also takes back an event that was not fetched yet.  malloc returns an address that is not in use.

Simplifications: object and name are one block, since they are allocated and freed together.  `port_event_t` is allocated and freed within `portGet`.
A change of a file is an event of all its associations that ask for it or for which it is an exception (FILE_DELETE and the like, which are reported always).
-/
import Verif.Watchpoint

namespace Verif
namespace FenMem
open GoMap

structure S where
  /-- Blocks in use and the name in each. -/
  heap : GoMap Nat Path := []
  /-- `p2fo`. -/
  p2fo : GoMap Path Nat := []
  /-- Associations of the kernel: address, path, events. -/
  assoc : List (Nat × Path × Event) := []
  /-- Events posted and not fetched: address, event; and the file that changed, which is not part of the event. -/
  queue : List (Nat × Path × Event) := []
  /-- `portGet` has an event and has not read the name. -/
  hand : Option (Nat × Path × Event) := none
  /-- What `portGet` returned, oldest first: the name it read, `none` if the block is not in use; the file that changed; the event. -/
  out : List (Option Path × Path × Event) := []
  deriving DecidableEq

/-- `portAssociate` (watcher_fen_cgo.go:71-80): malloc returns `a`; `ok` is the answer of the kernel. -/
def associate (s : S) (p : Path) (e : Event) (a : Nat) (ok : Bool) : S :=
  { s with heap := s.heap.set a p, p2fo := s.p2fo.set p a, assoc := if ok then (a, p, e) :: s.assoc else s.assoc }

/-- `portDissociate` (watcher_fen_cgo.go:82-92). -/
def dissociate (s : S) (p : Path) : S :=
  match s.p2fo.get? p with
  | none => s
  | some a =>
    { s with assoc := s.assoc.filter (fun x => x.1 != a), queue := s.queue.filter (fun x => x.1 != a), heap := s.heap.del a, p2fo := s.p2fo.del p }

/-- Events that are reported always: FILE_DELETE, FILE_RENAME_TO, FILE_RENAME_FROM, UNMOUNTED, MOUNTEDOVER. -/
def exceptions : Event := 0x60000070

/-- The association reports the change `f` of the file `p`. -/
def hit (p : Path) (f : Event) (x : Nat × Path × Event) : Bool := decide (x.2.1 = p) && decide (f &&& (x.2.2 ||| exceptions) ≠ 0)

/-- The file `p` changes. -/
def change (s : S) (p : Path) (f : Event) : S :=
  { s with queue := s.queue ++ (s.assoc.filter (hit p f)).map (fun x => (x.1, p, f)), assoc := s.assoc.filter (fun x => !hit p f x) }

/-- `port_get` returns (watcher_fen_cgo.go:109-115). -/
def get (s : S) : S :=
  match s.hand, s.queue with
  | none, x :: q => { s with hand := some x, queue := q }
  | _, _ => s

/-- `cfo2fo` (watcher_fen_cgo.go:116). -/
def read (s : S) : S :=
  match s.hand with
  | none => s
  | some (a, p, f) => { s with hand := none, out := s.out ++ [(s.heap.get? a, p, f)] }

/-- What may happen besides. -/
structure May where
  /-- A path is dissociated while an event of its object is between `port_get` and `cfo2fo`. -/
  race : Bool
  /-- A path is associated while it has a file object. -/
  again : Bool
  /-- A path is associated while it is associated. -/
  twice : Bool

/-- Histories. -/
inductive Hist (m : May) : S → Prop
  | nil : Hist m {}
  | associate {s} (p e a ok) : Hist m s → s.heap.get? a = none → (m.again = false → s.p2fo.get? p = none) →
      (m.twice = false → ∀ a' e', (a', p, e') ∉ s.assoc) → Hist m (associate s p e a ok)
  | dissociate {s} (p) : Hist m s → (m.race = false → ∀ a q f, s.hand = some (a, q, f) → s.p2fo.get? p ≠ some a) → Hist m (dissociate s p)
  | change {s} (p f) : Hist m s → Hist m (change s p f)
  | get {s} : Hist m s → Hist m (get s)
  | read {s} : Hist m s → Hist m (read s)

/-! ### Invariants -/

theorem fst_inj {α β : Type} {l : List (α × β)} (hn : (l.map Prod.fst).Nodup) {x y : α × β} (hx : x ∈ l) (hy : y ∈ l) (he : x.1 = y.1) : x = y := by
  induction l with
  | nil => simp at hx
  | cons z l ih =>
    simp only [List.map_cons, List.nodup_cons] at hn
    rcases List.mem_cons.mp hx with h1 | h1 <;> rcases List.mem_cons.mp hy with h2 | h2
    · rw [h1, h2]
    · exact absurd (List.mem_map.mpr ⟨_, h2, by rw [← h1, he]⟩) hn.1
    · exact absurd (List.mem_map.mpr ⟨_, h1, by rw [← h2, he]⟩) hn.1
    · exact ih hn.2 h1 h2

structure Inv (s : S) : Prop where
  nodup : s.p2fo.Nodup
  p2fo : ∀ p a, s.p2fo.get? p = some a → s.heap.get? a = some p
  assoc : ∀ a p e, (a, p, e) ∈ s.assoc → s.heap.get? a = some p
  queue : ∀ a p f, (a, p, f) ∈ s.queue → s.heap.get? a = some p
  once : (s.assoc.map Prod.fst).Nodup
  apart : ∀ a p e q f, (a, p, e) ∈ s.assoc → (a, q, f) ∉ s.queue

theorem Inv.associate {s : S} (h : Inv s) (p e a ok) (ha : s.heap.get? a = none) : Inv (associate s p e a ok) := by
  have hne : ∀ b, s.heap.get? b ≠ none → a ≠ b := fun b hb hab => hb (hab ▸ ha)
  have hk : ∀ b q, s.heap.get? b = some q → (s.heap.set a p).get? b = some q := by
    intro b q hb
    rw [get?_set, if_neg (hne b (by simp [hb]))]; exact hb
  refine ⟨h.nodup.set p a, ?_, ?_, ?_, ?_, ?_⟩
  · intro q b hb
    simp only [FenMem.associate, get?_set] at hb ⊢
    split at hb
    · cases hb; simp_all
    · rename_i hpq
      have := h.p2fo q b hb
      rw [if_neg (hne b (by simp [this]))]; exact this
  · intro b q e' hm
    simp only [FenMem.associate] at hm ⊢
    cases ok
    · exact hk _ _ (h.assoc b q e' hm)
    · simp only [if_true, List.mem_cons] at hm
      rcases hm with hm | hm
      · cases hm; simp [get?_set]
      · exact hk _ _ (h.assoc b q e' hm)
  · intro b q f hb
    exact hk _ _ (h.queue b q f hb)
  · simp only [FenMem.associate]
    cases ok
    · exact h.once
    · simp only [if_true, List.map_cons, List.nodup_cons]
      refine ⟨?_, h.once⟩
      intro hm
      obtain ⟨⟨b, q, e'⟩, hb, rfl⟩ := List.mem_map.mp hm
      exact hne b (by simp [h.assoc b q e' hb]) rfl
  · intro b q e' q' f hm
    simp only [FenMem.associate] at hm ⊢
    cases ok
    · exact h.apart b q e' q' f hm
    · simp only [if_true, List.mem_cons] at hm
      rcases hm with hm | hm
      · cases hm; intro hq; rw [h.queue _ _ _ hq] at ha; cases ha
      · exact h.apart b q e' q' f hm

theorem Inv.dissociate {s : S} (h : Inv s) (p) : Inv (dissociate s p) := by
  unfold FenMem.dissociate
  cases hg : s.p2fo.get? p with
  | none => exact h
  | some a =>
    refine ⟨h.nodup.del p, ?_, ?_, ?_, ?_, ?_⟩
    · intro q b hb
      simp only [get?_del] at hb ⊢
      split at hb
      · cases hb
      · rename_i hpq
        have h1 := h.p2fo q b hb
        rw [if_neg]
        · exact h1
        · rintro rfl
          rw [h.p2fo p a hg] at h1; cases h1; exact hpq rfl
    · intro b q e hm
      simp only [List.mem_filter, bne_iff_ne] at hm
      simp only [get?_del]
      rw [if_neg (Ne.symm hm.2)]; exact h.assoc b q e hm.1
    · intro b q f hm
      simp only [List.mem_filter, bne_iff_ne] at hm
      simp only [get?_del]
      rw [if_neg (Ne.symm hm.2)]; exact h.queue b q f hm.1
    · exact h.once.sublist (List.filter_sublist.map _)
    · intro b q e q' f hm hq
      exact h.apart b q e q' f (List.mem_filter.mp hm).1 (List.mem_filter.mp hq).1

theorem Inv.change {s : S} (h : Inv s) (p f) : Inv (change s p f) := by
  refine ⟨h.nodup, h.p2fo, ?_, ?_, ?_, ?_⟩
  · intro b q e hm; exact h.assoc b q e (List.mem_filter.mp hm).1
  · intro b q g hm
    simp only [FenMem.change, List.mem_append, List.mem_map] at hm ⊢
    rcases hm with hm | ⟨⟨c, q', e⟩, hx, he⟩
    · exact h.queue b q g hm
    · obtain ⟨hx1, hx2⟩ := List.mem_filter.mp hx
      simp only [Prod.mk.injEq] at he
      obtain ⟨rfl, rfl, rfl⟩ := he
      simp only [hit, Bool.and_eq_true, decide_eq_true_eq] at hx2
      rw [h.assoc _ _ _ hx1, hx2.1]
  · exact h.once.sublist (List.filter_sublist.map _)
  · intro b q e q' g hm hq
    simp only [FenMem.change, List.mem_append, List.mem_map] at hm hq
    obtain ⟨hm1, hm2⟩ := List.mem_filter.mp hm
    rcases hq with hq | ⟨⟨c, q'', e'⟩, hx, he⟩
    · exact h.apart b q e q' g hm1 hq
    · obtain ⟨hx1, hx2⟩ := List.mem_filter.mp hx
      simp only [Prod.mk.injEq] at he
      obtain ⟨rfl, rfl, rfl⟩ := he
      rw [fst_inj h.once hx1 hm1 rfl] at hx2
      simp [hx2] at hm2

theorem Inv.get {s : S} (h : Inv s) : Inv (get s) := by
  unfold FenMem.get
  split
  · rename_i x q hh hq
    exact ⟨h.nodup, h.p2fo, h.assoc, fun a p f hm => h.queue a p f (by rw [hq]; exact List.mem_cons_of_mem _ hm), h.once,
      fun a p e q f hm hq' => h.apart a p e q f hm (by rw [hq]; exact List.mem_cons_of_mem _ hq')⟩
  · exact h

theorem Inv.read {s : S} (h : Inv s) : Inv (read s) := by
  unfold FenMem.read
  split
  · exact h
  · exact ⟨h.nodup, h.p2fo, h.assoc, h.queue, h.once, h.apart⟩

theorem Hist.inv {m : May} {s : S} (h : Hist m s) : Inv s := by
  induction h with
  | nil => exact ⟨by simp, by simp, by simp, by simp, by simp, by simp⟩
  | associate p e a ok _ ha _ _ ih => exact ih.associate p e a ok ha
  | dissociate p _ _ ih => exact ih.dissociate p
  | change p f _ ih => exact ih.change p f
  | get _ ih => exact ih.get
  | read _ ih => exact ih.read

/-! ### C79: memory -/

/-- **C79, blocks.**  In every history, with all races: the kernel has only addresses of blocks in use, which contain the name of the file watched; a posted
event that was not fetched has the address of a block in use with the name of the file that changed; and what `portDissociate` frees is in use (it is freed once). -/
theorem C79_blocks {m : May} {s : S} (h : Hist m s) :
    (∀ a p e, (a, p, e) ∈ s.assoc → s.heap.get? a = some p) ∧ (∀ a p f, (a, p, f) ∈ s.queue → s.heap.get? a = some p) ∧
    ∀ p a, s.p2fo.get? p = some a → s.heap.get? a = some p :=
  ⟨h.inv.assoc, h.inv.queue, h.inv.p2fo⟩

theorem Hist.hand {m : May} (hm : m.race = false) {s : S} (h : Hist m s) :
    (∀ a p f, s.hand = some (a, p, f) → s.heap.get? a = some p) ∧ ∀ x ∈ s.out, x.1 = some x.2.1 := by
  induction h with
  | nil => simp
  | @associate s p e a ok _ ha _ _ ih =>
    refine ⟨fun b q f hh => ?_, ih.2⟩
    have := ih.1 b q f hh
    simp only [FenMem.associate, get?_set]
    rw [if_neg]
    · exact this
    · rintro rfl; rw [this] at ha; cases ha
  | @dissociate s p _ hr ih =>
    unfold FenMem.dissociate
    cases hg : s.p2fo.get? p with
    | none => exact ih
    | some a =>
      refine ⟨fun b q f hh => ?_, ih.2⟩
      simp only [get?_del]
      rw [if_neg]
      · exact ih.1 b q f hh
      · rintro rfl; exact hr hm _ q f hh hg
  | change p f _ ih => exact ih
  | @get s h ih =>
    unfold FenMem.get
    split
    · rename_i x q hh hq
      refine ⟨fun a p f hx => ?_, ih.2⟩
      simp only [Option.some.injEq] at hx
      exact h.inv.queue a p f (by rw [hq, hx]; simp)
    · exact ih
  | @read s _ ih =>
    unfold FenMem.read
    split
    · exact ih
    · rename_i a p f hh
      refine ⟨by simp, fun x hx => ?_⟩
      rcases List.mem_append.mp hx with hx | hx
      · exact ih.2 x hx
      · rw [List.mem_singleton] at hx; subst hx
        exact ih.1 a p f hh

/-- **C79, names.**  Every notification is returned with the name of the file that changed, if no path is dissociated while an event of its object is between
`port_get` and the reading of the name. -/
theorem C79_name_partial {m : May} (hm : m.race = false) {s : S} (h : Hist m s) : ∀ x ∈ s.out, x.1 = some x.2.1 :=
  (h.hand hm).2

/-- **C79, leaks.**  If a path is associated only while it has no file object, the blocks in use are the file objects of the table, one for each path. -/
theorem C79_noleak_partial {m : May} (hm : m.again = false) {s : S} (h : Hist m s) (a : Nat) (p : Path) :
    s.heap.get? a = some p ↔ s.p2fo.get? p = some a := by
  refine ⟨fun hh => ?_, h.inv.p2fo p a⟩
  induction h with
  | nil => simp at hh
  | @associate s q e b ok h hb hp _ ih =>
    simp only [FenMem.associate, get?_set] at hh ⊢
    by_cases hba : b = a
    · rw [if_pos hba] at hh; cases hh; rw [if_pos rfl, hba]
    · rw [if_neg hba] at hh
      have := ih hh
      rw [if_neg]
      · exact this
      · rintro rfl; rw [hp hm] at this; cases this
  | @dissociate s q h _ ih =>
    unfold FenMem.dissociate at hh ⊢
    cases hg : s.p2fo.get? q with
    | none => rw [hg] at hh; exact ih hh
    | some b =>
      rw [hg] at hh
      simp only [get?_del] at hh ⊢
      split at hh
      · cases hh
      · rename_i hba
        have := ih hh
        rw [if_neg]
        · exact this
        · rintro rfl; rw [hg] at this; cases this; exact hba rfl
  | change p f _ ih => exact ih hh
  | @get s _ ih =>
    unfold FenMem.get at hh ⊢
    split at hh <;> exact ih hh
  | @read s _ ih =>
    unfold FenMem.read at hh ⊢
    split at hh <;> exact ih hh

namespace Ex
def f : Path := [['d'], ['f']]
def g : Path := [['d'], ['g']]

/-- Two files are watched, one changes. -/
def s1 : S := read (get (change (associate (associate {} f 0x2 1 true) g 0x2 2 true) g 0x2))

theorem hist1 : Hist ⟨false, false, false⟩ s1 :=
  .read (.get (.change _ _ (.associate _ _ _ _ (.associate _ _ _ _ .nil rfl (fun _ => rfl) (fun _ _ _ => by simp)) (by decide) (fun _ => by decide)
    (fun _ a e => by simp [associate, f, g]))))

example : s1.out = [(some g, g, 0x2)] ∧ s1.heap.get? 2 = some g := by decide

/-- The event of `f` is fetched; `f` is no longer watched. -/
def s2 : S := dissociate (get (change (associate {} f 0x2 1 true) f 0x2)) f
theorem hist2 : Hist ⟨true, false, false⟩ s2 :=
  .dissociate _ (.get (.change _ _ (.associate _ _ _ _ .nil rfl (fun _ => rfl) (fun _ _ _ => by simp)))) (fun h => by cases h)
end Ex

/-- **C79 is false of the code: memory is read after it was freed,** if the path is unwatched between `port_get` and the reading of the name; and if the block is
in use again, the notification is taken for one of another file. -/
theorem C79_freed_refuted : (∃ s, Hist ⟨true, false, false⟩ s ∧ s.out = [(none, Ex.f, 0x2)]) ∧
    ∃ s, Hist ⟨true, false, false⟩ s ∧ s.out = [(some Ex.g, Ex.f, 0x2)] := by
  refine ⟨⟨_, .read Ex.hist2, by decide⟩, ⟨_, .read (.associate Ex.g 0x2 1 true Ex.hist2 (by decide) (fun _ => by decide) (fun _ a e => ?_)), by decide⟩⟩
  have : Ex.s2.assoc = [] := by decide
  simp [this]

/-- One path is watched, and `n` of its events have been handled, each followed by associating the path again (watcher_trigger.go:429-438). -/
def after (p : Path) : Nat → S
  | 0 => associate {} p 0x2 0 true
  | n + 1 => associate (read (get (change (after p n) p 0x2))) p 0x2 (n + 1) true

theorem after_spec (p : Path) (n : Nat) : Hist ⟨false, true, false⟩ (after p n) ∧ (after p n).assoc = [(n, p, 0x2)] ∧ (after p n).queue = [] ∧
    (after p n).hand = none ∧ (after p n).heap.length = n + 1 ∧ (∀ a, n < a → (after p n).heap.get? a = none) ∧ ∀ q, q ≠ p → (after p n).p2fo.get? q = none := by
  induction n with
  | zero =>
    refine ⟨.associate _ _ _ _ .nil rfl (fun h => by cases h) (fun _ _ _ => by simp), rfl, rfl, rfl, rfl, fun a ha => ?_, fun q hq => ?_⟩
    · simp [after, associate, GoMap.set, GoMap.get?]; omega
    · simp only [after, associate, GoMap.set, GoMap.get?]; rw [if_neg (Ne.symm hq)]
  | succ n ih =>
    obtain ⟨h1, h2, h3, h4, h5, h6, h7⟩ := ih
    have hx : (read (get (change (after p n) p 0x2))) = { after p n with assoc := [], queue := [], hand := none, out := (after p n).out ++ [((after p n).heap.get? n, p, 0x2)] } := by
      have hc : change (after p n) p 0x2 = { after p n with assoc := [], queue := [(n, p, 0x2)] } := by
        unfold change
        rw [h2, h3]
        have : hit p 0x2 (n, p, 0x2) = true := by
          unfold hit
          rw [decide_eq_true rfl, show ((n, p, (0x2 : Event)).2.2) = 0x2 from rfl]; decide
        rw [List.filter_cons_of_pos this, List.filter_cons_of_neg (by rw [this]; simp)]
        rfl
      rw [hc]
      simp [get, read, h4]
    have hset : ∀ (m : GoMap Nat Path) (k : Nat) (v : Path), m.get? k = none → (m.set k v).length = m.length + 1 := by
      intro m k v hm
      induction m with
      | nil => rfl
      | cons y m ih =>
        simp only [GoMap.get?] at hm
        split at hm
        · cases hm
        · rename_i hk; simp only [GoMap.set, if_neg hk, List.length_cons, ih hm]
    simp only [after]
    refine ⟨.associate _ _ _ _ (.read (.get (.change _ _ h1))) ?_ (fun h => by cases h) (fun _ a e => ?_), ?_, ?_, ?_, ?_, fun a ha => ?_, fun q hq => ?_⟩
    · rw [hx]; exact h6 _ (by omega)
    · rw [hx]; simp
    · rw [hx]; rfl
    · rw [hx]; rfl
    · rw [hx]; rfl
    · rw [hx]; simp only [associate]; rw [hset _ _ _ (h6 _ (by omega)), h5]
    · rw [hx]; simp only [associate, get?_set]; rw [if_neg (by omega)]; exact h6 a (by omega)
    · rw [hx]; simp only [associate, get?_set]; rw [if_neg (Ne.symm hq)]; exact h7 q hq

/-- **C79 is false of the code: every notification leaks a block.**  For every `n` there is a history without races in which one file is watched, everything
reported is handled, and `n + 1` blocks are in use, of which the kernel knows one. -/
theorem C79_leak_refuted (n : Nat) : ∃ s, Hist ⟨false, true, false⟩ s ∧ s.assoc = [(n, Ex.f, 0x2)] ∧ s.queue = [] ∧ s.hand = none ∧ s.heap.length = n + 1 ∧
    ∀ q, q ≠ Ex.f → s.p2fo.get? q = none := by
  obtain ⟨h1, h2, h3, h4, h5, _, h7⟩ := after_spec Ex.f n
  exact ⟨_, h1, h2, h3, h4, h5, h7⟩

/-! ### C80: one association for each path -/

theorem Hist.single {m : May} (hm : m.twice = false) {s : S} (h : Hist m s) : ∀ a p e, (a, p, e) ∈ s.assoc → s.p2fo.get? p = some a := by
  induction h with
  | nil => simp
  | @associate s q e b ok h hb _ ht ih =>
    intro a p e' hx
    simp only [FenMem.associate, get?_set] at hx ⊢
    have hold : (a, p, e') ∈ s.assoc → (if q = p then some b else s.p2fo.get? p) = some a := by
      intro hx
      rw [if_neg]
      · exact ih a p e' hx
      · rintro rfl; exact ht hm _ _ hx
    cases ok
    · exact hold hx
    · simp only [if_true, List.mem_cons] at hx
      rcases hx with hx | hx
      · cases hx; rw [if_pos rfl]
      · exact hold hx
  | @dissociate s q h _ ih =>
    intro a p e hx
    unfold FenMem.dissociate at hx ⊢
    cases hg : s.p2fo.get? q with
    | none => rw [hg] at hx; exact ih a p e hx
    | some b =>
      rw [hg] at hx
      simp only [List.mem_filter, bne_iff_ne] at hx
      have := ih a p e hx.1
      simp only [get?_del]
      rw [if_neg]
      · exact this
      · rintro rfl; rw [hg] at this; cases this; exact hx.2 rfl
  | change p f _ ih => exact fun a q e hx => ih a q e (List.mem_filter.mp hx).1
  | @get s _ ih => unfold FenMem.get; split <;> exact ih
  | @read s _ ih => unfold FenMem.read; split <;> exact ih

/-- **C80, once.**  If a path is associated only while it is not: a change that is asked for is posted exactly once, any other never. -/
theorem C80_once_partial {m : May} (hm : m.twice = false) {s : S} (h : Hist m s) (p : Path) (f : Event) :
    (change s p f).queue = s.queue ∧ (∀ a e, (a, p, e) ∈ s.assoc → f &&& (e ||| exceptions) = 0) ∨
    ∃ a e, (a, p, e) ∈ s.assoc ∧ f &&& (e ||| exceptions) ≠ 0 ∧ (change s p f).queue = s.queue ++ [(a, p, f)] := by
  have hs := h.single hm
  have hn := h.inv.once
  have huniq : ∀ x ∈ s.assoc, ∀ y ∈ s.assoc, x.2.1 = p → y.2.1 = p → x = y := by
    rintro ⟨a, q, e⟩ hx ⟨a', q', e'⟩ hy rfl hqq
    simp only at hqq; subst hqq
    have h1 := hs _ _ _ hx; have h2 := hs _ _ _ hy
    rw [h1] at h2; cases h2
    exact fst_inj hn hx hy rfl
  have hl : s.assoc.filter (hit p f) = [] ∨ ∃ x, s.assoc.filter (hit p f) = [x] := by
    have hnd : (s.assoc.filter (hit p f)).Nodup := by
      have : s.assoc.Nodup := List.Pairwise.of_map Prod.fst (fun a b h1 h2 => h1 (by rw [h2])) hn
      exact this.sublist List.filter_sublist
    match hf : s.assoc.filter (hit p f) with
    | [] => exact .inl rfl
    | [x] => exact .inr ⟨x, rfl⟩
    | x :: y :: l =>
      rw [hf] at hnd
      have hx : x ∈ s.assoc.filter (hit p f) := by rw [hf]; simp
      have hy : y ∈ s.assoc.filter (hit p f) := by rw [hf]; simp
      obtain ⟨hx1, hx2⟩ := List.mem_filter.mp hx
      obtain ⟨hy1, hy2⟩ := List.mem_filter.mp hy
      simp only [hit, Bool.and_eq_true, decide_eq_true_eq] at hx2 hy2
      have := huniq x hx1 y hy1 hx2.1 hy2.1
      subst this; simp at hnd
  rcases hl with hl | ⟨x, hl⟩
  · left
    refine ⟨by simp [change, hl], fun a e hx => ?_⟩
    apply Decidable.byContradiction
    intro hne
    have : (a, p, e) ∈ s.assoc.filter (hit p f) := List.mem_filter.mpr ⟨hx, by simp only [hit, decide_true, Bool.true_and]; exact decide_eq_true hne⟩
    rw [hl] at this; simp at this
  · right
    have hx : x ∈ s.assoc.filter (hit p f) := by rw [hl]; simp
    obtain ⟨hx1, hx2⟩ := List.mem_filter.mp hx
    obtain ⟨a, q, e⟩ := x
    simp only [hit, Bool.and_eq_true, decide_eq_true_eq] at hx2
    obtain ⟨rfl, hx3⟩ := hx2
    exact ⟨a, e, hx1, hx3, by simp [change, hl]⟩

/-- **C80, end.**  Then also, after `Unwatch` the kernel does not watch the path. -/
theorem C80_ends_partial {m : May} (hm : m.twice = false) {s : S} (h : Hist m s) (p : Path) : ∀ a e, (a, p, e) ∉ (dissociate s p).assoc := by
  intro a e hx
  unfold dissociate at hx
  cases hg : s.p2fo.get? p with
  | none => rw [hg] at hx; rw [h.single hm a p e hx] at hg; cases hg
  | some b =>
    rw [hg] at hx
    simp only [List.mem_filter, bne_iff_ne] at hx
    have := h.single hm a p e hx.1
    rw [hg] at this; cases this; exact hx.2 rfl

/-- The hypotheses are met: two files are watched, one of them for a second time after its event; it changes. -/
example : ∃ s, Hist ⟨false, true, false⟩ s ∧ (change s Ex.g 0x2).queue = [(3, Ex.g, 0x2)] :=
  ⟨_, .associate Ex.g 0x2 3 true (m := ⟨false, true, false⟩) (.read (.get (.change Ex.g 0x2 (.associate Ex.g 0x2 2 true (.associate Ex.f 0x2 1 true .nil rfl (fun _ => rfl)
    (fun _ _ _ => by simp)) (by decide) (fun _ => by decide) (fun _ a e => by simp [associate, Ex.f, Ex.g]))))) (by decide) (fun h => by cases h)
    (fun _ a e => by
      have : (read (get (change (associate (associate {} Ex.f 2 1 true) Ex.g 2 2 true) Ex.g 2))).assoc = [(1, Ex.f, 0x2)] := by decide
      rw [this]; simp [Ex.f, Ex.g]), by decide⟩

/-- **C80 is false of the code.**  A file that is watched through its directory is then watched itself, as `singlewatch` does (watcher_trigger.go:151-178): it has
two associations.  One change is notified twice; and after the file has been unwatched (with `portDissociate`) the kernel still watches it. -/
theorem C80_refuted : ∃ s, Hist ⟨false, true, true⟩ s ∧ s.queue = [] ∧ (read (get (read (get (change s Ex.f 0x2))))).out = [(some Ex.f, Ex.f, 0x2), (some Ex.f, Ex.f, 0x2)] ∧
    (1, Ex.f, 0x2) ∈ (dissociate s Ex.f).assoc :=
  ⟨_, .associate Ex.f 0x2 2 true (.associate Ex.f 0x2 1 true .nil rfl (fun h => by cases h) (fun h => by cases h)) (by decide) (fun h => by cases h) (fun h => by cases h),
    by decide, by decide, by decide⟩

end FenMem
end Verif
