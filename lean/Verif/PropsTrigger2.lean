/-
kqueue and FEN: what notifications report (C40, C42, C52, C53).
-/
import Verif.PropsTrigger

namespace Verif
namespace Trg
open Spec.Trg Event WP

namespace Ex

/-- `/d` with a directory `/d/s`, which holds a file `/d/s/f`; every call succeeds. -/
def E1 : Env where
  stat := fun p => some (decide (p = [['d']] ∨ p = [['d'], ['s']]))
  opn := fun _ => .ok
  reg := fun _ => true
  unreg := fun _ => true
  list := fun p =>
    if p = [['d']] then .ok [(['s'], true)] else if p = [['d'], ['s']] then .ok [(['f'], false)] else .error false

/-- `/d` watched for Rename, `/d/s` for Write. -/
def s1 : St := (Watch kqueue E1 (Watch kqueue E1 {} [['d']] 0x800).1 [['d'], ['s']] 0x400).1

/-- `/d` watched for Create on FEN. -/
def s2 : St := (Watch fen E1 {} [['d']] 0x100).1

end Ex

/-- **C40, last part, is false of the code**: an event may be reported for a path although neither the path nor its
directory was watched for it.  `/d` is watched for Rename and `/d/s` for Write; when `/d` is renamed, a Rename of `/d/s/f`
is reported.  (The tree drops it, because it looks at the sets of `/d/s`.) -/
theorem C40_refuted : ¬ ∀ (E : Env) (s : St) (p : Path) (ge : Event) (ev : Ev), ev ∈ (process kqueue E s p ge).2 →
    ∀ w, s.lkp.get? ev.path = some w → ev.event ⊑ w.all := by
  intro h
  have := h Ex.E1 Ex.s1 [['d']] 0x20 ⟨[['d'], ['s'], ['f']], 0x800, true⟩ (by decide)
    { fd := 2, isDir := false, eNonDir := 0x400 } (by decide)
  exact absurd this (by decide)

/-! ### C52: no empty events -/

theorem and2_bit {e : Event} {a b : Nat} (ha : a < 32) (hb : b < 32) {f : Event}
    (hf : f = BitVec.twoPow 32 a ||| BitVec.twoPow 32 b) (h : e &&& f ≠ 0) : e.getLsbD a = true ∨ e.getLsbD b = true := by
  obtain ⟨i, hi⟩ := ne_zero_iff.1 h
  rw [hf, BitVec.getLsbD_and, BitVec.getLsbD_or, Bool.and_eq_true, Bool.or_eq_true] at hi
  obtain ⟨h1, h2 | h2⟩ := hi
  · left
    simp [BitVec.getLsbD_twoPow, ha] at h2
    rw [h2]; exact h1
  · right
    simp [BitVec.getLsbD_twoPow, hb] at h2
    rw [h2]; exact h1

/-- A flag that kqueue may report for an entry gives an event. -/
theorem kq_decode_hit {w ge : Event} {d : Bool} (hge : ge ⊑ kqueue.encode w d) {k g : Nat} (hk : (k, g) = (5, 11) ∨ (k, g) = (0, 9))
    (hb : ge.getLsbD k = true) : (decode kqueue.nat2not ge w).getLsbD k = true ∨ (decode kqueue.nat2not ge w).getLsbD g = true := by
  have he := hge k hb
  have hk32 : k < 32 := by rcases hk with h | h <;> cases h <;> decide
  have hfo : BitVec.twoPow 32 k ⊑ ge := (Inotify.sub_pow ge hk32).2 hb
  rw [kq_encode_bit w d hk32] at he
  have hd := C40_decode_kqueue (List.Perm.refl _) ge w
  have self : w.getLsbD k = true → (decode kqueue.nat2not ge w).getLsbD k = true := by
    intro h
    refine (hd k).2 ⟨BitVec.twoPow 32 k, BitVec.twoPow 32 k, ?_, hfo, (Inotify.sub_pow w hk32).2 h, by simp [hk32]⟩
    rcases hk with h | h <;> cases h <;> decide
  have other : w.getLsbD g = true → (decode kqueue.nat2not ge w).getLsbD g = true := by
    intro h
    have hg : g < 32 := by rcases hk with h | h <;> cases h <;> decide
    refine (hd g).2 ⟨BitVec.twoPow 32 g, BitVec.twoPow 32 k, ?_, hfo, (Inotify.sub_pow w hg).2 h, by simp [hg]⟩
    rcases hk with h | h <;> cases h <;> decide
  rcases hk with h | h
  · cases h
    simp at he
    exact he.imp self other
  · cases h
    simp at he
    exact he.imp self other

/-- **C52 on kqueue.**  If the kernel reports only flags of the native mask, no reported event is empty. -/
theorem C52_kqueue_partial (E : Env) (s : St) (p : Path) (ge : Event) {w : W} (hw : s.lkp.get? p = some w)
    (hge : ge ⊑ kqueue.encode w.all w.isDir) (ev : Ev) (h : ev ∈ (process kqueue E s p ge).2) : ev.event ≠ 0 := by
  have hstrip : ∀ (x : Event) (i : Nat), x.getLsbD i = true → i = 5 ∨ i = 11 ∨ i = 0 ∨ i = 9 →
      (x &^ kqueue.P.write &^ kqueue.nWrite).getLsbD i = true := by
    intro x i hx hi
    rw [bit_andNot, bit_andNot, hx]
    rcases hi with rfl | rfl | rfl | rfl <;> decide
  rcases process_events kqueue E s p ge hw ev h with h | h | h | h
  · exact h.2.2.2
  · rw [h.2.2.2]
    apply ne_zero_iff.2
    rcases and2_bit (a := 5) (b := 0) (by decide) (by decide) (by decide) h.2.1 with hb | hb
    · rcases kq_decode_hit hge (.inl rfl) hb with h | h
      · exact ⟨5, hstrip _ _ h (by decide)⟩
      · exact ⟨11, hstrip _ _ h (by decide)⟩
    · rcases kq_decode_hit hge (.inr rfl) hb with h | h
      · exact ⟨0, hstrip _ _ h (by decide)⟩
      · exact ⟨9, hstrip _ _ h (by decide)⟩
  · rw [h.2.2.2.1]
    apply ne_zero_iff.2
    have hb : ge.getLsbD 5 = true := (and_bit (k := 5) (by decide) (by decide)).1 h.2.1
    have hsub := decode_sub kqueue (.inl rfl) ge w.all
    rcases kq_decode_hit hge (.inl rfl) hb with h | h
    · exact ⟨5, hstrip _ _ (by rw [BitVec.getLsbD_and, h, hsub _ h]; rfl) (by decide)⟩
    · exact ⟨11, hstrip _ _ (by rw [BitVec.getLsbD_and, h, hsub _ h]; rfl) (by decide)⟩
  · rcases h.2.2.2.2 with h | h <;> (rw [h.1]; decide)

/-- The hypotheses hold when `/d` is renamed. -/
example : ∃ w, Ex.s1.lkp.get? [['d']] = some w ∧ (0x20 : Event) ⊑ kqueue.encode w.all w.isDir ∧
    (process kqueue Ex.E1 Ex.s1 [['d']] 0x20).2.length = 3 := ⟨_, rfl, by decide, by decide⟩

/-- **C52 is false on FEN**: a directory watched for Create is removed, and FEN reports FILE_DELETE (which cannot be switched
off) together with FILE_MODIFIED; the watcher then reports an event without any bit. -/
theorem C52_refuted : ¬ ∀ (E : Env) (s : St) (p : Path) (ge : Event) (ev : Ev), ev ∈ (process fen E s p ge).2 → ev.event ≠ 0 := by
  intro h
  exact h Ex.E1 Ex.s2 [['d']] 0x12 ⟨[['d']], 0, true⟩ (by decide) rfl

/-- An empty event goes to every channel of a watchpoint, whatever the channel asked for. -/
theorem C52_goes_everywhere (P : Platform) (hP : P.windows = false) (wp : WP) (ei : EventInfo) (h0 : ei.event = 0)
    (ho : ∀ k v, (k, v) ∈ wp → v &&& P.omitted = 0) (k : Key) (hk : k ≠ .nil) (v : Event)
    (hm : (k, v) ∈ wp) : k ∈ wp.dispatch P ei 0 := by
  have hmask : eventmask P ei 0 = 0 := by simp [eventmask, hP, h0]
  have hmatch : ∀ v : Event, v &&& P.omitted = 0 → matchesEv P v 0 = true := by
    intro v hv; simp [matchesEv, hP, hv]
  unfold dispatch
  simp only [hmask]
  rw [if_pos]
  · exact List.mem_map.2 ⟨(k, v), List.mem_filter.2 ⟨hm, by
      rw [hmatch v (ho k v hm)]; simp [hk]⟩, rfl⟩
  · apply hmatch
    unfold val
    cases hg : GoMap.get? wp Key.nil with
    | none => simp
    | some u => exact ho _ _ (GoMap.mem_of_get? hg)

/-! ### C42: a second channel hides events -/

/-- What a channel with event set `set` gets of a native notification `o` on kqueue if `total` is the set of all channels:
the kernel reports the flags of the mask, and the watchpoint compares the result with the channel's set. -/
def gets (set total o : Event) (d : Bool) : Bool :=
  let e := decode kqueue.nat2not (o &&& kqueue.encode total d) total
  decide (e ≠ 0) && matchesEv Platform.kqueue set e

/-- **C42 is false on kqueue**: a channel watches a file for Write and gets a write that makes the file longer.  After
another channel has asked for NoteExtend on the same file, neither channel gets it. -/
theorem C42_kqueue_refuted : ∃ o : Event, gets 0x400 0x400 o false = true ∧
    gets 0x400 (0x400 ||| 0x4) o false = false ∧ gets 0x4 (0x400 ||| 0x4) o false = false :=
  ⟨0x6, by decide⟩

/-- The same happens if one channel asks for Write and another for its native form. -/
theorem C42_native_refuted : ∃ o : Event, gets 0x400 0x400 o false = true ∧ gets 0x2 0x2 o false = true ∧
    gets 0x400 (0x400 ||| 0x2) o false = false ∧ gets 0x2 (0x400 ||| 0x2) o false = false :=
  ⟨0x2, by decide⟩

/-- A channel gets a notification exactly if some event is reported and all events reported for the notification are in
its set. -/
theorem C42_gets_iff (set total o : Event) (d : Bool) (ho : set &&& Platform.kqueue.omitted = 0)
    (ht : total &&& Platform.kqueue.omitted = 0) :
    gets set total o d = true ↔
      decode kqueue.nat2not (o &&& kqueue.encode total d) total ≠ 0 ∧
        decode kqueue.nat2not (o &&& kqueue.encode total d) total ⊑ set := by
  have hwin : Platform.kqueue.windows = false := rfl
  have hsub := decode_sub kqueue (.inl rfl) (o &&& kqueue.encode total d) total
  unfold gets
  generalize decode kqueue.nat2not (o &&& kqueue.encode total d) total = e at *
  have he : e &&& Platform.kqueue.omitted = 0 := by
    apply zero_of_getLsbD
    intro i
    rw [BitVec.getLsbD_and]
    cases h : e.getLsbD i with
    | false => rfl
    | true =>
      have h1 := hsub i h
      have h2 : (total &&& Platform.kqueue.omitted).getLsbD i = false := by rw [ht]; simp
      rw [BitVec.getLsbD_and, h1] at h2
      simpa using h2
  simp only [matchesEv, hwin, ho, he]
  simp [sub_iff_and]

/-- **C42 on kqueue (partial).**  A registration of further events takes no notification from a channel if none of the
further events is meant by a flag of the notification. -/
theorem C42_kqueue_partial (set total total' o : Event) (d : Bool) (hs : total ⊑ total') (h7 : total' ⊑ 0xf7f)
    (hset : set ⊑ total) (hno : ∀ E f, (E, f) ∈ kqMeans → f ⊑ o → E ⊑ total' → E ⊑ total)
    (h : gets set total o d = true) : gets set total' o d = true := by
  have hom : ∀ {e : Event}, e ⊑ 0xf7f → e &&& Platform.kqueue.omitted = 0 := by
    intro e he
    apply zero_of_getLsbD
    intro i
    rw [BitVec.getLsbD_and]
    cases hb : e.getLsbD i with
    | false => rfl
    | true =>
      have h1 := he i hb
      by_cases h32 : i < 32
      · have : ∀ i < 32, (0xf7f : Event).getLsbD i = true → Platform.kqueue.omitted.getLsbD i = false := by decide
        rw [this i h32 h1]; rfl
      · rw [BitVec.getLsbD_of_ge _ _ (by omega)] at h1; cases h1
  have ht := hs.trans h7
  rw [C42_gets_iff _ _ _ _ (hom (hset.trans ht)) (hom ht)] at h
  rw [C42_gets_iff _ _ _ _ (hom (hset.trans ht)) (hom h7)]
  have hflag : ∀ {E f : Event}, (E, f) ∈ kqMeans → f ∈ kqFlags := by
    intro E f hm
    have : ∀ x ∈ kqMeans, x.2 ∈ kqFlags := by decide
    exact this _ hm
  have hand : ∀ {f a b : Event}, f ⊑ a &&& b ↔ f ⊑ a ∧ f ⊑ b := by
    intro f a b
    constructor
    · intro h
      constructor
      · intro i hi; have := h i hi; rw [BitVec.getLsbD_and, Bool.and_eq_true] at this; exact this.1
      · intro i hi; have := h i hi; rw [BitVec.getLsbD_and, Bool.and_eq_true] at this; exact this.2
    · rintro ⟨h1, h2⟩ i hi
      rw [BitVec.getLsbD_and, h1 i hi, h2 i hi]; rfl
  have heq : decode kqueue.nat2not (o &&& kqueue.encode total' d) total' =
      decode kqueue.nat2not (o &&& kqueue.encode total d) total := by
    rw [bext]
    intro i
    apply Bool.eq_iff_iff.2
    rw [show ∀ a b, (decode kqueue.nat2not a b).getLsbD i = bit (decode kqueue.nat2not a b) i from fun _ _ => rfl,
      show ∀ a b, (decode kqueue.nat2not a b).getLsbD i = bit (decode kqueue.nat2not a b) i from fun _ _ => rfl,
      C40_decode_kqueue (List.Perm.refl _), C40_decode_kqueue (List.Perm.refl _)]
    constructor
    · rintro ⟨E, f, hm, hf, hE, hb⟩
      rw [hand] at hf
      have hE' := hno E f hm hf.1 hE
      exact ⟨E, f, hm, hand.2 ⟨hf.1, ((C40_mask_kqueue total ht d).2 f (hflag hm)).2 (.inl ⟨E, hm, hE'⟩)⟩, hE', hb⟩
    · rintro ⟨E, f, hm, hf, hE, hb⟩
      rw [hand] at hf
      have hE' := hE.trans hs
      exact ⟨E, f, hm, hand.2 ⟨hf.1, ((C40_mask_kqueue total' h7 d).2 f (hflag hm)).2 (.inl ⟨E, hm, hE'⟩)⟩, hE', hb⟩
  rw [heq]
  exact h

/-- The hypotheses hold for a write, if the other channel asks for Rename. -/
example : gets 0x400 (0x400 ||| 0x800) 0x2 false = true :=
  C42_kqueue_partial 0x400 0x400 (0x400 ||| 0x800) 0x2 false (by decide) (by decide) (by decide)
    (by
      intro E f hm hf hE
      have : ∀ x ∈ kqMeans, x.2 ⊑ 0x2 → x.1 ⊑ (0x400 ||| 0x800 : Event) → x.1 ⊑ (0x400 : Event) := by decide
      exact this _ hm hf hE) (by decide)

end Trg
end Verif
