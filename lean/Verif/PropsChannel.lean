/-
C09: sends never block and drop an event only if the channel is full.
-/
import Verif.Channel
import Verif.NonRecEx

namespace Verif

namespace Chan

/-- `n` send attempts of the same event. -/
def offers (ch : Chan) (ei : EventInfo) : Nat → Chan
  | 0 => ch
  | n + 1 => (ch.offer ei).offers ei n

theorem offers_eq (ch : Chan) (ei : EventInfo) (n : Nat) :
    ch.offers ei n = { cap := ch.cap, waiting := ch.waiting - n
                       got := ch.got ++ List.replicate (min n ch.waiting) ei
                       buf := ch.buf ++ List.replicate (min (n - ch.waiting) (ch.cap - ch.buf.length)) ei } := by
  induction n generalizing ch with
  | zero => simp [offers]
  | succ n ih =>
    rw [offers, ih]
    unfold offer
    split
    · next h =>
      have h1 : min (n + 1) ch.waiting = min n (ch.waiting - 1) + 1 := by omega
      have h2 : n + 1 - ch.waiting = n - (ch.waiting - 1) := by omega
      have h3 : ch.waiting - 1 - n = ch.waiting - (n + 1) := by omega
      simp [h1, h2, h3, List.replicate_succ]
    · next h =>
      have hw : ch.waiting = 0 := by omega
      split
      · next h' =>
        have h1 : min (n + 1) (ch.cap - ch.buf.length) = min n (ch.cap - (ch.buf.length + 1)) + 1 := by omega
        simp [hw, h1, List.replicate_succ]
      · next h' =>
        have h1 : ch.cap - ch.buf.length = 0 := by omega
        simp [hw, h1]

end Chan

theorem deliver_apply (cs : Chans) (ei : EventInfo) (ks : List Key) (k : Key) :
    (cs.deliver ei ks) k = (cs k).offers ei (ks.count k) := by
  unfold Chans.deliver
  induction ks generalizing cs with
  | nil => rfl
  | cons k' ks ih =>
    rw [List.foldl_cons, ih]
    by_cases hk : k' = k
    · subst hk; simp [Chans.offer, Chan.offers]
    · rw [List.count_cons_of_ne (by simpa using hk)]
      simp [Chans.offer, Ne.symm hk]

/-- **C09.**  What dispatching an event does to a channel, for any state of the tree and of the channels: a
channel to which `n` copies are sent hands them to receivers that are waiting, puts as many of the others as
fit at the end of its buffer, and drops the rest; what was buffered or received before stays, in order.
A channel to which nothing is sent does not change. -/
theorem C09_deliver (P : Platform) (root : Node) (cs : Chans) (ei : EventInfo) (k : Key) (n : Nat)
    (hn : (NonRec.sends P root ei).count k = n) :
    ((cs.deliver ei (NonRec.sends P root ei)) k).got = (cs k).got ++ List.replicate (min n (cs k).waiting) ei ∧
    ((cs.deliver ei (NonRec.sends P root ei)) k).buf =
      (cs k).buf ++ List.replicate (min (n - (cs k).waiting) ((cs k).cap - (cs k).buf.length)) ei ∧
    ((cs.deliver ei (NonRec.sends P root ei)) k).cap = (cs k).cap ∧
    (n = 0 → (cs.deliver ei (NonRec.sends P root ei)) k = cs k) := by
  rw [deliver_apply, hn, Chan.offers_eq]
  refine ⟨rfl, rfl, rfl, ?_⟩
  rintro rfl
  simp

/-- **C09, in the words of the claim.**  A channel with room (or with a waiting receiver) gets at least one
copy of an event sent to it; a full one is unchanged; a buffer never exceeds its capacity. -/
theorem C09_room (P : Platform) (root : Node) (cs : Chans) (ei : EventInfo) (k : Key)
    (hk : k ∈ NonRec.sends P root ei) :
    ((0 < (cs k).waiting ∨ (cs k).buf.length < (cs k).cap) →
      ei ∈ ((cs.deliver ei (NonRec.sends P root ei)) k).got ++ ((cs.deliver ei (NonRec.sends P root ei)) k).buf) ∧
    ((cs k).waiting = 0 → (cs k).cap ≤ (cs k).buf.length → (cs.deliver ei (NonRec.sends P root ei)) k = cs k) ∧
    ((cs k).buf.length ≤ (cs k).cap → ((cs.deliver ei (NonRec.sends P root ei)) k).buf.length ≤ (cs k).cap) := by
  have hc : 0 < (NonRec.sends P root ei).count k := List.count_pos_iff.2 hk
  rw [deliver_apply, Chan.offers_eq]
  generalize (NonRec.sends P root ei).count k = n at *
  refine ⟨?_, ?_, ?_⟩
  · rintro (h | h)
    · simp only [List.mem_append, List.mem_replicate]
      exact .inl (.inr ⟨by omega, trivial⟩)
    · simp only [List.mem_append, List.mem_replicate]
      by_cases hw : 0 < (cs k).waiting
      · exact .inl (.inr ⟨by omega, trivial⟩)
      · exact .inr (.inr ⟨by omega, trivial⟩)
  · intro h1 h2
    have : (cs k).cap - (cs k).buf.length = 0 := by omega
    simp only [h1, this]
    cases hck : cs k
    simp_all
  · intro h
    simp only [List.length_append, List.length_replicate]
    omega

/-- Non-trivial case: channel 1 is sent an event and has room for one more. -/
example : Key.user 1 ∈ NonRec.sends NonRec.Ex.I NonRec.Ex.s2.root NonRec.Ex.ei ∧
    (Chans.deliver (fun _ => { cap := 1 }) NonRec.Ex.ei (NonRec.sends NonRec.Ex.I NonRec.Ex.s2.root NonRec.Ex.ei)
      (.user 1)).buf = [NonRec.Ex.ei] := by
  refine ⟨by decide, ?_⟩
  rw [(C09_deliver _ _ _ _ _ _ rfl).2.1]
  decide

end Verif
