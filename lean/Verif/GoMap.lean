/-
Go maps as association lists.

A Go `map[K]V` is modelled by a list of key/value pairs.  The list order stands for one
possible `range` order.  Reading a missing key gives `none`; the zero value that Go returns
is supplied by the caller.  Nothing here corresponds to a particular line of /repo.
-/

namespace Verif

/-- A Go map. -/
abbrev GoMap (κ ν : Type) := List (κ × ν)

namespace GoMap
variable {κ ν : Type} [DecidableEq κ]

/-- `v, ok := m[k]`. -/
def get? : GoMap κ ν → κ → Option ν
  | [], _ => none
  | (k', v) :: m, k => if k' = k then some v else get? m k

/-- `m[k] = v`. -/
def set : GoMap κ ν → κ → ν → GoMap κ ν
  | [], k, v => [(k, v)]
  | (k', v') :: m, k, v => if k' = k then (k, v) :: m else (k', v') :: set m k v

/-- `delete(m, k)`. -/
def del : GoMap κ ν → κ → GoMap κ ν
  | [], _ => []
  | (k', v') :: m, k => if k' = k then del m k else (k', v') :: del m k

/-- The keys in range order. -/
def keys (m : GoMap κ ν) : List κ := m.map Prod.fst

/-- Every key occurs once: the list represents a Go map. -/
def Nodup (m : GoMap κ ν) : Prop := m.keys.Nodup

/-- Two maps with the same content (possibly different range order). -/
def Equiv (m m' : GoMap κ ν) : Prop := ∀ k, m.get? k = m'.get? k

omit [DecidableEq κ] in
@[simp] theorem keys_nil : keys ([] : GoMap κ ν) = [] := rfl
omit [DecidableEq κ] in
@[simp] theorem keys_cons (p : κ × ν) (m : GoMap κ ν) : keys (p :: m) = p.1 :: keys m := rfl

@[simp] theorem get?_nil (k : κ) : get? ([] : GoMap κ ν) k = none := rfl

theorem get?_set (m : GoMap κ ν) (k k' : κ) (v : ν) :
    (m.set k v).get? k' = if k = k' then some v else m.get? k' := by
  induction m with
  | nil => simp [set, get?]
  | cons p m ih =>
    obtain ⟨k₀, v₀⟩ := p
    simp only [set]
    by_cases h : k₀ = k
    · subst h; simp only [if_true, get?]; split <;> simp_all
    · simp only [h, if_false, get?, ih]; grind

theorem get?_del (m : GoMap κ ν) (k k' : κ) :
    (m.del k).get? k' = if k = k' then none else m.get? k' := by
  induction m with
  | nil => simp [del, get?]
  | cons p m ih =>
    obtain ⟨k₀, v₀⟩ := p
    simp only [del, get?]; grind [get?]

theorem mem_keys_iff (m : GoMap κ ν) (k : κ) : k ∈ m.keys ↔ ∃ v, m.get? k = some v := by
  induction m with
  | nil => simp [keys]
  | cons p m ih =>
    obtain ⟨k₀, v₀⟩ := p
    simp only [keys_cons, List.mem_cons, ih, get?]
    by_cases h : k₀ = k
    · simp [h]
    · simp [h, Ne.symm h]

theorem get?_eq_none_iff (m : GoMap κ ν) (k : κ) : m.get? k = none ↔ k ∉ m.keys := by
  rw [mem_keys_iff]; cases m.get? k <;> simp

theorem mem_of_get? {m : GoMap κ ν} {k : κ} {v : ν} (h : m.get? k = some v) : (k, v) ∈ m := by
  induction m with
  | nil => simp at h
  | cons p m ih =>
    obtain ⟨k₀, v₀⟩ := p
    simp only [get?] at h
    split at h
    · simp_all
    · exact List.mem_cons_of_mem _ (ih h)

omit [DecidableEq κ] in
theorem mem_keys_of_mem {m : GoMap κ ν} {k : κ} {v : ν} (h : (k, v) ∈ m) : k ∈ m.keys :=
  List.mem_map.2 ⟨_, h, rfl⟩

theorem get?_of_mem {m : GoMap κ ν} (hn : m.Nodup) {k : κ} {v : ν} (h : (k, v) ∈ m) :
    m.get? k = some v := by
  induction m with
  | nil => simp at h
  | cons p m ih =>
    obtain ⟨k₀, v₀⟩ := p
    simp only [Nodup, keys_cons, List.nodup_cons] at hn
    simp only [List.mem_cons, Prod.mk.injEq] at h
    simp only [get?]
    rcases h with ⟨rfl, rfl⟩ | h
    · simp
    · have : k₀ ≠ k := fun e => hn.1 (e ▸ mem_keys_of_mem h)
      simp only [this, if_false]; exact ih hn.2 h

theorem mem_iff_get? {m : GoMap κ ν} (hn : m.Nodup) {k : κ} {v : ν} :
    (k, v) ∈ m ↔ m.get? k = some v := ⟨get?_of_mem hn, mem_of_get?⟩

theorem mem_keys_set (m : GoMap κ ν) (k k' : κ) (v : ν) :
    k' ∈ (m.set k v).keys ↔ k' = k ∨ k' ∈ m.keys := by
  rw [mem_keys_iff, mem_keys_iff, get?_set]
  by_cases h : k = k'
  · simp [h]
  · simp [h, Ne.symm h]

theorem mem_keys_del (m : GoMap κ ν) (k k' : κ) :
    k' ∈ (m.del k).keys ↔ k' ≠ k ∧ k' ∈ m.keys := by
  rw [mem_keys_iff, mem_keys_iff, get?_del]
  by_cases h : k = k'
  · simp [h]
  · simp [h, Ne.symm h]

@[simp] theorem nodup_nil : Nodup ([] : GoMap κ ν) := by simp [Nodup]

theorem Nodup.set {m : GoMap κ ν} (h : m.Nodup) (k : κ) (v : ν) : (m.set k v).Nodup := by
  induction m with
  | nil => simp [GoMap.set, Nodup]
  | cons p m ih =>
    obtain ⟨k₀, v₀⟩ := p
    simp only [Nodup, keys_cons, List.nodup_cons] at h
    simp only [GoMap.set]
    by_cases e : k₀ = k
    · subst e; simpa [Nodup] using h
    · simp only [e, if_false, Nodup, keys_cons, List.nodup_cons]
      refine ⟨?_, ih h.2⟩
      rw [mem_keys_set]; simp [e, h.1]

theorem Nodup.del {m : GoMap κ ν} (h : m.Nodup) (k : κ) : (m.del k).Nodup := by
  induction m with
  | nil => simp [GoMap.del, Nodup]
  | cons p m ih =>
    obtain ⟨k₀, v₀⟩ := p
    simp only [Nodup, keys_cons, List.nodup_cons] at h
    simp only [GoMap.del]
    by_cases e : k₀ = k
    · simpa [e] using ih h.2
    · simp only [e, if_false, Nodup, keys_cons, List.nodup_cons]
      refine ⟨?_, ih h.2⟩
      rw [mem_keys_del]; simp [h.1]

theorem eq_nil_iff_get? (m : GoMap κ ν) : m = [] ↔ ∀ k, m.get? k = none := by
  constructor
  · rintro rfl; simp
  · intro h
    cases m with
    | nil => rfl
    | cons p m => have := h p.1; simp [get?] at this

theorem length_le_one_of_keys {m : GoMap κ ν} (hn : m.Nodup) {k₀ : κ}
    (h : ∀ k, k ∈ m.keys → k = k₀) : m.length ≤ 1 := by
  cases m with
  | nil => simp
  | cons p m =>
    cases m with
    | nil => simp
    | cons q m =>
      simp only [Nodup, keys_cons, List.nodup_cons, List.mem_cons] at hn
      have h1 := h p.1 (by simp)
      have h2 := h q.1 (by simp)
      simp_all

theorem two_le_length {m : GoMap κ ν} {k k' : κ} (hk : k ∈ m.keys) (hk' : k' ∈ m.keys)
    (hne : k ≠ k') : 2 ≤ m.length := by
  cases m with
  | nil => simp at hk
  | cons p m =>
    cases m with
    | nil => simp only [keys_cons, keys_nil, List.mem_cons, List.not_mem_nil, or_false] at hk hk'; simp_all
    | cons q m => simp

end GoMap
end Verif
