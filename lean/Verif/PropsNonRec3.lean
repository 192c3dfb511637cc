/-
Which directory changes the non-recursive tree follows up (C72).
-/
import Verif.PropsScan

namespace Verif
namespace NonRec
open Spec

variable {P : Platform}

/-- The path is watched recursively: some channel is registered recursively on it, or the tree keeps an internal set there, because the directory is below
a recursive Watch. -/
def RecPoint (P : Platform) (ops : List Op) (s : St) (q : Path) : Prop :=
  (∃ c ev, regOf P ops c q = some (ev, true)) ∨ ∃ v, (watchAt s.root q).get? .recCh = some v

theorem isRecursive_iff (hP : P.Facts) {rel : Bool} {ops : List Op} {s : St} (h : Hist P rel ops s)
    (hops : ∀ op ∈ ops, NoPlainFail op) (q : Path) : (watchAt s.root q).isRecursive P = true ↔ RecPoint P ops s q := by
  have hs := Hist.shape hP h
  have hr := fun c => Hist.refines hP h (c := c) (fun o ho => (hops o ho).of c)
  have hnr := hs.nr q
  have hro := hP.rec_omit
  simp only [WP.isRecursive, decide_eq_true_eq]
  rw [Event.ne_zero_iff]
  constructor
  · rintro ⟨i, hi⟩
    rw [BitVec.getLsbD_and, Bool.and_eq_true] at hi
    obtain ⟨_, k, v, hk, hv, hb⟩ := (hnr.inv.total_bit i).1 hi.1
    cases k with
    | nil => exact absurd rfl hk
    | recCh => exact Or.inr ⟨v, hv⟩
    | user c =>
      left
      have he : enc P (regOf P ops c q) = some v := by rw [← (hr c).ent]; exact hv
      rcases hx : regOf P ops c q with _ | ⟨ev, fl⟩
      · rw [hx] at he; simp [enc] at he
      · cases fl with
        | true => exact ⟨c, ev, hx⟩
        | false =>
          exfalso
          have hcl := (hr c).clean q ev false hx
          rw [hx] at he
          simp only [enc, Option.map_some, Bool.false_eq_true, if_false, Option.some.injEq] at he
          subst he
          have h1 := congrArg (fun v => BitVec.getLsbD v i) hcl
          simp only [BitVec.getLsbD_and, Platform.internal, BitVec.getLsbD_or, hi.2] at h1
          simp only [BitVec.getLsbD_or, Bool.or_eq_true] at hb
          rcases hb with hb | hb
          · rw [hb] at h1; simp at h1
          · simp at hb
  · rintro (⟨c, ev, hx⟩ | ⟨v, hv⟩)
    · obtain ⟨i, hi⟩ := Event.ne_zero_iff.1 hP.recursive_ne
      have hoi : BitVec.getLsbD P.omitted i = false := by ebits
      have he : entry s.root c q = enc P (regOf P ops c q) := (hr c).ent q
      rw [hx] at he
      simp only [enc, Option.map_some, if_true] at he
      have := (hnr.inv.total_bit i).2 ⟨hoi, .user c, _, nofun, he, by simp [hi]⟩
      exact ⟨i, by rw [BitVec.getLsbD_and, hi, Bool.and_true]; exact this⟩
    · obtain ⟨i, hi⟩ := Event.ne_zero_iff.1 hP.recursive_ne
      have hrv := hnr.recv _ hv
      have hoi : BitVec.getLsbD P.omitted i = false := by clear hv; ebits
      have := (hnr.inv.total_bit i).2 ⟨hoi, .recCh, _, nofun, hv, hrv i (by simp [Platform.internal, hi])⟩
      exact ⟨i, by rw [BitVec.getLsbD_and, hi, Bool.and_true]; exact this⟩

theorem RecPoint.ne_nil (hP : P.Facts) {rel : Bool} {ops : List Op} {s : St} (h : Hist P rel ops s)
    (hops : ∀ op ∈ ops, NoPlainFail op) {q : Path} (hq : RecPoint P ops s q) : q ≠ [] := by
  rintro rfl
  have hs := Hist.shape hP h
  have h1 := (isRecursive_iff hP h hops []).2 hq
  have h2 : watchAt s.root [] = [] := by rw [watchAt_nil, hs.top]
  rw [h2] at h1
  simp [WP.isRecursive, WP.val] at h1

theorem RecPoint.node (hP : P.Facts) {rel : Bool} {ops : List Op} {s : St} (h : Hist P rel ops s)
    (hops : ∀ op ∈ ops, NoPlainFail op) {q : Path} (hq : RecPoint P ops s q) : s.root.find q ≠ none := by
  intro hn
  have h1 := (isRecursive_iff hP h hops q).2 hq
  have h2 : watchAt s.root q = [] := by simp [watchAt, hn]
  rw [h2] at h1
  simp [WP.isRecursive, WP.val] at h1

/-- **C72.**  In every history, for a change of a path that lies in a directory of the tree: the change is handed to the internal goroutine if and only if it is
the creation or removal of a directory, and the path itself or a directory above it is watched recursively. -/
theorem C72_handed (hP : P.Facts) {rel : Bool} {ops : List Op} {s : St} (h : Hist P rel ops s) (hops : ∀ op ∈ ops, NoPlainFail op)
    {ei : EventInfo} (hlen : 2 ≤ ei.path.length) (hnode : s.root.find ei.path.dropLast ≠ none) :
    toInternal P s.root ei = true ↔
      ei.isDir = some true ∧ ei.event &&& (P.create ||| P.remove) ≠ 0 ∧ ∃ q, q <+: ei.path ∧ RecPoint P ops s q := by
  obtain ⟨d, b, hdb⟩ : ∃ d b, ei.path = d ++ [b] := by
    rcases path_cases ei.path with h1 | h1
    · rw [h1] at hlen; simp at hlen
    · exact h1
  have hd : d ≠ [] := by
    rintro rfl
    rw [hdb] at hlen; simp at hlen
  rw [hdb, List.dropLast_concat] at hnode
  obtain ⟨nd, hnd⟩ := get_of_find_ne hnode
  have hwd : watchAt s.root d = nd.watch := by simp [watchAt, Node.find, hnd]
  have hleaf : s.root.get? (d ++ [b]) = nd.child.get? b := by
    rw [Node.get?_append, hnd]
    simp [Node.get?_cons]
  have hone : ∀ q c, s.root.get? q = some c → (c.watch.isRecursive P = true ↔ RecPoint P ops s q) := by
    intro q c hc
    rw [← isRecursive_iff hP h hops q]
    have : watchAt s.root q = c.watch := by simp [watchAt, Node.find, hc]
    rw [this]
  unfold toInternal
  rw [hdb, List.dropLast_concat, List.getLastD_concat]
  simp only [Node.walkPath_base _ hd, hnd, Bool.and_eq_true, Bool.or_eq_true, decide_eq_true_eq, beq_iff_eq, List.any_eq_true]
  constructor
  · rintro ⟨⟨h1, h2⟩, h3⟩
    refine ⟨h3, h2, ?_⟩
    rcases h1 with (⟨c, hc, hr⟩ | hr) | hr
    · obtain ⟨r, hr', hg⟩ := mem_onPath (nd := s.root) (p := d) (c := c) (by simp [onPath, hc])
      exact ⟨r, hr'.trans (List.prefix_append _ _), (hone r c hg).1 hr⟩
    · exact ⟨d, List.prefix_append _ _, (hone d nd hnd).1 hr⟩
    · cases hl : nd.child.get? b with
      | none => rw [hl] at hr; simp at hr
      | some leaf =>
        rw [hl] at hr
        exact ⟨d ++ [b], List.prefix_rfl, (hone _ leaf (hleaf.trans hl)).1 hr⟩
  · rintro ⟨h3, h2, q, hq, hrp⟩
    refine ⟨⟨?_, h2⟩, h3⟩
    obtain ⟨c, hc⟩ := get_of_find_ne (RecPoint.node hP h hops hrp)
    have hcr := (hone q c hc).2 hrp
    rcases List.prefix_concat_iff.1 hq with rfl | hq
    · right
      rw [← hleaf, hc]; exact hcr
    · left
      by_cases hqd : q = d
      · subst hqd
        rw [hnd] at hc
        obtain rfl := Option.some.inj hc
        exact Or.inr hcr
      · have := onPath_of_prefix hq hqd hc
        simp only [onPath, List.mem_append, Option.mem_toList, Node.walkPath_base _ hd, hnd] at this
        rcases this with h4 | h4
        · exact Or.inl ⟨c, h4, hcr⟩
        · right
          have : nd = c := by simpa using h4
          rw [this]; exact hcr

/-- C72 for a change that can be reported: the OS watches the path or its directory. -/
theorem C72_reported (hP : P.Facts) {ops : List Op} {s : St} (h : Hist P true ops s) (hops : ∀ op ∈ ops, NoPlainFail op)
    {ei : EventInfo} (hlen : 2 ≤ ei.path.length) (hos : osOf s.world.log ei.path ≠ 0 ∨ osOf s.world.log ei.path.dropLast ≠ 0) :
    toInternal P s.root ei = true ↔
      ei.isDir = some true ∧ ei.event &&& (P.create ||| P.remove) ≠ 0 ∧ ∃ q, q <+: ei.path ∧ RecPoint P ops s q := by
  refine C72_handed hP h hops hlen ?_
  have hfind : ∀ q, osOf s.world.log q ≠ 0 → s.root.find q ≠ none := by
    intro q hq hn
    exact hq ((C11_os_mirror hP h q).2.2 (by simp [watchAt, hn]))
  rcases hos with h1 | h1
  · rcases path_cases ei.path with h2 | ⟨d, b, h2⟩
    · rw [h2] at hlen; simp at hlen
    · have := hfind _ h1
      rw [h2] at this
      rw [h2, List.dropLast_concat]
      exact find_prefix this
  · exact hfind _ h1

/-- `/a` is watched recursively: the removal of `/a/b` is handed over, a change of the file `/a/f` is not; nor is its renaming; when `/f` is watched without recursion,
the creation of `/f/c` is not. -/
example : Hist Ex.I true Ex.ops2 Ex.s2 ∧ (∀ op ∈ Ex.ops2, NoPlainFail op) ∧ osOf Ex.s2.world.log [Ex.a, Ex.b] ≠ 0 ∧
    toInternal Ex.I Ex.s2.root { event := Ex.I.remove, path := [Ex.a, Ex.b], isDir := some true } = true ∧
    toInternal Ex.I Ex.s2.root { event := Ex.I.remove, path := [Ex.a, Ex.f], isDir := some false } = false ∧
    toInternal Ex.I Ex.s2.root { event := Ex.I.rename, path := [Ex.a, Ex.b], isDir := some true } = false ∧
    osOf Ex.r1.world.log [Ex.f] ≠ 0 ∧
    toInternal Ex.I Ex.r1.root { event := Ex.I.create, path := [Ex.f, ['c']], isDir := some true } = false :=
  ⟨Ex.hist2, Ex.nofail2, by decide, by decide, by decide, by decide, by decide, by decide⟩

end NonRec
end Verif
