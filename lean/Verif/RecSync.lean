/-
The OS watches of the recursive tree mirror its topmost watchpoints: preserved by every successful Watch
and by Stop under stated conditions.
-/
import Verif.RecBook

namespace Verif
namespace Rec
open GoMap NonRec

variable {P : Platform}

/-- The OS holds exactly the watches the bookkeeping asks for, and was always called according to its
contract. -/
structure Sync (P : Platform) (s : St) : Prop where
  book : Book P s.root
  osTop : ∀ q, Top P s.root q → ∃ f, osRec s.world.log q = some (tot P s.root q, f)
  osNone : ∀ q, ¬ Top P s.root q → osRec s.world.log q = none
  valid : ValidLogRec P s.world.log
  fine : s.world.panicked = false

theorem osRec_fail (l : Log) (c : Call) : osRec ((c, false) :: l) = osRec l := by
  funext q; simp [osRec]

theorem tot_internal (P : Platform) (root : Node) (q : Path) : tot P root q &&& P.internal = 0 := by
  have h1 := total_internal P (watchAt root q)
  have h2 := total_internal P (watchAt root (q ++ [[]]))
  unfold tot
  generalize WP.total P (watchAt root q) = x at *
  generalize WP.total P (watchAt root (q ++ [[]])) = y at *
  ebits

theorem watchAdd_name (nd : Node) (k : Key) (e : Event) : (watchAdd P nd k e).1.name = nd.name := by
  obtain ⟨n, w, ch⟩ := nd; rfl

theorem watchAddInactive_name (nd : Node) (k : Key) (e : Event) : (watchAddInactive P nd k e).1.name = nd.name := by
  obtain ⟨n, w, ch⟩ := nd; rfl

theorem regNode_name {Q : WP → Prop} {root : Node} (h : ROK Q root) {q : Path} (hq : [] ∉ q) (hg : root.get? q ≠ none)
    (p : Path) (c : Nat) (e : Event) : (regNode P root q p c e).name = q := by
  unfold regNode
  split
  · rw [watchAdd_name]; exact nodeAt_name h hq hg
  · rw [watchAddInactive_name]; exact nodeAt_name h hq hg

/-- What a successful Watch establishes besides the mirror: either it made no OS call, or the path is
covered by a recursive OS watch if the Watch was recursive or is not itself the OS-watched path. -/
def Backed (s s' : St) (p : Path) (isrec : Bool) : Prop :=
  s'.world.log = s.world.log ∨ ∃ q E f, q <+: p ∧ osRec s'.world.log q = some (E, f) ∧ (isrec = true ∨ q ≠ p → f = true)

theorem Sync.under (O : Oracle) {s : St} (h : Sync P s) {q p : Path} (hp : [] ∉ p) (hqp : q <+: p)
    (hq : Top P s.root q) (hg : s.root.get? p ≠ none) (isrec : Bool) (c : Nat) {E : Event} (hE : Storable P E)
    (hres : (watchUnder P O s q p isrec c E).2 = true) :
    Sync P (watchUnder P O s q p isrec c E).1 ∧ Backed s (watchUnder P O s q p isrec c E).1 p isrec ∧
    (∀ r, Top P (watchUnder P O s q p isrec c E).1.root r ↔ Top P s.root r) := by
  have hok := h.book.ok
  have hgq : s.root.get? q ≠ none := tot_ne_find hq.2.1
  have hrn : ∀ r, RN P (watchAt s.root r) := fun r => ROK.watchAt hok (RN.nil P) r
  have hok1 : ROK (RN P) (regAt P s.root q p c E) := regAt_ok hok hq.1 ((hrn _).add c hE)
  have hw1 := fun r => regAt_watchAt (P := P) hok (p := p) hq.1 hgq c E r
  have hg1 : (regAt P s.root q p c E).get? p ≠ none := regAt_get hok hq.1 hg
  have hrn1 : ∀ r, RN P (watchAt (regAt P s.root q p c E) r) := fun r => ROK.watchAt hok1 (RN.nil P) r
  have hok2 : ROK (RN P) (addAt P (regAt P s.root q p c E) p c E) := addAt_ok hok1 hp ((hrn1 _).add c hE)
  have hval : ∀ (w : WP) d, (w.add P (.user c) E).1.val (.user d) = if d = c then w.val (.user d) ||| E else w.val (.user d) := by
    intro w d
    rw [WP.val, get_add_user]
    split
    · next hd => subst hd; rfl
    · rfl
  have hu1 : ∀ r d, uset (regAt P s.root q p c E) r d =
      if d = c ∧ r = slot q p then uset s.root r d ||| E else uset s.root r d := by
    intro r d
    unfold uset
    rw [hw1 r]
    by_cases hr : r = slot q p
    · subst hr; rw [if_pos rfl, hval]; simp
    · simp [hr]
  have hu2 : ∀ r d, uset (addAt P (regAt P s.root q p c E) p c E) r d =
      if d = c ∧ (r = p ∨ r = slot q p) then uset s.root r d ||| E else uset s.root r d := by
    intro r d
    have h2 : uset (addAt P (regAt P s.root q p c E) p c E) r d =
        if d = c ∧ r = p then uset (regAt P s.root q p c E) r d ||| E else uset (regAt P s.root q p c E) r d := by
      unfold uset
      rw [addAt_watchAt hg1]
      by_cases hr : r = p
      · subst hr; rw [if_pos rfl, hval]; simp
      · simp [hr]
    rw [h2, hu1]
    generalize uset s.root r d = x
    generalize slot q p = y
    by_cases hd : d = c
    · by_cases hr : r = p
      · rw [if_pos ⟨hd, hr⟩, if_pos (⟨hd, .inl hr⟩ : d = c ∧ (r = p ∨ r = y))]
        split
        · rw [BitVec.or_assoc, BitVec.or_self]
        · rfl
      · simp [hr]
    · simp [hd]
  have hroot : ∀ root', root' = addAt P (regAt P s.root q p c E) p c E ∨ (q = p ∧ root' = regAt P s.root q p c E) →
      ROK (RN P) root' ∧ ∀ r d, uset root' r d =
        if d = c ∧ (r = p ∨ r = slot q p) then uset s.root r d ||| E else uset s.root r d := by
    rintro root' (rfl | ⟨rfl, rfl⟩)
    · exact ⟨hok2, hu2⟩
    · refine ⟨hok1, fun r d => ?_⟩
      rw [hu1]; simp [slot]
  have hname := regNode_name (P := P) hok hq.1 hgq p c E
  rw [watchUnder_eq P O s q p isrec c E hq.2.1] at hres ⊢
  split at hres
  · next hsub =>
    rw [if_pos hsub]
    simp only
    generalize hroot' : (if q = p then regAt P s.root q p c E else addAt P (regAt P s.root q p c E) p c E) = root'
    have hr := hroot root' (by
      rw [← hroot']
      by_cases hqe : q = p
      · right; exact ⟨hqe, by simp [hqe]⟩
      · left; simp [hqe])
    obtain ⟨hb, ht, hT, hto⟩ := h.book.under hr.1 hq hqp hp hr.2
    have hte : tot P root' q = tot P s.root q := by rw [ht]; exact Event.sub_iff_or.1 hsub
    refine ⟨⟨hb, ?_, ?_, h.valid, h.fine⟩, .inl rfl, hT⟩
    · intro r hr'
      have hr0 := (hT r).1 hr'
      simp only
      by_cases hrq : r = q
      · subst hrq; rw [hte]; exact h.osTop r hr0
      · rw [hto r hr0 hrq]; exact h.osTop r hr0
    · intro r hr'
      exact h.osNone r (fun hc => hr' ((hT r).2 hc))
  · next hsub =>
    split at hres
    · next hO =>
      rw [if_neg hsub, if_pos hO]
      obtain ⟨hb, ht, hT, hto⟩ := h.book.under hok2 hq hqp hp hu2
      simp only [World.exec, hO]
      obtain ⟨f, hf⟩ := h.osTop q hq
      have hne : tot P s.root q ||| (E &^ P.internal) ≠ 0 := by
        intro h0
        have : tot P s.root q ⊑ tot P s.root q ||| (E &^ P.internal) := Event.sub_or_left _ _
        rw [h0] at this
        exact hq.2.1 (Event.sub_zero this)
      have hni : (tot P s.root q ||| (E &^ P.internal)) &&& P.internal = 0 := by
        have := tot_internal P s.root q
        generalize tot P s.root q = t at *
        clear hsub hO hres ht hf hne hu1 hu2 hval
        ebits
      -- the call
      have hcall : ∃ g, (∀ x, osRec ((underCall P s.root q p isrec c E, true) :: s.world.log) x =
            if x = q then some (tot P s.root q ||| (E &^ P.internal), g) else osRec s.world.log x) ∧
          (underCall P s.root q p isrec c E).ValidRec P (osRec s.world.log) ∧ (isrec = true ∨ q ≠ p → g = true) := by
        unfold underCall
        simp only [hname]
        by_cases hrec : (isrec || watchIsRecursive P (regNode P s.root q p c E)) = true
        · refine ⟨true, ?_, ?_, fun _ => rfl⟩
          · intro x; rw [if_pos hrec]; simp only [osRec]; by_cases hx : x = q <;> simp [hx]
          · rw [if_pos hrec]; exact ⟨⟨f, hf⟩, .inl rfl, hne, hni⟩
        · refine ⟨false, ?_, ?_, ?_⟩
          · intro x; rw [if_neg hrec]; simp [osRec]
          · rw [if_neg hrec]; exact ⟨⟨f, hf⟩, hne, hni⟩
          · rintro (h1 | h1)
            · simp [h1] at hrec
            · exfalso
              simp only [Bool.or_eq_true, not_or, Bool.not_eq_true] at hrec
              have h2 := hrec.2
              unfold watchIsRecursive at h2
              split at h2
              · simp at h2
              · next h3 =>
                have h4 : inact (regNode P s.root q p c E) = [] := by simpa using h3
                unfold regNode at h4
                rw [if_neg h1] at h4
                unfold watchAddInactive at h4
                simp only at h4
                have h5 : ∀ w nd, inact (setInact w nd) = w := by
                  intro w nd
                  obtain ⟨n, w0, ch⟩ := nd
                  simp [inact, inact?, setInact, Node.child, Forest.get?_put, Node.watch]
                rw [h5] at h4
                have h6 := WP.get?_add P (inact (nodeAt s.root q)) (c := .user c) nofun E .nil
                rw [h4] at h6
                simp at h6
      obtain ⟨g, hg1, hg2, hg3⟩ := hcall
      refine ⟨⟨hb, ?_, ?_, ⟨hg2, h.valid⟩, h.fine⟩, .inr ⟨q, _, g, hqp, by rw [hg1, if_pos rfl], hg3⟩, hT⟩
      · intro r hr'
        have hr0 := (hT r).1 hr'
        by_cases hrq : r = q
        · subst hrq; exact ⟨g, by rw [hg1, if_pos rfl, ht]⟩
        · obtain ⟨f', hf'⟩ := h.osTop r hr0
          exact ⟨f', by rw [hg1, if_neg hrq, hto r hr0 hrq, hf']⟩
      · intro r hr'
        have hr0 : ¬ Top P s.root r := fun hc => hr' ((hT r).2 hc)
        rw [hg1, if_neg (by rintro rfl; exact hr0 hq)]
        exact h.osNone r hr0
    · simp at hres

theorem unwatchAll_os (O : Oracle) {Q : WP → Prop} {root : Node} (hok : ROK Q root) {p : Path} (hp : [] ∉ p) :
    ∀ (rs : List Path) (w : World), rs.Nodup → (∀ r ∈ rs, [] ∉ r ∧ root.get? (p ++ r) ≠ none) →
    (unwatchAll P O root p rs w).2 = true →
    (∀ x, osRec (unwatchAll P O root p rs w).1.log x = if ∃ r ∈ rs, x = p ++ r then none else osRec w.log x) ∧
    ((∀ r ∈ rs, osRec w.log (p ++ r) ≠ none) → ValidLogRec P w.log → ValidLogRec P (unwatchAll P O root p rs w).1.log) ∧
    (unwatchAll P O root p rs w).1.panicked = w.panicked
  | [], w, _, _, _ => by simp [unwatchAll]
  | r :: rs, w, hn, hr, hres => by
    obtain ⟨hr1, hr2⟩ := hr r (by simp)
    have hname : (nodeAt root (p ++ r)).name = p ++ r := nodeAt_name hok (by simp [hp, hr1]) hr2
    simp only [unwatchAll, hname, Bool.and_eq_true] at hres ⊢
    obtain ⟨hO, hrest⟩ := hres
    rw [List.nodup_cons] at hn
    have ih := unwatchAll_os O hok hp rs _ hn.2 (fun r' hr' => hr r' (by simp [hr'])) hrest
    have hstep : ∀ x, osRec (w.exec O (if watchIsRecursive P (nodeAt root (p ++ r)) then Call.recUnwatch (p ++ r)
        else Call.unwatch (p ++ r))).1.log x = if x = p ++ r then none else osRec w.log x := by
      intro x
      simp only [World.exec] at hO ⊢
      rw [hO]
      split <;> simp [osRec]
    refine ⟨?_, ?_, ?_⟩
    · intro x
      rw [ih.1, hstep]
      by_cases hx : x = p ++ r
      · subst hx
        rw [if_pos (⟨r, by simp, rfl⟩ : ∃ r' ∈ r :: rs, p ++ r = p ++ r')]; simp
      · rw [if_neg hx]
        congr 1
        rw [eq_iff_iff]
        constructor
        · rintro ⟨r', h1, h2⟩; exact ⟨r', by simp [h1], h2⟩
        · rintro ⟨r', h1, h2⟩
          rcases List.mem_cons.1 h1 with rfl | h1
          · exact absurd h2 hx
          · exact ⟨r', h1, h2⟩
    · intro hos hv
      refine ih.2.1 ?_ ?_
      · intro r' hr'
        rw [hstep, if_neg]
        · exact hos r' (by simp [hr'])
        · intro hc
          have := List.append_cancel_left hc
          subst this
          exact hn.1 hr'
      · simp only [World.exec]
        refine ⟨?_, hv⟩
        have := hos r (by simp)
        split <;> exact this
    · rw [ih.2.2]; rfl

theorem Sync.over (hP : P.Facts) (O : Oracle) {s : St} (h : Sync P s) {p : Path} (hp : [] ∉ p)
    (hnone : ∀ t, t <+: p → tot P s.root t = 0) (hg : s.root.get? p ≠ none) (isrec : Bool) (c : Nat) {E : Event}
    (hE : Storable P E) (hsolid : ∀ x, p <+: x → Top P s.root x → watchAt s.root x ≠ [])
    (hres : (watchTop P O s p isrec c E).2 = true) :
    Sync P (watchTop P O s p isrec c E).1 ∧ Backed s (watchTop P O s p isrec c E).1 p isrec ∧
    (∀ r, Top P (watchTop P O s p isrec c E).1.root r ↔ r = p ∨ (Top P s.root r ∧ ¬ p <+: r)) ∧
    ∀ x, ¬ p <+: x → osRec (watchTop P O s p isrec c E).1.world.log x = osRec s.world.log x := by
  have hok := h.book.ok
  have hrn : ∀ r, RN P (watchAt s.root r) := fun r => ROK.watchAt hok (RN.nil P) r
  have hok1 : ROK (RN P) (addAt P s.root p c E) := addAt_ok hok hp ((hrn _).add c hE)
  have hw1 := fun r => addAt_watchAt (P := P) hg c E r
  have hg1 : (addAt P s.root p c E).get? p ≠ none := addAt_get hg
  have hu1 : ∀ r d, uset (addAt P s.root p c E) r d = if d = c ∧ r = p then uset s.root r d ||| E else uset s.root r d := by
    intro r d
    unfold uset
    rw [hw1 r]
    by_cases hr : r = p
    · subst hr; rw [if_pos rfl, WP.val, get_add_user]
      by_cases hd : d = c
      · subst hd; simp
      · simp [hd, WP.val]
    · simp [hr]
  have htp : tot P s.root p = 0 := hnone p (List.prefix_refl _)
  have hpT : ¬ Top P s.root p := fun hc => hc.2.1 htp
  have htops := h.book.tops_iff hP hp hnone hsolid
  have hnd := nodup_tops_at hok hp
  -- facts about the children found
  have hrs0 : ∀ r ∈ (nodeAt s.root p).tops, r ≠ [] ∧ [] ∉ r ∧ watchAt (addAt P s.root p c E) (p ++ r) ≠ [] := by
    intro r hr
    have hT := (htops r).1 hr
    have hr0 : r ≠ [] := by
      rintro rfl
      rw [List.append_nil] at hT; exact hpT hT
    refine ⟨hr0, ((mem_tops_at hok hp r).1 hr).1, ?_⟩
    rw [hw1, if_neg (by simpa using hr0)]
    exact ((mem_tops_at hok hp r).1 hr).2.1
  have hcp := copyAll_spec (s := { s with root := addAt P s.root p c E }) hp (nodeAt s.root p).tops hok1 hg1 hrs0
  generalize hs2 : copyAll P p (nodeAt s.root p).tops { s with root := addAt P s.root p c E } = s2 at hcp
  obtain ⟨hok2, hg2, hw2, hworld, hin⟩ := hcp
  simp only at hw2 hworld hin
  have hu2 : ∀ r d, r ≠ p ++ [[]] → uset s2.root r d = if d = c ∧ r = p then uset s.root r d ||| E else uset s.root r d := by
    intro r d hr
    rw [← hu1]; unfold uset; rw [hw2 r hr]
  have hin2 : ∀ d i, BitVec.getLsbD (uset s2.root (p ++ [[]]) d) i = true ↔ Below s.root p d i := by
    intro d i
    rw [hin, h.book.below_iff hnone]
    have e0 : uset (addAt P s.root p c E) (p ++ [[]]) d = 0 := by
      rw [hu1, if_neg (fun hc => append_ne_inactive hp hc.2)]
      exact ((tot_eq_zero hok p).1 htp d).2
    rw [e0]
    constructor
    · rintro (hb | ⟨r, hr, hb⟩)
      · simp at hb
      · have hr0 := (hrs0 r hr).1
        have hr1 := (hrs0 r hr).2.1
        rw [hu1, if_neg (by rintro ⟨-, hc⟩; simp at hc; exact hr0 hc), hu1, if_neg (fun hc => append_ne_inactive hp hc.2)] at hb
        exact ⟨r, (htops r).1 hr, hb⟩
    · rintro ⟨r, hT, hb⟩
      have hr := (htops r).2 hT
      have hr0 := (hrs0 r hr).1
      refine .inr ⟨r, hr, ?_⟩
      rw [hu1, if_neg (by rintro ⟨-, hc⟩; simp at hc; exact hr0 hc), hu1, if_neg (fun hc => append_ne_inactive hp hc.2)]
      exact hb
  obtain ⟨hb, hT, hto⟩ := h.book.over hok2 hp hnone hE hu2 hin2
  have htp2 : tot P s2.root p ≠ 0 := ((hT p).2 (.inl rfl)).2.1
  have hname2 : ∀ x, [] ∉ x → watchAt s2.root x ≠ [] → (nodeAt s2.root x).name = x :=
    fun x hx hw => nodeAt_name hok2 hx (find_ne_of_watchAt hw)
  have hnamep : (nodeAt s2.root p).name = p := nodeAt_name hok2 hp hg2
  have hposn : osRec s.world.log p = none := h.osNone p hpT
  have hlog : s2.world = s.world := hworld
  -- how the mirror follows from the calls
  have hfin : ∀ (w : World) (f : Bool), (∀ x, osRec w.log x = if x = p then some (tot P s2.root p, f)
      else if ∃ r ∈ (nodeAt s.root p).tops, x = p ++ r then none else osRec s.world.log x) → ValidLogRec P w.log →
      w.panicked = false → (isrec = true → f = true) →
      Sync P { root := s2.root, world := w } ∧ Backed s { root := s2.root, world := w } p isrec ∧
        (∀ r, Top P s2.root r ↔ r = p ∨ (Top P s.root r ∧ ¬ p <+: r)) ∧
        ∀ x, ¬ p <+: x → osRec w.log x = osRec s.world.log x := by
    intro w f hos hv hf hrec
    refine ⟨⟨hb, ?_, ?_, hv, hf⟩, .inr ⟨p, _, f, List.prefix_refl _, by rw [hos, if_pos rfl], ?_⟩, hT, ?_⟩
    · intro x hx
      by_cases hxp : x = p
      · subst hxp; exact ⟨f, by rw [hos, if_pos rfl]⟩
      · rcases (hT x).1 hx with hx' | ⟨hx0, hnp⟩
        · exact absurd hx' hxp
        · obtain ⟨f', hf'⟩ := h.osTop x hx0
          refine ⟨f', ?_⟩
          simp only
          rw [hos, if_neg hxp, if_neg, hf', hto x hx0.1 hxp]
          rintro ⟨r, _, rfl⟩; exact hnp (List.prefix_append _ _)
    · intro x hx
      have hxp : x ≠ p := by rintro rfl; exact hx ((hT x).2 (.inl rfl))
      simp only
      rw [hos, if_neg hxp]
      split
      · rfl
      · next hr =>
        refine h.osNone x (fun hc => ?_)
        apply hx
        refine (hT x).2 (.inr ⟨hc, ?_⟩)
        rintro ⟨r, rfl⟩
        exact hr ⟨r, (htops r).2 hc, rfl⟩
    · rintro (h1 | h1)
      · exact hrec h1
      · exact absurd rfl h1
    · intro x hx
      rw [hos, if_neg (by rintro rfl; exact hx List.prefix_rfl), if_neg (by rintro ⟨r, _, rfl⟩; exact hx (List.prefix_append _ _))]
  unfold watchTop at hres ⊢
  split at hres
  · next ht =>
    -- alone
    rw [ht] at hs2 hfin
    simp only [ht]
    simp only [copyAll] at hs2
    simp only [selfAt_eq] at hres ⊢
    have hnm : (watchAdd P (nodeAt s.root p) (.user c) E).1.name = p := by
      rw [watchAdd_name]; exact nodeAt_name hok hp hg
    have hdiff : (watchAdd P (nodeAt s.root p) (.user c) E).2 = (0, E &^ P.internal) := by
      rw [watchAdd_diff, watchTotal_nodeAt, htp]
      have h0 : (0 : Event) ||| (E &^ P.internal) = E &^ P.internal := BitVec.zero_or
      rw [h0]
      exact diffOf_ne (Ne.symm hE.ne)
    have htot2 : tot P s2.root p = E &^ P.internal := by
      rw [← hs2, ← watchTotal_nodeAt, watchTotal_eq]
      rw [watch_nodeAt, inact_nodeAt, hw1, hw1, if_pos rfl, if_neg (append_ne_inactive hp)]
      rw [total_add P _ (k := .user c) nofun]
      unfold tot at htp
      generalize WP.total P (watchAt s.root p) = a at *
      generalize WP.total P (watchAt s.root (p ++ [[]])) = b at *
      clear hu1 hin hu2 hin2 hdiff
      ebits
    have hdn : ¬ ((0, E &^ P.internal) = Diff.none) := by
      unfold Diff.none
      intro hc
      exact hE.ne (congrArg Prod.snd hc)
    simp only [hdiff, hnm, if_neg hdn, if_true] at hres ⊢
    generalize hcall : (if isrec = true then Call.recWatch p (E &^ P.internal) else Call.watch p (E &^ P.internal)) = call at *
    have hO : O s.world.log call = true := by
      rcases Bool.eq_false_or_eq_true (O s.world.log call) with hx | hx
      · exact hx
      · simp [World.exec, hx] at hres
    simp only [World.exec, hO, if_true]
    have := hfin { log := (call, true) :: s.world.log, panicked := s.world.panicked } isrec ?_ ?_ h.fine id
    · rw [← hs2] at this; exact this
    · intro x
      rw [← hcall, htot2]
      cases isrec <;> simp [osRec]
    · refine ⟨?_, h.valid⟩
      rw [← hcall]
      have hni : (E &^ P.internal) &&& P.internal = 0 := by clear hu1 hin hu2 hin2 hdiff htot2 hfin hdn hE hcall hres; ebits
      cases isrec
      · exact ⟨hposn, hE.ne, hni⟩
      · exact ⟨hposn, hE.ne, hni⟩
  · next r ht =>
    rw [ht] at hs2 hfin htops hrs0
    simp only [ht]
    simp only [hs2] at hres ⊢
    have hTr := (htops r).1 (by simp)
    obtain ⟨hr0, hr1, hr2⟩ := hrs0 r (by simp)
    have hpr : p ++ r ≠ p := by simpa using hr0
    have hwr : watchAt s2.root (p ++ r) ≠ [] := by rw [hw2 _ (append_ne_inactive hTr.1).symm]; exact hr2
    simp only [hname2 _ hTr.1 hwr, hnamep, watchTotal_nodeAt, hto _ hTr.1 hpr, hlog] at hres ⊢
    have hO : O s.world.log (.recRewatch (p ++ r) p (tot P s.root (p ++ r)) (tot P s2.root p)) = true := by
      rcases Bool.eq_false_or_eq_true (O s.world.log (.recRewatch (p ++ r) p (tot P s.root (p ++ r)) (tot P s2.root p))) with hx | hx
      · exact hx
      · simp [World.exec, hx] at hres
    simp only [World.exec, hO, if_true]
    refine hfin _ true ?_ ?_ h.fine (fun _ => rfl)
    · intro x
      simp [osRec]
    · refine ⟨?_, h.valid⟩
      exact ⟨h.osTop _ hTr, .inr hposn, htp2, tot_internal P s2.root p⟩
  · next h1 h2 =>
    simp only [hs2, hnamep, watchTotal_nodeAt, hlog] at hres ⊢
    have hO : O s.world.log (.recWatch p (tot P s2.root p)) = true := by
      rcases Bool.eq_false_or_eq_true (O s.world.log (.recWatch p (tot P s2.root p))) with hx | hx
      · exact hx
      · simp [World.exec, hx] at hres
    simp only [World.exec, hO, if_true] at hres ⊢
    have hTr : ∀ r ∈ (nodeAt s.root p).tops, Top P s.root (p ++ r) := fun r hr => (htops r).1 hr
    have hun := unwatchAll_os (P := P) O hok2 hp (nodeAt s.root p).tops
      { log := (.recWatch p (tot P s2.root p), true) :: s.world.log, panicked := s.world.panicked } hnd ?_ hres
    · refine hfin _ true ?_ ?_ (hun.2.2.trans h.fine) (fun _ => rfl)
      · intro x
        rw [hun.1]
        simp only [osRec]
        by_cases hx : x = p
        · subst hx
          rw [if_neg]
          · simp
          · rintro ⟨r, hr, hc⟩
            exact (hrs0 r hr).1 (by simpa using hc)
        · simp [hx]
      · refine hun.2.1 ?_ ⟨⟨hposn, htp2, tot_internal P s2.root p⟩, h.valid⟩
        intro r hr
        obtain ⟨f, hf⟩ := h.osTop _ (hTr r hr)
        have : p ++ r ≠ p := by simpa using (hrs0 r hr).1
        simp [osRec, this, hf]
    · intro r hr
      refine ⟨(hrs0 r hr).2.1, ?_⟩
      apply find_ne_of_watchAt
      rw [hw2 _ (append_ne_inactive (hTr r hr).1).symm]
      exact (hrs0 r hr).2.2

/-- Every successful Watch keeps the mirror, provided that a path which becomes a new topmost watch finds a
watchpoint on every topmost path below it. -/
theorem Sync.watch (hP : P.Facts) (O : Oracle) {s : St} (h : Sync P s) {p : Path} (hp : [] ∉ p)
    (isrec : Bool) (c : Nat) {e : Event} (he : UserEvents P e)
    (hsolid : (∃ t, t <+: p ∧ tot P s.root t ≠ 0) ∨ ∀ x, p <+: x → Top P s.root x → watchAt s.root x ≠ [])
    (hres : (watchOp P O s p isrec c e).2 = true) :
    Sync P (watchOp P O s p isrec c e).1 ∧ Backed s (watchOp P O s p isrec c e).1 p isrec ∧
    (∀ r, Top P (watchOp P O s p isrec c e).1.root r ↔
      (r = p ∧ ∀ t, t <+: p → tot P s.root t = 0) ∨
      (Top P s.root r ∧ ((∃ t, t <+: p ∧ tot P s.root t ≠ 0) ∨ ¬ p <+: r))) ∧
    ((∀ t, t <+: p → tot P s.root t = 0) → ∀ x, ¬ p <+: x →
      osRec (watchOp P O s p isrec c e).1.world.log x = osRec s.world.log x) := by
  have hadd : ∀ r, watchAt (s.root.add p) r = watchAt s.root r := watchAt_add s.root p
  have htot : ∀ r, tot P (s.root.add p) r = tot P s.root r := fun r => by simp [tot, hadd]
  have hTop : ∀ r, Top P (s.root.add p) r ↔ Top P s.root r := fun r => by simp [Top, htot]
  have hok : ROK (RN P) (s.root.add p) := Node.add_OK h.book.ok (RN.nil P) hp
  have hg := Node.add_get_ne_none s.root p
  have h0 : Sync P { s with root := s.root.add p } :=
    ⟨(h.book.congr hok (fun r d => by simp [uset, hadd])).1, fun q hq => by
      have := h.osTop q ((hTop q).1 hq)
      simpa [htot] using this, fun q hq => h.osNone q (fun hc => hq ((hTop q).2 hc)), h.valid, h.fine⟩
  unfold watchOp at hres ⊢
  simp only at hres ⊢
  change (match parentOf P s.root p with
    | some q => watchUnder P O { s with root := s.root.add p } q p isrec c (setOf P isrec e)
    | none => watchTop P O { s with root := s.root.add p } p isrec c (setOf P isrec e)).2 = true at hres
  change Sync P (match parentOf P s.root p with
    | some q => watchUnder P O { s with root := s.root.add p } q p isrec c (setOf P isrec e)
    | none => watchTop P O { s with root := s.root.add p } p isrec c (setOf P isrec e)).1 ∧
    Backed s (match parentOf P s.root p with
    | some q => watchUnder P O { s with root := s.root.add p } q p isrec c (setOf P isrec e)
    | none => watchTop P O { s with root := s.root.add p } p isrec c (setOf P isrec e)).1 p isrec ∧
    (∀ r, Top P (match parentOf P s.root p with
    | some q => watchUnder P O { s with root := s.root.add p } q p isrec c (setOf P isrec e)
    | none => watchTop P O { s with root := s.root.add p } p isrec c (setOf P isrec e)).1.root r ↔ _) ∧
    ((∀ t, t <+: p → tot P s.root t = 0) → ∀ x, ¬ p <+: x → osRec (match parentOf P s.root p with
    | some q => watchUnder P O { s with root := s.root.add p } q p isrec c (setOf P isrec e)
    | none => watchTop P O { s with root := s.root.add p } p isrec c (setOf P isrec e)).1.world.log x = osRec s.world.log x)
  split at hres
  · next q hq =>
    obtain ⟨hqp, hqt, hqn⟩ := parentOf_some hq
    have hqT : Top P s.root q := ⟨fun hc => hp (hqp.subset hc), hqt, hqn⟩
    have := h0.under O hp hqp ((hTop q).2 hqT) hg isrec c (storable hP he isrec) hres
    refine ⟨this.1, this.2.1, fun r => ?_, fun h1 => absurd (h1 q hqp) hqt⟩
    rw [this.2.2 r, hTop]
    constructor
    · exact fun h1 => .inr ⟨h1, .inl ⟨q, hqp, hqt⟩⟩
    · rintro (⟨_, h1⟩ | ⟨h1, _⟩)
      · exact absurd (h1 q hqp) hqt
      · exact h1
  · next hq =>
    have hnone := parentOf_none hq
    have hne : ¬ ∃ t, t <+: p ∧ tot P s.root t ≠ 0 := fun ⟨t, h1, h2⟩ => h2 (hnone t h1)
    have := h0.over hP O hp (fun t ht => by rw [htot]; exact hnone t ht) hg isrec c (storable hP he isrec)
      (fun x hx hT => by
        simp only [hadd]
        rcases hsolid with hc | hs
        · exact absurd hc hne
        · exact hs x hx ((hTop x).1 hT)) hres
    refine ⟨this.1, this.2.1, fun r => ?_, fun _ => this.2.2.2⟩
    rw [this.2.2.1 r, hTop]
    constructor
    · rintro (h1 | ⟨h1, h2⟩)
      · exact .inl ⟨h1, hnone⟩
      · exact .inr ⟨h1, .inr h2⟩
    · rintro (⟨h1, _⟩ | ⟨h1, h2 | h2⟩)
      · exact .inl h1
      · exact absurd h2 hne
      · exact .inr ⟨h1, h2⟩

end Rec
end Verif
