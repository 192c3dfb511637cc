/-
C117: watching again after something was missed (trees without native recursion).
-/
import Verif.PropsNonRec2
import Verif.PropsFail
import Verif.PropsOverflow
import Verif.PropsLinux5

namespace Verif
namespace NonRec
open GoMap

variable {P : Platform}

/-- `c` was passed to Watch for `q` or a directory above it, and not stopped since. -/
def PendingAt (c : Nat) (q : Path) (ops : List Op) : Prop :=
  ∃ a b p isrec e res, ops = a ++ Op.watch p isrec c e res :: b ∧ Op.stop c ∉ b ∧ p <+: q

theorem pendingAt_snoc {c : Nat} {q : Path} {ops : List Op} {op : Op} (h : PendingAt c q ops) (hop : op ≠ .stop c) :
    PendingAt c q (ops ++ [op]) := by
  obtain ⟨a, b, p, r, e, res, rfl, hb, hp⟩ := h
  exact ⟨a, b ++ [op], p, r, e, res, by simp, by simp [hb, Ne.symm hop], hp⟩

theorem pendingAt_mono {c : Nat} {r q : Path} {ops : List Op} (h : PendingAt c r ops) (hr : r <+: q) : PendingAt c q ops := by
  obtain ⟨a, b, p, r, e, res, h1, h2, h3⟩ := h
  exact ⟨a, b, p, r, e, res, h1, h2, h3.trans hr⟩

/-- A channel that is not pending at a path has no entry there. -/
theorem absent_at (hP : P.Facts) {rel : Bool} {ops : List Op} {s : St} (h : Hist P rel ops s) {c : Nat} {q : Path}
    (hc : ¬ PendingAt c q ops) : entry s.root c q = none := by
  induction h with
  | nil => have := (refines_init P c).ent q; rw [this]; rfl
  | @snoc ops s op s' h1 h2 ih =>
    have hs := Hist.shape hP h1
    by_cases hop : op = .stop c
    · subst hop
      cases h2 with
      | stop hO => rw [(stop_effect hP _ hs c).2 c q]; simp
    · have ih := ih (fun hh => hc (pendingAt_snoc hh hop))
      cases h2 with
      | @watch p isrec d e O dt hp he hd hO =>
        rw [(watchOp_effect hP O hs hp isrec d he hd).2 c q, if_neg, ih]
        rintro ⟨rfl, rfl⟩
        exact hc ⟨ops, [], q, isrec, e, _, rfl, by simp, List.prefix_rfl⟩
      | @stop d O hO => rw [(stop_effect hP _ hs d).2 c q, ih, ite_self]
      | @internal ei O dt hp hd hO => rw [(internal_effect O hs hp hd).2 c q, ih, ite_self]
      | shuffle hsh => unfold entry; rw [hsh.get q (.user c)]; exact ih

/-- Stopping the last channel at and above a path empties its watchpoint. -/
theorem stop_last_at (hP : P.Facts) (O : Oracle) {s : St} (hs : Shape P s.root) {c : Nat} {q : Path}
    (h : ∀ d r, d ≠ c → r <+: q → entry s.root d r = none) : watchAt (stop P O s c).root q = [] := by
  have key : ∀ (q : Path) (nd : Node) (n : Path), nd.OK (NR P) noR n →
      (∀ d r, d ≠ c → r <+: q → (watchAt nd r).get? (.user d) = none) →
      (Node.travW (fun pw w => if w.length ≠ 0 then
        (watchDelMin P (pw.val .recCh) w (.user c) allEvents).1 else w) [] nd q).getD [] = [] := by
    have hone : ∀ w : WP, NR P w → (∀ d, d ≠ c → w.get? (.user d) = none) →
        (if w.length ≠ 0 then (watchDelMin P (WP.val [] .recCh) w (.user c) allEvents).1 else w) = [] := by
      intro w hw hd
      split
      · obtain ⟨h1, h2, _, _, h5⟩ := watchDelMin_spec hP hw (NR.minOK (nr_nil P)) c
        apply (h1.inv.eq_nil_iff).2
        rw [h1.inv.nil_none]
        intro k hk
        cases k with
        | nil => exact absurd rfl hk
        | user d =>
          rw [h2 d]
          split
          · rfl
          · next hdc => exact hd d hdc
        | recCh =>
          rw [h5]
          refine .inr ⟨rfl, ?_⟩
          intro d v i hdc hv
          rw [hd d hdc] at hv; simp at hv
      · next hl => exact List.length_eq_zero_iff.1 (by simpa using hl)
    intro q
    induction q with
    | nil =>
      intro nd n hok hd
      simp only [Node.travW, Option.getD_some]
      exact hone _ hok.watch (fun d hdc => by simpa [watchAt_nil] using hd d [] hdc List.prefix_rfl)
    | cons b q ih =>
      intro nd n hok hd
      simp only [Node.travW]
      rw [hone _ hok.watch (fun d hdc => by simpa [watchAt_nil] using hd d [] hdc List.nil_prefix)]
      cases hc : nd.child.get? b with
      | none => simp
      | some c' =>
        simp only [Option.bind_some]
        have h' := hok.child.get hc
        have hb : b ≠ [] := h'.1
        refine ih c' _ (h'.2 hb) ?_
        intro d r hdc hr
        have := hd d (b :: r) hdc (by simpa using hr)
        simpa [watchAt, Node.find_cons, hc] using this
  have hfind : (stop P O s c).root.find q = Node.travW (fun pw w => if w.length ≠ 0 then
      (watchDelMin P (pw.val .recCh) w (.user c) allEvents).1 else w) [] s.root q :=
    Node.trav_find (fun s pw n w => stopFunc_snd P O c s pw n w) hs.ok q
  unfold watchAt
  rw [hfind]
  exact key q s.root [] hs.ok (fun d r hd hr => h d r hd hr)

/-- A Watch changes nothing that is not at or below its path. -/
theorem watchOp_other (O : Oracle) (dt : DirTree) (s : St) {p q : Path} (isrec : Bool) (c : Nat) (e : Event) (h : ¬ p <+: q) :
    watchAt (watchOp P O dt s p isrec c e).1.root q = watchAt s.root q := by
  have hset : ∀ (nd : Node) (w : WP), watchAt (nd.update p (Node.setWatch w)) q = watchAt nd q := by
    intro nd w
    unfold watchAt
    rw [Node.update_find_other _ _ _ h]
  have hadd := watchAt_add s.root p q
  unfold watchOp
  cases isrec
  · simp only [Bool.false_eq_true, if_false]
    unfold NonRec.watch
    dsimp only
    split
    · simpa [hset] using hadd
    · split
      · simpa [hset] using hadd
      · split <;> simpa [hset] using hadd
  · simp only [if_true]
    unfold NonRec.watchrec
    dsimp only
    split
    · simpa [hset] using hadd
    · split
      · simpa using hadd
      · split
        · simpa using hadd
        · have hput : ∀ nd', watchAt ((s.root.add p).update p (fun _ => nd')) q = watchAt s.root q := by
            intro nd'; rw [watchAt_put_other _ _ h]; exact hadd
          split
          · split
            · rw [hset]; exact hput _
            · exact hput _
          · simp only [if_true]; rw [hset]; exact hput _

/-- If every channel that was passed to Watch for `q` or a directory above it has been stopped since, the tree has nothing for `q`,
whatever failed before. -/
theorem clean_at (hP : P.Facts) {rel : Bool} {ops : List Op} {s : St} (h : Hist P rel ops s) :
    ∀ {q : Path}, (∀ c, ¬ PendingAt c q ops) → watchAt s.root q = [] := by
  induction h with
  | nil => intro q _; cases q <;> simp [watchAt, init, Node.find, Node.new, Node.get?, Node.watch, Forest.get?]
  | @snoc ops s op s' h1 h2 ih =>
    intro q hq
    have hs := Hist.shape hP h1
    cases h2 with
    | @watch p isrec c e O dt hp he hd hO =>
      by_cases hpq : p <+: q
      · exact absurd ⟨ops, [], p, isrec, e, _, rfl, by simp, hpq⟩ (hq c)
      · rw [watchOp_other O dt s isrec c e hpq]
        exact ih (fun d hh => hq d (pendingAt_snoc hh (by simp)))
    | @stop c O hO =>
      refine stop_last_at hP O hs ?_
      intro d r hd hr
      refine absent_at hP h1 ?_
      intro hh
      exact hq d (pendingAt_snoc (pendingAt_mono hh hr) (by simp [Ne.symm hd]))
    | @internal ei O dt hp hd hO =>
      have hold : ∀ r, r <+: q → watchAt s.root r = [] := fun r hr => ih (fun c hh => hq c (pendingAt_snoc (pendingAt_mono hh hr) (by simp)))
      unfold NonRec.internal
      split
      · split
        · exact hold q List.prefix_rfl
        · next nd hnd =>
          have hsome := Node.del_isSome s.root hp.1
          rw [hnd] at hsome
          obtain ⟨root', hroot'⟩ := Option.isSome_iff_exists.1 hsome
          rw [hroot']
          simp only [Option.getD_some]
          rw [hs.del_watchAt hroot' q, hold q List.prefix_rfl, ite_self]
      · by_cases hpq : ei.path <+: q
        · have : pickSet P ((onPath s.root ei.path).map Node.watch) = P.internal := by
            apply pickSet_none
            intro w hw
            obtain ⟨nd, hnd, rfl⟩ := List.mem_map.1 hw
            obtain ⟨r, hr1, hr⟩ := mem_onPath hnd
            have := hold r (hr1.trans hpq)
            unfold watchAt Node.find at this
            rw [hr] at this
            exact this
          rw [this, if_pos rfl]
          exact hold q List.prefix_rfl
        · dsimp only
          split
          · exact hold q List.prefix_rfl
          · split
            · exact hold q List.prefix_rfl
            · simp only [watchAt_put_other _ _ hpq, watchAt_add]
              exact hold q List.prefix_rfl
    | shuffle hsh =>
      have ih := ih (fun c hh => hq c (pendingAt_snoc hh (by simp)))
      apply (eq_nil_iff_get? _).2
      intro k
      rw [hsh.get q k, ih]; rfl

/-- What the new part of the log says: the OS was asked to begin to watch `q` for `E`. -/
def Begun (l₀ : Log) (E : Event) (l : Log) (q : Path) : Prop :=
  ∃ calls : Log, l = calls ++ l₀ ∧ ∃ ok, (Call.watch q E, ok) ∈ calls

theorem begun_cons {l₀ l : Log} {E : Event} {q : Path} {c : Call} {ok : Bool} (hl : ∃ calls, l = calls ++ l₀) :
    Begun l₀ E ((c, ok) :: l) q ↔ c = .watch q E ∨ Begun l₀ E l q := by
  obtain ⟨calls, rfl⟩ := hl
  constructor
  · rintro ⟨x, hx, o, ho⟩
    rw [← List.cons_append] at hx
    have := List.append_cancel_right hx
    subst this
    rcases List.mem_cons.1 ho with h | h
    · exact .inl (congrArg Prod.fst h).symm
    · exact .inr ⟨calls, rfl, o, h⟩
  · rintro (rfl | ⟨x, hx, o, ho⟩)
    · exact ⟨_ :: calls, rfl, ok, by simp⟩
    · have := List.append_cancel_right hx
      subst this
      exact ⟨_ :: calls, rfl, o, by simp [ho]⟩

/-- A scan of directories that the tree has nothing for asks for each of them anew, whatever the OS answers. -/
theorem addDir_begun {O : Oracle} {e : Event} (he : P.recursive ⊑ e) (h0 : (e ||| P.create) &^ P.internal ≠ 0) {dt : DirTree} (hd : dt.Named)
    {nd : Node} {n : Path} (hn : [] ∉ n) (hok : nd.OK (NR P) noR n) (s : World) (hnil : ∀ r, watchAt nd r = [])
    (hres : (dt.addDir (recFunc P O e) s nd).2.2 = true) :
    (∃ calls, (dt.addDir (recFunc P O e) s nd).1.log = calls ++ s.log) ∧
    ∀ r ∈ dt.dirs, Begun s.log ((e ||| P.create) &^ P.internal) (dt.addDir (recFunc P O e) s nd).1.log (n ++ r) := by
  have hQ : ∀ (s : World) n w, NR P w → NR P (recFunc P O e s n w).2 := fun s n w hw => recFunc_nr he hw
  have hne : ∀ (s : World) n w, (recFunc P O e s n w).2 ≠ [] := by
    intro s n w h1
    have := recFunc_rec P O e s n w
    rw [h1] at this
    cases this
  have key := DirTree.addDir_os (os := fun (x : World) p => Begun s.log ((e ||| P.create) &^ P.internal) x.log p)
    (tot := fun w => w ≠ []) (V := fun x => ∃ calls, x.log = calls ++ s.log) (nr_nil P) hQ (fn := recFunc P O e) (by
      intro x n w hw hV hos
      have hcall : ∀ d q, q ≠ n → diffCall n d ≠ .watch q ((e ||| P.create) &^ P.internal) := by
        intro d q hq h
        unfold diffCall at h
        split at h
        · injection h with h3 h4; exact hq h3.symm
        · cases h
      have h1 : (w.add P .recCh (e ||| P.omitted ||| P.create)).2 =
          diffOf (w.total P) ((w.add P .recCh (e ||| P.omitted ||| P.create)).1.total P) := add_diffOf P w (k := .recCh) nofun _
      have h2 := total_add P w (k := .recCh) nofun (e ||| P.omitted ||| P.create)
      by_cases hwn : w = []
      · have h3 : w.total P = 0 := by rw [hwn]; simp [WP.total, WP.val, GoMap.get?]
        have h4 : (w.add P .recCh (e ||| P.omitted ||| P.create)).2 = (0, (e ||| P.create) &^ P.internal) := by
          rw [h1, h2, h3, diffOf_ne]
          · congr 1
            ebits
          · intro h5
            apply h0
            ebits
        have h5 : (recFunc P O e x n w).1 = (x.exec O (.watch n ((e ||| P.create) &^ P.internal))).1 := by
          unfold recFunc
          simp only [h4, Diff.none, Prod.mk.injEq, true_and, h0, if_false]
          simp [diffCall]
        rw [h5]
        obtain ⟨calls, hV'⟩ := hV
        refine ⟨⟨_ :: calls, by simp only [World.exec, hV']; rfl⟩, ?_, ?_⟩
        · simp only [World.exec]
          exact propext ⟨fun _ => hne _ _ _, fun _ => (begun_cons ⟨calls, hV'⟩).2 (.inl rfl)⟩
        · intro q hq
          simp only [World.exec]
          exact propext ((begun_cons ⟨calls, hV'⟩).trans ⟨fun h => h.resolve_left (by rintro h; cases h; exact hq rfl), .inr⟩)
      · have hb : Begun s.log ((e ||| P.create) &^ P.internal) x.log n := by
          exact hos.mpr hwn
        have hcase : (recFunc P O e x n w).1.log = x.log ∨ ∃ d ok, (recFunc P O e x n w).1.log = (diffCall n d, ok) :: x.log := by
          unfold recFunc
          dsimp only
          split
          · exact .inl rfl
          · split
            · exact .inl rfl
            · exact .inr ⟨_, _, rfl⟩
        rcases hcase with hc | ⟨d, ok, hc⟩
        · simp only [hc]
          exact ⟨hV, propext ⟨fun _ => hne _ _ _, fun _ => hb⟩, fun _ _ => trivial⟩
        · simp only [hc]
          obtain ⟨calls, hV'⟩ := hV
          refine ⟨⟨_ :: calls, by rw [hV']; rfl⟩, propext ⟨fun _ => hne _ _ _, fun _ => (begun_cons ⟨calls, hV'⟩).2 (.inr hb)⟩, ?_⟩
          intro q hq
          exact propext ((begun_cons ⟨calls, hV'⟩).trans ⟨fun h => h.resolve_left (hcall d q hq), .inr⟩))
    hn dt hd (s := s) hok ⟨[], rfl⟩ (by
      intro r
      have h1 : (nd.find r).getD [] = [] := hnil r
      rw [h1]
      simp only [ne_eq, not_true_eq_false, eq_iff_iff, iff_false]
      rintro ⟨calls, hc, ok, hm⟩
      have : calls = [] := by
        have := congrArg List.length hc
        simp at this
        exact this
      subst this
      cases hm)
  refine ⟨key.1, fun r hr => ?_⟩
  obtain ⟨w, hw, hC⟩ := DirTree.addDir_covers (nr_nil P) hQ (C := fun w => w ≠ []) (fun s n w => hne s n w) hn dt hd hok hres r hr
  have := key.2.1 r
  rw [hw] at this
  exact this.mpr hC

/-- `c` was passed to Watch for `q` and not stopped since. -/
def NotStopped (c : Nat) (q : Path) (ops : List Op) : Prop :=
  ∃ a b isrec e res, ops = a ++ Op.watch q isrec c e res :: b ∧ Op.stop c ∉ b

theorem PendingAt.notStopped {c : Nat} {q : Path} {ops : List Op} (h : PendingAt c q ops) : ∃ p, p <+: q ∧ NotStopped c p ops := by
  obtain ⟨a, b, p, r, e, res, h1, h2, h3⟩ := h
  exact ⟨p, h3, a, b, r, e, res, h1, h2⟩

/-- **C117, in part: what the OS watches.**  After any history, if every channel that was passed to Watch for `p` or a directory above it
has been stopped since, and then a recursive Watch of `p` returns nil, every directory that it found is watched for what was asked for,
and for Create, whatever the tree had missed or forgotten before. -/
theorem C117_covers_partial (hP : P.Facts) {ops : List Op} {s : St} (h : Hist P true ops s) {p : Path} (hp : GoodPath p) {c : Nat}
    {e : Event} (he : UserEvents P e) {dt : DirTree} (hd : dt.Named) (hstop : ∀ d q, NotStopped d q ops → ¬ q <+: p)
    (hres : (watchOp P .ok dt s p true c e).2 = true) :
    ∀ r ∈ dt.dirs, e ||| P.create ⊑ osOf (watchOp P .ok dt s p true c e).1.world.log (p ++ r) := by
  refine (C15_covers_partial hP h hp he hd hres).1 ?_
  unfold recAt
  rw [clean_at hP h (q := p) (fun d hh => by obtain ⟨q, h1, h2⟩ := hh.notStopped; exact hstop d q h2 h1)]
  rfl

/-- **C117, in part: what the OS is asked for.**  As `C117_covers_partial`, but whatever calls failed in the past and whatever the OS
answers now, if the channels that were passed to Watch for a path below `p` have been stopped as well: the Watch asks the OS to begin
to watch every directory that it found, and takes none of them for one that is watched already. -/
theorem C117_asked_partial (hP : P.Facts) {rel : Bool} {ops : List Op} {s : St} (h : Hist P rel ops s) {p : Path} (hp : GoodPath p) {c : Nat}
    {e : Event} (he : UserEvents P e) {dt : DirTree} (hd : dt.Named) (O : Oracle)
    (hstop : ∀ d q, NotStopped d q ops → ¬ q <+: p ∧ ¬ p <+: q) (hres : (watchOp P O dt s p true c e).2 = true) :
    ∃ calls : Log, (watchOp P O dt s p true c e).1.world.log = calls ++ s.world.log ∧
      ∀ r ∈ dt.dirs, ∃ ok, (Call.watch (p ++ r) (e ||| P.create), ok) ∈ calls := by
  have hs := (Hist.shape hP h).add hp
  have hclean : ∀ r, watchAt (s.root.add p) (p ++ r) = [] := by
    intro r
    rw [watchAt_add]
    refine clean_at hP h fun d hh => ?_
    obtain ⟨q, h1, h2⟩ := hh.notStopped
    rcases List.prefix_or_prefix_of_prefix h1 (List.prefix_append p r) with h3 | h3
    · exact (hstop d q h2).1 h3
    · exact (hstop d q h2).2 h3
  have hset : (e ||| P.recursive ||| P.create) &^ P.internal = e ||| P.create := by
    have h1 := he.2
    have h2 := hP.create_rec
    have h3 := hP.create_omit
    clear hstop hres hclean
    ebits
  have h0 : e ||| P.create ≠ 0 := fun h0 => he.1 (or_sub_left _ _ h0)
  unfold watchOp at hres ⊢
  simp only [if_true] at hres ⊢
  unfold NonRec.watchrec at hres ⊢
  obtain ⟨nd, hnd⟩ := Option.ne_none_iff_exists'.1 (Node.add_get_ne_none s.root p)
  have hdry : WP.dryAdd P (watchAt (s.root.add p) p) .recCh (e ||| P.recursive ||| P.create) = (0, e ||| P.create) := by
    have := hclean []
    rw [List.append_nil] at this
    rw [this]
    have hv : WP.val [] Key.recCh = 0 := rfl
    simp only [WP.dryAdd, hset, hv]
    rw [if_neg (by simpa using Ne.symm h0)]
    simp
  simp only [hdry, Diff.none, Prod.mk.injEq, true_and, h0, if_false, hnd, if_true] at hres ⊢
  have hndok : nd.OK (NR P) noR p := by simpa using hs.ok.get hp.2 hnd
  have hnil : ∀ r, watchAt nd r = [] := by
    intro r
    rw [← watchAt_get hnd]
    exact hclean r
  by_cases hr : (dt.addDir (recFunc P O (e ||| P.recursive)) s.world nd).2.2 = true
  · have key := addDir_begun (O := O) (e := e ||| P.recursive) (Event.sub_or_right _ _) (by rw [hset]; exact h0) hd hp.2 hndok s.world hnil hr
    rw [hset] at key
    rw [if_pos hr]
    obtain ⟨⟨calls, hc⟩, h2⟩ := key
    refine ⟨calls, hc, fun r hr' => ?_⟩
    obtain ⟨calls', hc', h3⟩ := h2 r hr'
    rw [hc] at hc'
    rw [List.append_cancel_right hc']
    exact h3
  · rw [if_neg hr] at hres
    cases hres

namespace AgainEx
open Ex (a b W CW I list)

/-- There is nothing in `/a` yet. -/
abbrev empty : DirTree := .dir .nil
theorem empty_named : empty.Named := by simp [DirTree.Named, Entries.Named]
theorem empty_noErr : empty.NoErr := by simp [DirTree.NoErr, Entries.NoErr]
theorem list_noErr : list.NoErr := by simp [list, DirTree.NoErr, Entries.NoErr]

def op1 : Op := .watch [a] true 1 W true
/-- Channel 1 asks for `/a/...`; then `/a/b` appears, and nothing is heard of it. -/
def s1 : St := (watchOp I .ok empty init [a] true 1 W).1
theorem step1 : Step I true init op1 s1 := Step.watch (O := .ok) (dt := empty) Ex.good_a Ex.uW empty_named (fun _ _ => rfl)
/-- Channel 1 is stopped. -/
def s2 : St := stop I .ok s1 1
theorem step2 : Step I true s1 (.stop 1) s2 := Step.stop (fun _ => rfl)
/-- The same, with channel 2 watching `/a`, not recursively, all the time. -/
def u0 : St := (watchOp I .ok empty init [a] false 2 W).1
def u1 : St := (watchOp I .ok empty u0 [a] true 1 W).1
def u2 : St := stop I .ok u1 1
theorem ustep0 : Step I true init (.watch [a] false 2 W true) u0 := Step.watch (O := .ok) (dt := empty) Ex.good_a Ex.uW empty_named (fun _ _ => rfl)
theorem ustep1 : Step I true u0 op1 u1 := Step.watch (O := .ok) (dt := empty) Ex.good_a Ex.uW empty_named (fun _ _ => rfl)
theorem ustep2 : Step I true u1 (.stop 1) u2 := Step.stop (fun _ => rfl)

theorem stopped : ∀ d q, ¬ NotStopped d q [op1, .stop 1] := by
  rintro d q ⟨x, y, i, e, res, h, hn⟩
  rcases x with _ | ⟨x1, _ | ⟨x2, _ | ⟨x3, x⟩⟩⟩ <;> simp [op1] at h
  obtain ⟨⟨_, _, rfl, _⟩, rfl⟩ := h
  simp at hn

/-- The premises can be met: stop, watch again, and `/a/b` is watched. -/
example : CW ⊑ osOf (watchOp I .ok list s2 [a] true 1 W).1.world.log [a, b] :=
  have h : Hist I true [op1, .stop 1] s2 := (Steps.nil.snoc step1).snoc step2
  (show CW ⊑ W ||| I.create by decide).trans
    (C117_covers_partial Ex.hI h Ex.good_a Ex.uW Ex.list_named (fun d q hh => absurd hh (stopped d q)) (by decide) [b] (by decide))

example : ∃ calls, (watchOp I (fun _ _ => false) list s2 [a] true 1 W).1.world.log = calls ++ s2.world.log ∧
    ∀ r ∈ list.dirs, ∃ ok, (Call.watch ([a] ++ r) (W ||| I.create), ok) ∈ calls :=
  C117_asked_partial Ex.hI ((Steps.nil.snoc step1).snoc step2 : Hist I true [op1, .stop 1] s2) Ex.good_a Ex.uW Ex.list_named
    (fun _ _ => false) (fun d q hh => absurd hh (stopped d q)) (by decide)

end AgainEx

/-- The full property for one Watch: it returned nil, so every directory that is there is watched for what was asked for. -/
def C117_full (dt : DirTree) (s : St) (p : Path) (c : Nat) (e : Event) : Prop :=
  (watchOp Platform.inotify .ok dt s p true c e).2 = true →
    ∀ r ∈ dt.dirs, e ⊑ osOf (watchOp Platform.inotify .ok dt s p true c e).1.world.log (p ++ r)

/-- **C117 is false of the code**: the same Watch again, though no call and no listing ever failed, finds nothing to do and reads no
directory. -/
theorem C117_again_refuted : ∃ (s : St) (dt : DirTree) (p : Path) (e : Event), Hist Platform.inotify true [.watch p true 1 e true] s ∧
    dt.Named ∧ dt.NoErr ∧ (∀ x ∈ s.world.log, x.2 = true) ∧ ¬ C117_full dt s p 1 e ∧ ¬ C117_full dt s p 2 e :=
  ⟨AgainEx.s1, Ex.list, [Ex.a], Ex.W, Steps.nil.snoc AgainEx.step1, Ex.list_named, AgainEx.list_noErr, by decide,
    fun h => absurd (h (by decide) [Ex.b] (by decide)) (by decide), fun h => absurd (h (by decide) [Ex.b] (by decide)) (by decide)⟩

/-- **C117 is false of the code**: a Watch that asks for more visits only the directories that the tree knows. -/
theorem C117_more_refuted : ∃ (s : St) (dt : DirTree) (p : Path) (e e' : Event), Hist Platform.inotify true [.watch p true 1 e true] s ∧
    dt.Named ∧ dt.NoErr ∧ (∀ x ∈ s.world.log, x.2 = true) ∧ ¬ e' ⊑ e ∧ UserEvents Platform.inotify e' ∧ ¬ C117_full dt s p 1 e' :=
  ⟨AgainEx.s1, Ex.list, [Ex.a], Ex.W, Ex.W ||| Platform.inotify.rename, Steps.nil.snoc AgainEx.step1, Ex.list_named, AgainEx.list_noErr, by decide,
    by decide, ⟨by decide, by decide⟩, fun h => absurd (h (by decide) [Ex.b] (by decide)) (by decide)⟩

/-- **C117 is false of the code**: Stop and the same Watch again, while another channel watches the directory, not recursively. -/
theorem C117_other_refuted : ∃ (s : St) (dt : DirTree) (p : Path) (e : Event),
    Hist Platform.inotify true [.watch p false 2 e true, .watch p true 1 e true, .stop 1] s ∧
    dt.Named ∧ dt.NoErr ∧ (∀ x ∈ s.world.log, x.2 = true) ∧ ¬ C117_full dt s p 1 e :=
  ⟨AgainEx.u2, Ex.list, [Ex.a], Ex.W, ((Steps.nil.snoc AgainEx.ustep0).snoc AgainEx.ustep1).snoc AgainEx.ustep2, Ex.list_named, AgainEx.list_noErr,
    by decide, fun h => absurd (h (by decide) [Ex.b] (by decide)) (by decide)⟩

end NonRec

namespace Linux
open Inotify (PSt Raw inQOverflow FromKernel)
open NonRec (Op)

namespace AgainEx
open Ex2 (d ds cfg W A goodD uW req1 op1)
open Ex4 (fs0 fs1 k1 k2 keep t1 none1 named dA)
open OverEx (over)

def req2 : Sched.Req := .watch d true 2 W
def op2 : Op := .watch d true 2 W true
def t3 : St := (NonRec.watchOp I .ok none1 t1 d true 2 W).1
theorem step3 : NonRec.Step I true t1 op2 t3 := NonRec.Step.watch (O := .ok) (dt := none1) goodD uW named (fun _ _ => rfl)

theorem fsStep : Inotify.FsStep k1 k2 := .mk _ fs1 keep (by
  intro n
  constructor
  · intro hn
    simp only [keep, Bool.or_eq_true, beq_iff_eq] at hn
    rcases hn with rfl | rfl
    · exact ⟨d, rfl⟩
    · exact ⟨ds, rfl⟩
  · rintro ⟨q, hq⟩
    unfold fs1 Ex2.fs at hq
    split at hq
    · cases hq; rfl
    · split at hq
      · cases hq; rfl
      · cases hq)

/-- `/d/s` exists, the kernel could not say so, and everything has been handled. -/
def sA : LSt where
  sys := { Sched.State.init Y with tree := t1, next := 1 }
  pipe := { PSt.init fs1 2 with k := k2 }
  log := [(.watch d A, true)]

theorem runA : LRun cfg true (fun _ => True) (LSt.init fs0 2) [op1] [over] [] sA := by
  have h := Ex4.run0.trans Ex4.runA.run
  have h := h.step (.effect 0 req1 [] [] t1 rfl rfl rfl rfl) trivial
  have h := h.step (.go _ _ (.unlock 0 req1 [] [] rfl) trivial) trivial
  have h := h.step (.go _ _ (.ret 0 req1 [] [] rfl) trivial) trivial
  have h := h.step (.pipe [] _ (.fs k2 fsStep) rfl rfl (fun _ => Ex4.keeps)) trivial
  have h := h.step (.pipe [over] _ (.change over ⟨14, false, by simp, by decide⟩) rfl rfl (fun _ => Ex4.same Ex2.noLinks rfl)) trivial
  have h := h.step (.pipe [] _ (.read 1 rfl) rfl rfl (fun _ => Ex4.same Ex2.noLinks rfl)) trivial
  have h := h.step (.pipe [] _ (.hand 0 [over] rfl rfl) rfl rfl (fun _ => Ex4.same Ex2.noLinks rfl)) trivial
  have h := h.step (.pipe [] _ (.transform 0 [over] rfl) rfl rfl (fun _ => Ex4.same Ex2.noLinks rfl)) trivial
  have h := h.step (.pipe [] _ (.next 0 rfl) rfl rfl (fun _ => Ex4.same Ex2.noLinks rfl)) trivial
  exact h

def sB : LSt where
  sys := { Sched.State.init Y with tree := t3, next := 2 }
  pipe := { PSt.init fs1 2 with k := k2 }
  log := [(.watch d A, true)]

theorem runB : LRun cfg true (fun _ => True) sA [op2] [] [] sB := by
  have h := LRun.refl (cfg := cfg) (stable := true) (I := fun _ => True) (s := sA) trivial
  have h := h.step (.go _ _ (.call (Y := Y) req2 (show NonRec.GoodPath d ∧ NonRec.UserEvents I W from ⟨goodD, uW⟩) trivial) trivial) trivial
  have h := h.step (.go _ _ (.lock 1 req2 [] [] rfl (by rintro ⟨_, _, _, _, h⟩; cases h)
    (by rintro ⟨_, _, h | h⟩ <;> cases h <;> contradiction) (by rintro ⟨_, h | h⟩ <;> cases h)) trivial) trivial
  have h := h.step (.plan req2 [op2] t3 [] (.inl ⟨1, .head _⟩) rfl ⟨NonRec.Steps.nil.snoc step3, op2, ⟨_, rfl⟩, .inl rfl⟩ rfl) trivial
  have h := h.step (.effect 1 req2 [] [] t3 rfl rfl rfl rfl) trivial
  have h := h.step (.go _ _ (.unlock 1 req2 [] [] rfl) trivial) trivial
  have h := h.step (.go _ _ (.ret 1 req2 [] [] rfl) trivial) trivial
  exact h

end AgainEx

/-- **C117 is false of the whole program on Linux**: channel 1 watches everything below a directory; a directory is made there, and the
kernel says only that its queue overflowed; when everything has been handled, channel 2 asks for the same.  The Watch returns nil, and
when all is quiet the kernel watches nothing in the new directory.  All files keep their paths and no call failed. -/
theorem C117_linux_refuted : ∃ (cfg : Sched.Cfg) (f : Path → Option Nat) (n : Nat) (p q : Path) (e : Event) (raws : List Raw) (s₁ s₂ : LSt),
    Inotify.NoLinks f ∧ LRun cfg true (fun _ => True) (LSt.init f n) [.watch p true 1 e true] raws [] s₁ ∧ s₁.Quiet ∧ s₁.plan = none ∧
    (∀ r ∈ raws, inQOverflow ⊑ r.mask) ∧ p <+: q ∧ (∃ i, s₁.pipe.k.inode q = some i) ∧
    LRun cfg true (fun _ => True) s₁ [.watch p true 2 e true] [] [] s₂ ∧ s₂.Quiet ∧ s₂.plan = none ∧ s₂.sys.calls = [] ∧
    (∀ x ∈ s₂.log, x.2 = true) ∧ (∃ i, s₂.pipe.k.inode q = some i ∧ ∀ wd kw, s₂.pipe.k.watches.get? wd = some kw → kw.inode ≠ i) := by
  refine ⟨_, _, _, Ex2.d, Ex2.ds, _, _, _, _, Ex4.noLinks0, AgainEx.runA, ⟨⟨rfl, rfl, by decide⟩, rfl, rfl⟩, rfl, by simp; decide,
    ⟨[['s']], rfl⟩, ⟨2, rfl⟩, AgainEx.runB, ⟨⟨rfl, rfl, by decide⟩, rfl, rfl⟩, rfl, rfl, by decide, 2, rfl, ?_⟩
  intro wd kw h
  have h1 : ∀ x ∈ Ex4.k2.watches, x.2.inode ≠ 2 := by decide
  exact h1 _ (GoMap.mem_of_get? h)

end Linux
end Verif
