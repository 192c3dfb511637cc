/-
C114 on macOS: nothing is signalled that was not asked for, and nothing that the OS did not report.
-/
import Verif.PropsSound
import Verif.PropsMac
import Verif.PropsFsevents2

namespace Verif

/-- The event set of the call has none of the bits that the tree keeps for itself. -/
def Call.Neat (P : Platform) : Call → Prop
  | .watch _ e | .recWatch _ e | .rewatch _ _ e | .recRewatch _ _ _ e => e &&& P.internal = 0
  | .unwatch _ | .recUnwatch _ => True

namespace Rec
open NonRec

variable {P : Platform}

/-- So have all calls. -/
def Neat (P : Platform) (l : Log) : Prop := ∀ x ∈ l, x.1.Neat P

theorem Neat.exec {w : World} {O : Oracle} {c : Call} (h : Neat P w.log) (hc : c.Neat P) : Neat P (w.exec O c).1.log := by
  intro x hx
  rcases List.mem_cons.1 hx with rfl | hx
  · exact hc
  · exact h x hx

/-- Both sets of the difference. -/
def NeatDiff (P : Platform) (d : Diff) : Prop := d.1 &&& P.internal = 0 ∧ d.2 &&& P.internal = 0

theorem mkDiff_neat (a b : Event) : NeatDiff P (WP.mkDiff P a b) := by
  unfold WP.mkDiff
  simp only
  split
  · exact ⟨by simp [Diff.none], by simp [Diff.none]⟩
  · constructor <;> (simp only; ebits)

theorem add_neat (w : WP) (k : Key) (e : Event) : NeatDiff P (w.add P k e).2 := mkDiff_neat _ _

theorem del_neat (w : WP) (k : Key) (e : Event) : NeatDiff P (w.del P k e).2 := by
  unfold WP.del
  simp only
  split <;> split <;> exact mkDiff_neat _ _

theorem orDiff_neat {d : Diff} (h : NeatDiff P d) {a b : Event} (ha : a &&& P.internal = 0) (hb : b &&& P.internal = 0) : NeatDiff P (orDiff d a b) := by
  obtain ⟨h1, h2⟩ := h
  unfold orDiff
  split
  · exact ⟨by simp [Diff.none], by simp [Diff.none]⟩
  · generalize d.1 = x at *
    generalize d.2 = y at *
    constructor <;> (simp only; ebits)

theorem watchAdd_neat (nd : Node) (k : Key) (e : Event) : NeatDiff P (watchAdd P nd k e).2 := by
  unfold watchAdd
  simp only
  split
  · exact orDiff_neat (add_neat _ _ _) (total_internal P _) (total_internal P _)
  · exact add_neat _ _ _

theorem watchAddInactive_neat (nd : Node) (k : Key) (e : Event) : NeatDiff P (watchAddInactive P nd k e).2 :=
  orDiff_neat (add_neat _ _ _) (total_internal P _) (total_internal P _)

theorem watchDel_neat (nd : Node) (k : Key) (e : Event) : NeatDiff P (watchDel P nd k e).2 := by
  unfold watchDel
  simp only
  split
  · have h := del_neat (P := P) (inact nd) k e
    have ht := total_internal P ((inact nd).del P k e).1
    obtain ⟨h1, h2⟩ := h
    generalize WP.total P _ = t at *
    generalize WP.del P (inact nd) k e = r at *
    refine orDiff_neat (del_neat _ _ _) ?_ ?_
    · generalize r.2.1 = x at *; ebits
    · generalize r.2.2 = x at *; ebits
  · exact del_neat _ _ _

theorem watchTotal_neat (nd : Node) : watchTotal P nd &&& P.internal = 0 := by
  have h1 := total_internal P nd.watch
  have h2 := total_internal P (inact nd)
  unfold watchTotal
  split
  · generalize WP.total P nd.watch = x at *
    generalize WP.total P (inact nd) = y at *
    ebits
  · exact h1

theorem watchUnder_neat (O : Oracle) {s : St} (h : Neat P s.world.log) (q p : Path) (isrec : Bool) (c : Nat) (e : Event) :
    Neat P (watchUnder P O s q p isrec c e).1.world.log := by
  unfold watchUnder
  simp only
  have hd : NeatDiff P (if q = p then watchAdd P (nodeAt s.root q) (.user c) e else watchAddInactive P (nodeAt s.root q) (.user c) e).2 := by
    split
    · exact watchAdd_neat _ _ _
    · exact watchAddInactive_neat _ _ _
  generalize (if q = p then watchAdd P (nodeAt s.root q) (.user c) e else watchAddInactive P (nodeAt s.root q) (.user c) e) = r at *
  have hc : Call.Neat P (if (isrec || watchIsRecursive P r.1) = true then Call.recRewatch r.1.name r.1.name r.2.1 r.2.2
      else Call.rewatch r.1.name r.2.1 r.2.2) := by
    split <;> exact hd.2
  generalize (if (isrec || watchIsRecursive P r.1) = true then Call.recRewatch r.1.name r.1.name r.2.1 r.2.2
      else Call.rewatch r.1.name r.2.1 r.2.2) = call at *
  split
  · exact h
  · split
    · exact h
    · split <;> exact h.exec hc

theorem unwatchAll_neat (O : Oracle) (root : Node) (p : Path) : ∀ (rs : List Path) {w : World}, Neat P w.log → Neat P (unwatchAll P O root p rs w).1.log
  | [], w, h => h
  | r :: rs, w, h => by
    unfold unwatchAll
    simp only
    refine unwatchAll_neat O root p rs (h.exec ?_)
    split <;> trivial

theorem watchTop_neat (O : Oracle) {s : St} (h : Neat P s.world.log) (p : Path) (isrec : Bool) (c : Nat) (e : Event) :
    Neat P (watchTop P O s p isrec c e).1.world.log := by
  unfold watchTop
  split
  · simp only
    have hd := watchAdd_neat (P := P) (nodeAt s.root p) (.user c) e
    generalize watchAdd P (nodeAt s.root p) (.user c) e = r at *
    have hc : Call.Neat P (if isrec = true then Call.recWatch r.1.name r.2.2 else Call.watch r.1.name r.2.2) := by
      split <;> exact hd.2
    generalize (if isrec = true then Call.recWatch r.1.name r.2.2 else Call.watch r.1.name r.2.2) = call at *
    split
    · exact h
    · split
      · split <;> exact h.exec hc
      · exact h
  · next r _ =>
    simp only
    have h' : Neat P (copyAll P p [r] { s with root := addAt P s.root p c e }).world.log := by rw [copyAll_log]; exact h
    split <;> exact h'.exec (watchTotal_neat _)
  · next rs _ _ =>
    simp only
    have h' : Neat P (copyAll P p (nodeAt s.root p).tops { s with root := addAt P s.root p c e }).world.log := by rw [copyAll_log]; exact h
    split
    · exact unwatchAll_neat O _ p _ (h'.exec (watchTotal_neat _))
    · exact h'.exec (watchTotal_neat _)

theorem watchOp_neat (O : Oracle) {s : St} (h : Neat P s.world.log) (p : Path) (isrec : Bool) (c : Nat) (e : Event) :
    Neat P (watchOp P O s p isrec c e).1.world.log := by
  unfold watchOp
  simp only
  split
  · exact watchUnder_neat O (s := { s with root := s.root.add p }) h _ _ _ _ _
  · exact watchTop_neat O (s := { s with root := s.root.add p }) h _ _ _ _

theorem stopCall_neat (nd : Node) {d : Diff} (h : NeatDiff P d) : (stopCall P nd d).Neat P := by
  unfold stopCall
  split
  · split <;> trivial
  · split <;> exact h.2

mutual
theorem stopWalk_neat (O : Oracle) (c : Nat) {w : World} (h : Neat P w.log) : (nd : Node) → Neat P (Node.stopWalk P O c w nd).1.log
  | .mk n wp ch => by
    unfold Node.stopWalk
    simp only
    split
    · exact stopWalkF_neat O c h ch
    · simp only
      split
      · exact h
      · exact h.exec (stopCall_neat _ (watchDel_neat _ _ _))
theorem stopWalkF_neat (O : Oracle) (c : Nat) {w : World} (h : Neat P w.log) : (ch : Forest) → Neat P (Forest.stopWalk P O c w ch).1.log
  | .nil => by unfold Forest.stopWalk; exact h
  | .cons b nd rest => by
    unfold Forest.stopWalk
    simp only
    refine stopWalkF_neat O c ?_ rest
    split
    · exact h
    · exact stopWalk_neat O c h nd
end

/-- Every call of the watcher is for a set without the bits that the tree keeps for itself, whatever was registered and whatever failed. -/
theorem RSteps.neat {rel : Bool} {ops : List ROp} {s t : St} (h : RSteps P rel s ops t) (hs : Neat P s.world.log) : Neat P t.world.log := by
  induction h with
  | nil => exact hs
  | snoc _ hst ih =>
    cases hst with
    | watch _ _ => exact watchOp_neat _ ih _ _ _ _
    | stop _ => exact stopWalk_neat _ _ ih _
    | shuffle _ => exact ih

end Rec

namespace Mac
open Rec (ROp Neat)
open Linux (Free sigs)

/-- FSEvents reported the path with the flag that the event is. -/
def Reported (reps : List (Nat × List Rep)) (ei : EventInfo) : Prop :=
  ∃ k batch r, (k, batch) ∈ reps ∧ r ∈ batch ∧ ei.path = r.path ∧ (∃ i < 32, ei.event = BitVec.twoPow 32 i) ∧ ei.event ⊑ r.flags

theorem handle_reported {w : Fsevents.Watch} {e : Event} {f : Bool} {r : Rep} {o : EventInfo} (h : o ∈ (handle w e f r).2) :
    o.path = r.path ∧ (∃ i < 32, o.event = BitVec.twoPow 32 i) ∧ o.event ⊑ r.flags ∧ o.event ⊑ e := by
  refine ⟨handle_path _ _ _ _ _ h, ?_⟩
  unfold handle at h
  simp only [List.mem_map] at h
  obtain ⟨x, hx, rfl⟩ := h
  rw [Fsevents.dispatch1_eq] at hx
  split at hx
  · cases hx
  split at hx
  · cases hx
  obtain ⟨y, hy, rfl⟩ := List.mem_map.1 hx
  obtain ⟨k, hk, hb, rfl⟩ := Fsevents.mem_splitflags.1 hy
  rw [BitVec.getLsbD_and, Bool.and_eq_true] at hb
  have one : ∀ i, (Fsevents.flag k).getLsbD i = true → i = k := by
    intro i hi
    have hi : (BitVec.twoPow 32 k).getLsbD i = true := hi
    rw [BitVec.getLsbD_twoPow] at hi
    simp only [Bool.and_eq_true, decide_eq_true_eq] at hi
    exact hi.2.symm
  refine ⟨⟨k, hk, rfl⟩, fun i hi => ?_, fun i hi => ?_⟩
  · obtain rfl := one i hi
    exact Fsevents.stripVal_sub _ _ _ hb.1
  · obtain rfl := one i hi
    exact hb.2

theorem handle_events (w : Fsevents.Watch) (e : Event) (f : Bool) (r : Rep) : (handle w e f r).1.events = w.events := rfl

/-- What is on its way, and the event sets. -/
structure SInv (reps : List (Nat × List Rep)) (s : MSt) : Prop where
  tree : Neat I s.sys.tree.world.log
  plan : ∀ r t, s.plan = some (r, t) → Neat I t.world.log
  todo : ∀ x ∈ s.todo, x.1.Neat I
  caller : ∀ p e ok, s.caller = .moving p e ok → e &&& I.internal = 0
  heap : ∀ n, (s.heap n).events &&& I.internal = 0
  loaded : ∀ b e, s.cb = some b → b.events = some e → e &&& I.internal = 0
  evs : ∀ b, s.cb = some b → ∀ r ∈ b.evs, ∃ k batch, (k, batch) ∈ reps ∧ r ∈ batch
  out : ∀ b, s.cb = some b → ∀ o ∈ b.out, Reported reps o ∧ o.event &&& I.internal = 0
  carries : Sched.Carries (fun ei => Reported reps ei ∧ ei.event &&& I.internal = 0) s.sys

theorem Reported.mono {reps l : List (Nat × List Rep)} {ei : EventInfo} (h : Reported reps ei) : Reported (reps ++ l) ei := by
  obtain ⟨k, b, r, h1, h2⟩ := h
  exact ⟨k, b, r, List.mem_append_left _ h1, h2⟩

theorem put_events {heap : Nat → Fsevents.Watch} {n : Nat} {w : Fsevents.Watch} (h : ∀ n, (heap n).events &&& I.internal = 0)
    (hw : w.events &&& I.internal = 0) : ∀ m, (put heap n w m).events &&& I.internal = 0 := by
  intro m
  unfold put
  split
  · exact hw
  · exact h m

theorem SInv.init : SInv [] MSt.init where
  tree := by intro x hx; cases hx
  plan := by intro r t h; cases h
  todo := by intro x hx; cases hx
  caller := by intro p e ok h; cases h
  heap := by intro n; show (0 : Event) &&& _ = 0; simp
  loaded := by intro b e h; cases h
  evs := by intro b h; cases h
  out := by intro b h; cases h
  carries := ⟨(by intro _ h; cases h), (by intro _ h; cases h)⟩

theorem SInv.more {reps l : List (Nat × List Rep)} {s : MSt} (h : SInv reps s) : SInv (reps ++ l) s :=
  ⟨h.tree, h.plan, h.todo, h.caller, h.heap, h.loaded, fun b hb r hr => (h.evs b hb r hr).imp fun _ ⟨b', h1, h2⟩ => ⟨b', List.mem_append_left _ h1, h2⟩,
    fun b hb o ho => ⟨(h.out b hb o ho).1.mono, (h.out b hb o ho).2⟩, h.carries.mono fun _ he => ⟨he.1.mono, he.2⟩⟩

theorem SInv.step {cfg : Sched.Cfg} {rel : Bool} {reps : List (Nat × List Rep)} {s s' : MSt} {o r g} (h : SInv reps s) (hs : MStep cfg rel s o r g s') :
    SInv (reps ++ r) s' ∧ ∀ x ∈ g, Reported reps x.2 ∧ x.2.event &&& I.internal = 0 := by
  have h' := h.more (l := r)
  have rest : ∀ {x : Call × Bool} {l : List (Call × Bool)}, s.todo = x :: l → x.1.Neat I ∧ ∀ y ∈ l, y.1.Neat I := by
    intro x l hl
    exact ⟨h.todo x (by rw [hl]; simp), fun y hy => h.todo y (by rw [hl]; simp [hy])⟩
  have none' : ∀ x ∈ ([] : List (Key × EventInfo)), Reported reps x.2 ∧ x.2.event &&& I.internal = 0 := by intro x hx; cases hx
  cases hs with
  | go l sys' htr hfree =>
    have hc := h.carries.tr htr (by rintro ei rfl; exact hfree)
    rw [List.append_nil]
    refine ⟨⟨?_, h.plan, h.todo, h.caller, h.heap, h.loaded, h.evs, h.out, hc.1⟩, fun x hx => ?_⟩
    · simp only [free_tree htr hfree]; exact h.tree
    · cases l with
      | send i k ei => rw [List.mem_singleton.1 hx]; exact hc.2 i k ei rfl
      | _ => cases hx
  | report k w p batch hk hb hcb =>
    have key : ∀ b, enter s.str k batch = some b → b.events = none ∧ b.out = [] ∧ ∀ r ∈ b.evs, r ∈ batch := by
      intro b hb'
      unfold enter at hb'
      rcases hm : s.str.m.get? k with _ | w'
      · rw [hm] at hb'; cases hb'
      · rw [hm] at hb'
        cases hb'
        exact ⟨rfl, rfl, fun r hr => (List.mem_filter.1 hr).1⟩
    refine ⟨⟨h'.tree, h'.plan, h'.todo, h'.caller, h'.heap, fun b e hb' he => ?_, fun b hb' r hr => ?_, fun b hb' o ho => ?_, h'.carries⟩, none'⟩
    · rw [(key b hb').1] at he; cases he
    · exact ⟨k, batch, by simp, (key b hb').2.2 r hr⟩
    · rw [(key b hb').2.1] at ho; cases ho
  | loadEvents b hcb hb =>
    rw [List.append_nil]
    refine ⟨⟨h.tree, h.plan, h.todo, h.caller, h.heap, ?_, ?_, ?_, h.carries⟩, none'⟩
    · rintro _ e ⟨⟩ ⟨⟩; exact h.heap _
    · rintro _ ⟨⟩; exact h.evs b hcb
    · rintro _ ⟨⟩; exact h.out b hcb
  | loadRec b e hcb he hb =>
    rw [List.append_nil]
    refine ⟨⟨h.tree, h.plan, h.todo, h.caller, h.heap, ?_, ?_, ?_, h.carries⟩, none'⟩
    · rintro _ e' ⟨⟩ he'; exact h.loaded b e' hcb he'
    · rintro _ ⟨⟩; exact h.evs b hcb
    · rintro _ ⟨⟩; exact h.out b hcb
  | next b e f r l hcb he hf hl ho =>
    rw [List.append_nil]
    refine ⟨⟨h.tree, h.plan, h.todo, h.caller, put_events h.heap (h.heap _), ?_, ?_, ?_, h.carries⟩, none'⟩
    · rintro _ e' ⟨⟩ he'; exact h.loaded b e' hcb he'
    · rintro _ ⟨⟩; exact fun r' hr' => h.evs b hcb r' (by rw [hl]; exact List.mem_cons_of_mem _ hr')
    · rintro _ ⟨⟩ o ho'
      obtain ⟨h1, h2, h3, h4⟩ := handle_reported ho'
      obtain ⟨k, batch, h5, h6⟩ := h.evs b hcb r (by rw [hl]; simp)
      refine ⟨⟨k, batch, r, h5, h6, h1, h2, h3⟩, ?_⟩
      have h7 := h.loaded b e hcb he
      clear h1 h2 h3 ho'
      generalize o.event = x at *
      ebits
  | send b o l hcb ho hq =>
    rw [List.append_nil]
    refine ⟨⟨h.tree, h.plan, h.todo, h.caller, h.heap, ?_, ?_, ?_, ⟨fun ei hei => ?_, h.carries.disp⟩⟩, none'⟩
    · rintro _ e ⟨⟩ he; exact h.loaded b e hcb he
    · rintro _ ⟨⟩; exact h.evs b hcb
    · rintro _ ⟨⟩; exact fun o' ho' => h.out b hcb o' (by rw [ho]; exact List.mem_cons_of_mem _ ho')
    · rcases List.mem_append.1 hei with hei | hei
      · exact h.carries.cq ei hei
      · rw [List.mem_singleton.1 hei]; exact h.out b hcb o (by rw [ho]; simp)
  | done b e f hcb he hf hl ho =>
    rw [List.append_nil]
    exact ⟨⟨h.tree, h.plan, h.todo, h.caller, h.heap, (by intro _ _ h; cases h), (by intro _ h; cases h), (by intro _ h; cases h), h.carries⟩, none'⟩
  | plan r ops' t new i hr hp ht hn =>
    rw [List.append_nil]
    have hT := ht.1.neat h.tree
    refine ⟨⟨h.tree, ?_, ?_, h.caller, h.heap, h.loaded, h.evs, h.out, h.carries⟩, none'⟩
    · rintro _ _ ⟨⟩; exact hT
    · intro x hx
      refine hT x ?_
      rw [hn]
      exact List.mem_append_left _ (List.mem_reverse.1 hx)
  | watch c p e f x l ho hc ht =>
    rw [List.append_nil]
    have hr := rest ht
    refine ⟨⟨h.tree, h.plan, hr.2, h.caller, put_events h.heap ?_, h.loaded, h.evs, h.out, h.carries⟩, none'⟩
    rcases ho with ⟨rfl, _⟩ | ⟨rfl, _⟩ <;> exact hr.1
  | unwatch c p l ho hc ht =>
    rw [List.append_nil]
    exact ⟨⟨h.tree, h.plan, (rest ht).2, h.caller, h.heap, h.loaded, h.evs, h.out, h.carries⟩, none'⟩
  | swap c p old new f w k l ho hc ht hw he =>
    rw [List.append_nil]
    have hr := rest ht
    refine ⟨⟨h.tree, h.plan, hr.2, (by intro _ _ _ h; cases h), put_events h.heap ?_, h.loaded, h.evs, h.out, h.carries⟩, none'⟩
    rcases ho with ⟨rfl, _⟩ | ⟨rfl, _⟩ <;> exact hr.1
  | store w f hc =>
    rw [List.append_nil]
    exact ⟨⟨h.tree, h.plan, h.todo, (by intro _ _ _ h; cases h), put_events h.heap (h.heap w), h.loaded, h.evs, h.out, h.carries⟩, none'⟩
  | mark p e w k l hc ht hw =>
    rw [List.append_nil]
    exact ⟨⟨h.tree, h.plan, (rest ht).2, h.caller, put_events h.heap (h.heap w), h.loaded, h.evs, h.out, h.carries⟩, none'⟩
  | leave p p' old new ok l hp hc ht hn hu =>
    rw [List.append_nil]
    have hr := rest ht
    refine ⟨⟨h.tree, h.plan, hr.2, ?_, h.heap, h.loaded, h.evs, h.out, h.carries⟩, none'⟩
    rintro _ _ _ ⟨⟩; exact hr.1
  | arrive p e x hc =>
    rw [List.append_nil]
    exact ⟨⟨h.tree, h.plan, h.todo, (by intro _ _ _ h; cases h), put_events h.heap (h.caller _ _ _ hc), h.loaded, h.evs, h.out, h.carries⟩, none'⟩
  | refuse c l ht hc hf =>
    rw [List.append_nil]
    exact ⟨⟨h.tree, h.plan, (rest ht).2, h.caller, h.heap, h.loaded, h.evs, h.out, h.carries⟩, none'⟩
  | effect i r a b t hcalls hp ht hc =>
    rw [List.append_nil]
    exact ⟨⟨h.plan _ _ hp, (by intro _ _ h; cases h), h.todo, h.caller, h.heap, h.loaded, h.evs, h.out, ⟨h.carries.cq, h.carries.disp⟩⟩, none'⟩

theorem MRun.sinv {cfg : Sched.Cfg} {safe : Bool} {pre ops : List ROp} {reps sg} {s : MSt} (h : MRun cfg safe pre MSt.init ops reps sg s) : SInv reps s := by
  induction h with
  | refl => exact SInv.init
  | step _ hs _ ih => exact (ih.step hs).1

theorem MRun.tied {cfg : Sched.Cfg} {safe : Bool} {pre ops : List ROp} {reps sg} {s : MSt} (h : MRun cfg safe pre MSt.init ops reps sg s) :
    Sched.Tied (Y := Y) (Rec.RHist I false) ops s.sys s.plan := by
  induction h with
  | refl => exact .inl ⟨rfl, .nil⟩
  | step _ hs _ ih =>
    cases hs with
    | go l sys' htr hfree => simpa using ih.tr htr (Linux.free_effect hfree).1 (Linux.free_effect hfree).2
    | plan r ops' t' new i hr hp ht hn => exact ih.begin hp (.inl ⟨i, hr⟩) fun h => Sched.rhist_steps h ht.1
    | effect i r a b t' hcalls hp ht hc => simpa using ih.finish hp rfl
    | _ => rw [List.append_nil]; exact ih.same rfl rfl rfl

/-- **C114, macOS.**  In every execution of the whole program, under every schedule and whatever fails: an event that is now signalled to a channel was asked for with
Watches of that channel that began before and that no Stop of it took back since; and FSEvents reported this path with this flag before. -/
theorem C114_macos {cfg : Sched.Cfg} {safe : Bool} {ops : List ROp} {reps sg} {s s' : MSt} (h : MRun cfg safe [] MSt.init ops reps sg s)
    {o r g} (hs : MStep cfg safe s o r g s') {c : Nat} {ei : EventInfo} (hm : (Key.user c, ei) ∈ g) :
    Sched.AskedFor (Sched.rwanted I ops) c ei ∧ Reported reps ei := by
  obtain ⟨h1, h2⟩ := ((MRun.sinv h).step hs).2 _ hm
  refine ⟨?_, h1⟩
  cases hs with
  | go l sys' htr hfree =>
    cases l with
    | send i k ei' =>
      cases List.mem_singleton.1 hm
      obtain ⟨⟨t, h3, _⟩, _⟩ := C96_parts h
      exact (MRun.tied h).asked_rec factsI (Sched.Exec.inv _ h3) htr (fun hw => absurd hw (by decide)) h2
    | _ => cases hm
  | _ => cases hm

theorem MRun.trans {cfg : Sched.Cfg} {b : Bool} {pre o1 o2 : List ROp} {r1 r2 g1 g2} {s s1 s2 : MSt} (h : MRun cfg b pre s o1 r1 g1 s1)
    (h' : MRun cfg b (pre ++ o1) s1 o2 r2 g2 s2) : MRun cfg b pre s (o1 ++ o2) (r1 ++ r2) (g1 ++ g2) s2 := by
  induction h' with
  | refl => simpa using h
  | step _ hs hc ih =>
    rw [← List.append_assoc, ← List.append_assoc, ← List.append_assoc]
    exact ih.step hs (by simpa [List.append_assoc] using hc)

/-- Every signal is made in some step. -/
theorem MRun.moment {cfg : Sched.Cfg} {b : Bool} {pre ops : List ROp} {s₀ s : MSt} {reps sg} (h : MRun cfg b pre s₀ ops reps sg s) {x : Key × EventInfo}
    (hx : x ∈ sg) : ∃ ops₁ reps₁ sg₁ s₁ o r g s₂, MRun cfg b pre s₀ ops₁ reps₁ sg₁ s₁ ∧ MStep cfg b s₁ o r g s₂ ∧ x ∈ g ∧ ops₁ <+: ops ∧ reps₁ <+: reps := by
  induction h with
  | refl => cases hx
  | step h0 hs _ ih =>
    rcases List.mem_append.1 hx with hx | hx
    · obtain ⟨a, b, c, d, e, f, g, k, h1, h2, h3, h4, h5⟩ := ih hx
      exact ⟨a, b, c, d, e, f, g, k, h1, h2, h3, h4.trans (List.prefix_append _ _), h5.trans (List.prefix_append _ _)⟩
    · exact ⟨_, _, _, _, _, _, _, _, h0, hs, hx, List.prefix_append _ _, List.prefix_append _ _⟩

/-- Channel 1 watches `/d` for Create, channel 2 for Write; `/d/f` is created: a signal is made, it was asked for and reported. -/
example : ∃ ops₁ reps₁ sg₁ s₁ o r g s₂, MRun Ex.cfg true [] MSt.init ops₁ reps₁ sg₁ s₁ ∧ MStep Ex.cfg true s₁ o r g s₂ ∧
    (Key.user 1, Ex.ei) ∈ g ∧ Sched.AskedFor (Sched.rwanted I ops₁) 1 Ex.ei ∧ Reported reps₁ Ex.ei := by
  obtain ⟨s', h2, _⟩ := Ex.run2
  have h := Ex.run1.trans (o2 := [Ex.op2]) h2
  obtain ⟨ops₁, reps₁, sg₁, s₁, o, r, g, s₂, h3, h4, h5, _⟩ := h.moment (x := (.user 1, Ex.ei)) (by simp)
  exact ⟨_, _, _, _, _, _, _, _, h3, h4, h5, C114_macos h3 h4 h5⟩

/-- The same, without the watcher. -/
example : ∃ t₁ i t₂ s, Sched.Exec Y Ex.cfg (t₁ ++ .send i (.user 1) Ex.ei :: t₂) s ∧ Sched.AskedFor (Sched.asked I (Sched.effects t₁)) 1 Ex.ei := by
  obtain ⟨s', h2, _⟩ := Ex.run2
  have h := Ex.run1.trans (o2 := [Ex.op2]) h2
  obtain ⟨⟨t, h3, h4⟩, _⟩ := C96_parts h
  obtain ⟨t₁, i, t₂, rfl⟩ := Linux.signals_split (t := t) (k := .user 1) (ei := Ex.ei) (by rw [h4]; simp)
  exact ⟨t₁, i, t₂, _, h3, Sched.C114_rec factsI h3 (fun hw => absurd hw (by decide)) (by decide)⟩

end Mac
end Verif
