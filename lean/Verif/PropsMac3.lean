/-
The whole program on macOS: the streams while other calls run (C89), and changes that are reported by two streams (C98).
-/
import Verif.PropsMac2

namespace Verif
open GoMap

namespace Rec
open Spec

variable {P : Platform}

theorem rregOf_keeps {c : Nat} {q : Path} {E : Event} {f : Bool} : ∀ (ops : List ROp) (pre : List ROp), (∀ op ∈ ops, op ≠ .stop c) →
    rregOf pre c q = some (E, f) → ∃ E' f', rregOf (pre ++ ops) c q = some (E', f') ∧ E ⊑ E'
  | [], pre, _, h => ⟨E, f, by simpa using h, Event.Sub.refl _⟩
  | op :: ops, pre, hc, h => by
    obtain ⟨E1, f1, h1, h2⟩ := rregOf_keep (hc op (by simp)) h
    obtain ⟨E2, f2, h3, h4⟩ := rregOf_keeps ops (pre ++ [op]) (fun o ho => hc o (by simp [ho])) h1
    exact ⟨E2, f2, by simpa using h3, h2.trans h4⟩

theorem SafeSteps.covered (hP : P.Facts) {pre ops : List ROp} {s t : St} (h : SafeHist P pre s) (h' : SafeSteps P pre s ops t) {c : Nat}
    (hc : ∀ op ∈ ops, op ≠ .stop c) {l : Log} (hl : Amid s.world.log t.world.log l) : Covered (rregOf pre) l c := by
  induction h' generalizing l with
  | nil => rw [hl.same]; exact mirror_covered (C26_mirror_partial hP h).1 c
  | @snoc ops s' op t h1 hs hsafe ih =>
    have hc' : ∀ op ∈ ops, op ≠ .stop c := fun o ho => hc o (by simp [ho])
    rcases amid_split hl (Grew.suffix (hs.grew hsafe.succeeded)) with h2 | h2
    · exact ih hc' h2
    · have h3 := C89_rec_partial hP (h.append h1) hs hsafe (hc op (by simp)) h2.1 h2.2
      intro q E f hE
      obtain ⟨E', f', h4, h5⟩ := rregOf_keeps ops pre hc' hE
      obtain ⟨t', E'', f'', h6, h7, h8⟩ := h3 q E' f' h4
      exact ⟨t', E'', f'', h6, h7, h5.trans h8⟩

/-- No watched path is below another. -/
def Apart (l : Log) : Prop := ∀ q q', osRec l q ≠ none → osRec l q' ≠ none → q <+: q' → q = q'

theorem SafeHist.isApart (hP : P.Facts) {ops : List ROp} {s : St} (h : SafeHist P ops s) : Apart s.world.log := (C26_mirror_partial hP h).1.apart

/-- In the middle of a harmless operation each watched path is one of two sets without nesting. -/
theorem SafeSteps.layers (hP : P.Facts) {pre ops : List ROp} {s t : St} (h : SafeHist P pre s) (h' : SafeSteps P pre s ops t) {l : Log}
    (hl : Amid s.world.log t.world.log l) : ∃ a b, Apart a ∧ Apart b ∧ ∀ q, osRec l q ≠ none → osRec a q ≠ none ∨ osRec b q ≠ none := by
  induction h' generalizing l with
  | nil => rw [hl.same]; exact ⟨_, _, h.isApart hP, h.isApart hP, fun q hq => .inl hq⟩
  | @snoc ops s' op t h1 hs hsafe ih =>
    rcases amid_split hl (Grew.suffix (hs.grew hsafe.succeeded)) with h2 | h2
    · exact ih h2
    · have h3 := h.append h1
      exact ⟨_, _, h3.isApart hP, (h3.snoc hs hsafe).isApart hP, h3.mids hP hs hsafe l h2⟩

theorem Apart.same {l : Log} (h : Apart l) {a b x : Path} (ha : a <+: x) (hb : b <+: x) (h1 : osRec l a ≠ none) (h2 : osRec l b ≠ none) : a = b := by
  rcases List.prefix_or_prefix_of_prefix ha hb with h3 | h3
  · exact h a b h1 h2 h3
  · exact (h b a h2 h1 h3).symm

end Rec

namespace Mac
open Rec (ROp SafeHist SafeSteps rregOf)

/-- **C89, the whole program on macOS, partial.**  In any execution from the start in which no call fails and every operation is harmless in the
sense of C26, once a Watch with `c` of `q` has returned, until Stop of `c`, at every moment, whatever runs — also in the middle of other calls, of
their calls of the watcher, and of callbacks: a stream runs at `q` or above it, for a watch that has the events asked for.  Missing: the moments in the middle of
a RecursiveRewatch that moves a watch to another path (`C89_fsevents_refuted`). -/
theorem C89_mac_partial {cfg : Sched.Cfg} {ops₀ ops : List ROp} {reps₀ reps : List (Nat × List Rep)} {sg₀ sg : List (Key × EventInfo)} {s₀ s : MSt}
    (h0 : MRun cfg true [] MSt.init ops₀ reps₀ sg₀ s₀) (hplan : s₀.plan = none) (h : MRun cfg true ops₀ s₀ ops reps sg s) {c : Nat}
    (hc : ∀ op ∈ ops, op ≠ .stop c) {q : Path} {E : Event} {f : Bool} (hreg : rregOf ops₀ c q = some (E, f))
    (hmove : ∀ p e b, s.caller ≠ .moving p e b) :
    ∃ tp w k, tp <+: q ∧ s.str.table.get? tp = some (w, k) ∧ (k, tp) ∈ s.str.kern ∧ E ⊑ (s.heap w).events := by
  have hj := h.j ((h0.j J.init).rebase hplan)
  have hcov : ∃ t E' f', t <+: q ∧ osRec s.log t = some (E', f') ∧ E ⊑ E' := by
    obtain ⟨a, b, h1, h2, h3 | ⟨r, t, h3, h4, h5, h6⟩⟩ := hj.tree
    · obtain ⟨E', f', h4, h5⟩ := Rec.rregOf_keeps a ops₀ (fun o ho => hc o (by rw [h1]; simp [ho])) hreg
      obtain ⟨t, E'', f'', h6, h7, h8⟩ := Rec.mirror_covered (Rec.C26_mirror_partial factsI h2).1 c q E' f' h4
      exact ⟨t, E'', f'', h6, by rw [h3.2.2.1]; exact h7, h5.trans h8⟩
    · obtain ⟨E', f', h7, h8⟩ := Rec.rregOf_keeps a ops₀ (fun o ho => hc o (by rw [h1]; simp [ho])) hreg
      obtain ⟨t', E'', f'', h9, h10, h11⟩ := h4.covered factsI h2 (c := c) (fun o ho => hc o (by rw [h1]; simp [ho]))
        ⟨h5, ⟨_, h6⟩⟩ q E' f' h7
      exact ⟨t', E'', f'', h9, h10, h8.trans h11⟩
  obtain ⟨t, E', f', h1, h2, h3⟩ := hcov
  have hv := congrFun hj.view t
  rw [h2] at hv
  have key : ∃ w k, s.str.table.get? t = some (w, k) ∧ (s.heap w).events = E' := by
    unfold settle view at hv
    split at hv
    · obtain ⟨⟨w, k⟩, e1, e2⟩ := Option.map_eq_some_iff.1 hv
      simp only [Prod.mk.injEq] at e2
      exact ⟨w, k, e1, e2.1⟩
    · obtain ⟨⟨w, k⟩, e1, e2⟩ := Option.map_eq_some_iff.1 hv
      simp only [Prod.mk.injEq] at e2
      exact ⟨w, k, e1, e2.1⟩
    · next p e b hcl => exact absurd hcl (hmove p e b)
  obtain ⟨w, k, h4, h5⟩ := key
  exact ⟨t, w, k, h1, h4, (hj.wf.inv.tab _ _ _ h4).2.2, by rw [h5]; exact h3⟩

/-! ### Two streams for one change -/

/-- **C98, partial.**  In any execution from the start in which no call fails and every operation is harmless, at every moment at which no Watch or
Stop is under way, no stream runs below the path of another: for each path there is at most one stream that reports its changes.  Missing: the time while a Watch is under
way (`C98_refuted`). -/
theorem C98_one_stream_partial {cfg : Sched.Cfg} {ops : List ROp} {reps : List (Nat × List Rep)} {sg : List (Key × EventInfo)} {s : MSt}
    (h : MRun cfg true [] MSt.init ops reps sg s) (hplan : s.plan = none) {k k' : Nat} {p p' : Path} (h1 : (k, p) ∈ s.str.kern)
    (h2 : (k', p') ∈ s.str.kern) (hpp : p <+: p') : k = k' ∧ p = p' := by
  have hj : J ops [] s := (h.j J.init).rebase hplan
  obtain ⟨hsafe, hlog, hidle⟩ : SafeHist I ops s.sys.tree ∧ s.log = s.sys.tree.world.log ∧ s.caller = .idle := by
    obtain ⟨a, b, h1, h2, h3 | ⟨r, t, h3, _⟩⟩ := hj.tree
    · obtain ⟨rfl, rfl⟩ := List.append_eq_nil_iff.1 h1.symm
      exact ⟨by simpa using h2, h3.2.2.1, h3.2.2.2.1⟩
    · rw [hplan] at h3; cases h3
  have hmir := (Rec.C26_mirror_partial factsI hsafe).1
  obtain ⟨w, hw⟩ := hj.wf.inv.kern k p h1
  obtain ⟨w', hw'⟩ := hj.wf.inv.kern k' p' h2
  have hos : ∀ p w k, s.str.table.get? p = some (w, k) → osRec s.sys.tree.world.log p ≠ none := by
    intro p w k hp hc
    have hv := congrFun hj.view p
    rw [settle_idle hidle, hlog, hc] at hv
    unfold view at hv
    rw [hp] at hv
    cases hv
  have := hmir.apart p p' (hos _ _ _ hw) (hos _ _ _ hw') hpp
  subst this
  rw [hw] at hw'
  simp only [Option.some.injEq, Prod.mk.injEq] at hw'
  exact ⟨hw'.2, rfl⟩

/-- **C98, partial: never more than twice.**  In any execution from the start in which no call fails and every operation is harmless, at every moment, also in the middle
of calls: of any three streams that run at a path or above it two are the same, so at most two report its changes. -/
theorem C98_two_streams_partial {cfg : Sched.Cfg} {ops : List ROp} {reps : List (Nat × List Rep)} {sg : List (Key × EventInfo)} {s : MSt}
    (h : MRun cfg true [] MSt.init ops reps sg s) {x p₁ p₂ p₃ : Path} {k₁ k₂ k₃ : Nat} (h1 : (k₁, p₁) ∈ s.str.kern) (h2 : (k₂, p₂) ∈ s.str.kern)
    (h3 : (k₃, p₃) ∈ s.str.kern) (hx1 : p₁ <+: x) (hx2 : p₂ <+: x) (hx3 : p₃ <+: x) : k₁ = k₂ ∨ k₁ = k₃ ∨ k₂ = k₃ := by
  have hj : J [] ops s := h.j J.init
  have hlay : ∃ a b, Rec.Apart a ∧ Rec.Apart b ∧ ∀ q, osRec s.log q ≠ none → osRec a q ≠ none ∨ osRec b q ≠ none := by
    obtain ⟨a, b, e1, e2, e3 | ⟨r, t, e3, e4, e5, e6⟩⟩ := hj.tree
    · refine ⟨_, _, e2.isApart factsI, e2.isApart factsI, fun q hq => .inl ?_⟩
      rw [e3.2.2.1] at hq; exact hq
    · exact e4.layers factsI e2 ⟨e5, ⟨_, e6⟩⟩
  obtain ⟨a, b, ha, hb, hab⟩ := hlay
  have hos : ∀ k p, (k, p) ∈ s.str.kern → ∃ w, s.str.table.get? p = some (w, k) ∧ osRec s.log p ≠ none := by
    intro k p hk
    obtain ⟨w, hw⟩ := hj.wf.inv.kern k p hk
    refine ⟨w, hw, fun hc => ?_⟩
    have hv := congrFun hj.view p
    rw [hc] at hv
    unfold settle view at hv
    rw [hw] at hv
    split at hv
    · cases hv
    · cases hv
    · split at hv <;> first | cases hv | (split at hv <;> cases hv)
  have same : ∀ {k k' p p'}, (k, p) ∈ s.str.kern → (k', p') ∈ s.str.kern → p = p' → k = k' := by
    intro k k' p p' e1 e2 e3
    subst e3
    obtain ⟨w, hw, _⟩ := hos _ _ e1
    obtain ⟨w', hw', _⟩ := hos _ _ e2
    rw [hw] at hw'
    simp only [Option.some.injEq, Prod.mk.injEq] at hw'
    exact hw'.2
  obtain ⟨_, _, o1⟩ := hos _ _ h1
  obtain ⟨_, _, o2⟩ := hos _ _ h2
  obtain ⟨_, _, o3⟩ := hos _ _ h3
  rcases hab _ o1 with o1 | o1 <;> rcases hab _ o2 with o2 | o2 <;> rcases hab _ o3 with o3 | o3
  · exact .inl (same h1 h2 (ha.same hx1 hx2 o1 o2))
  · exact .inl (same h1 h2 (ha.same hx1 hx2 o1 o2))
  · exact .inr (.inl (same h1 h3 (ha.same hx1 hx3 o1 o3)))
  · exact .inr (.inr (same h2 h3 (hb.same hx2 hx3 o2 o3)))
  · exact .inr (.inr (same h2 h3 (ha.same hx2 hx3 o2 o3)))
  · exact .inr (.inl (same h1 h3 (hb.same hx1 hx3 o1 o3)))
  · exact .inl (same h1 h2 (hb.same hx1 hx2 o1 o2))
  · exact .inl (same h1 h2 (hb.same hx1 hx2 o1 o2))

namespace TwiceEx
open Ex (C mk cfg uC d good comps)
open Linux (Gets)

def dx : Path := [['d'], ['x']]
def dy : Path := [['d'], ['y']]
def xf : Path := [['d'], ['x'], ['f']]
def op1 : ROp := .watch dx false 1 C true
def op2 : ROp := .watch dy false 2 C true
def op3 : ROp := .watch d false 3 C true
def req1 : Sched.Req := .watch dx false 1 C
def req2 : Sched.Req := .watch dy false 2 C
def req3 : Sched.Req := .watch d false 3 C
def t1 : St := (Rec.watchOp I .ok Rec.init dx false 1 C).1
def t2 : St := (Rec.watchOp I .ok t1 dy false 2 C).1
def t3 : St := (Rec.watchOp I .ok t2 d false 3 C).1
def r : Rep := { path := xf, flags := C }
def ei : EventInfo := { event := C, path := xf, isDir := some false }

theorem gx : NonRec.GoodPath dx := by simp [dx, NonRec.GoodPath]
theorem gy : NonRec.GoodPath dy := by simp [dy, NonRec.GoodPath]
theorem cx : PathStr.Comps dx := by simp [dx, PathStr.Comps, PathStr.sep]
theorem cy : PathStr.Comps dy := by simp [dy, PathStr.Comps, PathStr.sep]
theorem step1 : Rec.RStep I true Rec.init op1 t1 := Rec.RStep.watch (O := .ok) gx uC
theorem step2 : Rec.RStep I true t1 op2 t2 := Rec.RStep.watch (O := .ok) gy uC
theorem step3 : Rec.RStep I true t2 op3 t3 := Rec.RStep.watch (O := .ok) good uC
theorem rOk : r.Ok := .inr (by simp [r, xf, NonRec.GoodPath, PathStr.Comps, PathStr.sep])
theorem mkOk : ∀ r ∈ [mk], r.Ok := by intro r hr; simp only [List.mem_singleton] at hr; subst hr; exact .inl (by decide)

def w0 : Fsevents.Watch := { path := PathStr.str dx, events := C, isrec := false }
def w1 : Fsevents.Watch := { path := PathStr.str dy, events := C, isrec := false }
def w2 : Fsevents.Watch := { path := PathStr.str d, events := C, isrec := true }
def str2 : Streams.S := (Streams.watch (Streams.watch {} dx .ok).1 dy .ok).1

theorem safe2 : Spec.SafeWatch (rregOf [op1]) t1.world.log dy :=
  .inr fun x _ hx => (Rec.watchOnly_safe factsI (Rec.RSteps.nil.snoc step1) (by simp [op1, ROp.isWatch])).2 x hx

theorem safe3 : Spec.SafeWatch (rregOf [op1, op2]) t2.world.log d :=
  .inr fun x _ hx => (Rec.watchOnly_safe factsI ((Rec.RSteps.nil.snoc step1).snoc step2) (by simp [op1, op2, ROp.isWatch])).2 x hx

/-- Channel 1 watches `/d/x`, channel 2 `/d/y`; the history of the first stream is done. -/
def s2 : MSt :=
  { sys := { Sched.State.init Y with tree := t2, next := 2 }, str := str2,
    heap := put (put (put (MSt.init.heap) 0 w0) 1 w1) 0 (handle w0 C false mk).1, log := [(.watch dy C, true), (.watch dx C, true)] }

theorem run2 : MRun cfg true [] MSt.init [op1, op2] [(1, [mk])] [] s2 := by
  have h := MRun.refl (cfg := cfg) (safe := true) (pre := []) (s := MSt.init)
  have h := h.step (.go _ _ (.call (Y := Y) req1 (show NonRec.GoodPath dx ∧ NonRec.UserEvents I C from ⟨gx, uC⟩) trivial) trivial) (by simp)
  have h := h.step (.go _ _ (.lock 0 req1 [] [] rfl (by rintro ⟨_, _, _, _, h⟩; cases h)
    (by rintro ⟨_, _, h | h⟩ <;> cases h <;> contradiction) (by rintro ⟨_, h | h⟩ <;> cases h)) trivial) (by simp)
  have h := h.step (.plan req1 [op1] t1 [(.watch dx C, true)] 0 (.head _) rfl
    ⟨Rec.RSteps.nil.snoc step1, by decide, op1, ⟨cx, _, rfl⟩, .inl rfl⟩ rfl) (by
      intro _ op hop
      simp only [List.mem_singleton] at hop
      subst hop
      exact ⟨rfl, .inr fun x _ hx => absurd rfl hx⟩)
  have h := h.step (.watch (.watch dx C) dx C false .ok [] (.inl ⟨rfl, rfl⟩) rfl rfl) (by simp)
  have h := h.step (.effect 0 req1 [] [] t1 rfl rfl rfl rfl) (by simp)
  have h := h.step (.go _ _ (.unlock 0 req1 [] [] rfl) trivial) (by simp)
  have h := h.step (.go _ _ (.ret 0 req1 [] [] rfl) trivial) (by simp)
  have h := h.step (.go _ _ (.call (Y := Y) req2 (show NonRec.GoodPath dy ∧ NonRec.UserEvents I C from ⟨gy, uC⟩) trivial) trivial) (by simp)
  have h := h.step (.go _ _ (.lock 1 req2 [] [] rfl (by rintro ⟨_, _, _, _, h⟩; cases h)
    (by rintro ⟨_, _, h | h⟩ <;> cases h <;> contradiction) (by rintro ⟨_, h | h⟩ <;> cases h)) trivial) (by simp)
  have h := h.step (.plan req2 [op2] t2 [(.watch dy C, true)] 1 (.head _) rfl
    ⟨Rec.RSteps.nil.snoc step2, by decide, op2, ⟨cy, _, rfl⟩, .inl rfl⟩ rfl) (by
      intro _ op hop
      simp only [List.mem_singleton] at hop
      subst hop
      exact ⟨rfl, safe2⟩)
  have h := h.step (.watch (.watch dy C) dy C false .ok [] (.inl ⟨rfl, rfl⟩) rfl rfl) (by simp)
  have h := h.step (.effect 1 req2 [] [] t2 rfl rfl rfl rfl) (by simp)
  have h := h.step (.go _ _ (.unlock 1 req2 [] [] rfl) trivial) (by simp)
  have h := h.step (.go _ _ (.ret 1 req2 [] [] rfl) trivial) (by simp)
  have h := h.step (.report 1 0 dx [mk] (.tail _ (.head _)) mkOk rfl) (by simp)
  have h := h.step (.loadEvents _ rfl rfl) (by simp)
  have h := h.step (.loadRec _ C rfl rfl rfl) (by simp)
  have h := h.step (.next _ C false mk [] rfl rfl rfl rfl rfl) (by simp)
  have h := h.step (.done _ C false rfl rfl rfl rfl (by decide)) (by simp)
  exact h

theorem outx : (handle (handle w0 C false mk).1 C false r).2 = [ei] := by
  unfold handle Fsevents.Watch.dispatch1
  simp only [Fsevents.splitflags_eq]
  decide

theorem outd : (handle (handle w2 C true mk).1 C true r).2 = [ei] := by
  unfold handle Fsevents.Watch.dispatch1
  simp only [Fsevents.splitflags_eq]
  decide

/-- Channel 3 watches `/d`.  Meanwhile `/d/x/f` is created, and each of the two streams that run reports it. -/
theorem amid : ∃ s', MRun cfg true [op1, op2] s2 [op3] [] [] s' ∧ s'.caller = .idle ∧ s'.str.kern = [(3, d), (2, dy), (1, dx)] := by
  have h := MRun.refl (cfg := cfg) (safe := true) (pre := [op1, op2]) (s := s2)
  have h := h.step (.go _ _ (.call (Y := Y) req3 (show NonRec.GoodPath d ∧ NonRec.UserEvents I C from ⟨good, uC⟩) trivial) trivial) (by simp)
  have h := h.step (.go _ _ (.lock 2 req3 [] [] rfl (by rintro ⟨_, _, _, _, h⟩; cases h)
    (by rintro ⟨_, _, h | h⟩ <;> cases h <;> contradiction) (by rintro ⟨_, h | h⟩ <;> cases h)) trivial) (by simp)
  have h := h.step (.plan req3 [op3] t3 [(.unwatch dy, true), (.unwatch dx, true), (.recWatch d C, true)] 2 (.head _) rfl
    ⟨Rec.RSteps.nil.snoc step3, by decide, op3, ⟨comps, _, rfl⟩, .inl rfl⟩ rfl) (by
      intro _ op hop
      simp only [List.mem_singleton] at hop
      subst hop
      exact ⟨rfl, safe3⟩)
  have h := h.step (.watch (.recWatch d C) d C true .ok _ (.inr ⟨rfl, rfl⟩) rfl rfl) (by simp)
  exact ⟨_, h, rfl, rfl⟩

/-- While channel 3's Watch of `/d` is under way three streams run, two of them above `/d/x/f`; `C89_mac_partial` finds one for channel 1. -/
example : ∃ s', MRun cfg true [op1, op2] s2 [op3] [] [] s' ∧ s'.str.kern = [(3, d), (2, dy), (1, dx)] ∧
    ∃ tp w k, tp <+: dx ∧ s'.str.table.get? tp = some (w, k) ∧ (k, tp) ∈ s'.str.kern ∧ C ⊑ (s'.heap w).events := by
  obtain ⟨s', h, h1, h2⟩ := amid
  refine ⟨s', h, h2, C89_mac_partial run2 rfl h (c := 1) ?_ (q := dx) (E := C) (f := false) (by decide) (by intro p e b; rw [h1]; intro h; cases h)⟩
  intro op hop
  simp only [List.mem_singleton] at hop
  subst hop
  simp [op3]

/-- Before it the two streams are apart. -/
example : ¬ ∃ k k' p p', (k, p) ∈ s2.str.kern ∧ (k', p') ∈ s2.str.kern ∧ p <+: p' ∧ p ≠ p' := by
  rintro ⟨k, k', p, p', h1, h2, h3, h4⟩
  exact h4 (C98_one_stream_partial run2 rfl h1 h2 h3).2

/-- While it is under way there are two that report `/d/x/f`, and no third. -/
example : ∃ s', MRun cfg true [] MSt.init [op1, op2, op3] [(1, [mk])] [] s' ∧ (1, dx) ∈ s'.str.kern ∧ (3, d) ∈ s'.str.kern ∧
    ∀ k p, (k, p) ∈ s'.str.kern → p <+: xf → k = 1 ∨ k = 3 := by
  obtain ⟨s', h, _, h2⟩ := amid
  have h' : MRun cfg true [] MSt.init [op1, op2, op3] [(1, [mk])] [] s' := LeftEx.run_trans run2 h
  have hx : (1, dx) ∈ s'.str.kern := by rw [h2]; simp
  have hd : (3, d) ∈ s'.str.kern := by rw [h2]; simp
  refine ⟨s', h', hx, hd, fun k p hk hp => ?_⟩
  rcases C98_two_streams_partial h' hk hx hd hp (x := xf) (by decide) (by decide) with h3 | h3 | h3
  · exact .inl h3
  · exact .inr h3
  · cases h3

theorem run3 : ∃ s', MRun cfg true [op1, op2] s2 [op3] [(3, [mk]), (1, [r]), (3, [r])] [(.user 1, ei), (.user 1, ei)] s' ∧ s'.plan = none ∧ s'.Quiet := by
  have h := MRun.refl (cfg := cfg) (safe := true) (pre := [op1, op2]) (s := s2)
  have h := h.step (.go _ _ (.call (Y := Y) req3 (show NonRec.GoodPath d ∧ NonRec.UserEvents I C from ⟨good, uC⟩) trivial) trivial) (by simp)
  have h := h.step (.go _ _ (.lock 2 req3 [] [] rfl (by rintro ⟨_, _, _, _, h⟩; cases h)
    (by rintro ⟨_, _, h | h⟩ <;> cases h <;> contradiction) (by rintro ⟨_, h | h⟩ <;> cases h)) trivial) (by simp)
  have h := h.step (.plan req3 [op3] t3 [(.unwatch dy, true), (.unwatch dx, true), (.recWatch d C, true)] 2 (.head _) rfl
    ⟨Rec.RSteps.nil.snoc step3, by decide, op3, ⟨comps, _, rfl⟩, .inl rfl⟩ rfl) (by
      intro _ op hop
      simp only [List.mem_singleton] at hop
      subst hop
      exact ⟨rfl, safe3⟩)
  have h := h.step (.watch (.recWatch d C) d C true .ok _ (.inr ⟨rfl, rfl⟩) rfl rfl) (by simp)
  have h := h.step (.report 3 2 d [mk] (.head _) mkOk rfl) (by simp)
  have h := h.step (.loadEvents _ rfl rfl) (by simp)
  have h := h.step (.loadRec _ C rfl rfl rfl) (by simp)
  have h := h.step (.next _ C true mk [] rfl rfl rfl rfl rfl) (by simp)
  have h := h.step (.done _ C true rfl rfl rfl rfl (by decide)) (by simp)
  have h := h.step (.report 1 0 dx [r] (.tail _ (.tail _ (.head _))) (by intro r' hr; simp only [List.mem_singleton] at hr; subst hr; exact rOk) rfl) (by simp)
  have h := h.step (.loadEvents _ rfl rfl) (by simp)
  have h := h.step (.loadRec _ C rfl rfl rfl) (by simp)
  have h := h.step (.next _ C false r [] rfl rfl rfl rfl rfl) (by simp)
  have h := h.step (.send _ ei [] rfl outx (by decide)) (by simp)
  have h := h.step (.done _ C false rfl rfl rfl rfl rfl) (by simp)
  have h := h.step (.report 3 2 d [r] (.head _) (by intro r' hr; simp only [List.mem_singleton] at hr; subst hr; exact rOk) rfl) (by simp)
  have h := h.step (.loadEvents _ rfl rfl) (by simp)
  have h := h.step (.loadRec _ C rfl rfl rfl) (by simp)
  have h := h.step (.next _ C true r [] rfl rfl rfl rfl rfl) (by simp)
  have h := h.step (.send _ ei [] rfl outd (by decide)) (by simp)
  have h := h.step (.done _ C true rfl rfl rfl rfl rfl) (by simp)
  have h := h.step (.unwatch (.unwatch dx) dx _ (.inl rfl) rfl rfl) (by simp)
  have h := h.step (.unwatch (.unwatch dy) dy _ (.inl rfl) rfl rfl) (by simp)
  have h := h.step (.effect 2 req3 [] [] t3 rfl rfl rfl rfl) (by simp)
  have h := h.step (.go _ _ (.unlock 2 req3 [] [] rfl) trivial) (by simp)
  have h := h.step (.go _ _ (.ret 2 req3 [] [] rfl) trivial) (by simp)
  have hs : Rec.sends I t3.root ei = [.user 1] := by decide
  have h := h.step (.go _ _ (.spawn ei [ei] rfl) trivial) (by simp)
  have h := h.step (.go _ _ (.rlock 3 ei [] [] rfl (by rintro ⟨_, _, h | h⟩ <;> cases h)
    (by rintro ⟨_, h | h⟩ <;> cases h)
    (by rintro _ (⟨_, _, h⟩ | ⟨_, h⟩) <;> cases h)) trivial) (by simp)
  have h := h.step (.go _ _ (.pick 3 ei [] (.user 1) [] [] rfl (by decide)) trivial) (by simp)
  have h := h.step (.go _ _ (.send 3 ei [] (.user 1) [] [] rfl) trivial) (by simp)
  have h := h.step (.go _ _ (.fin 3 ei [.user 1] [] [] rfl (by intro k; exact Nat.le_of_eq (congrArg (List.count k) hs)) (by decide)) trivial) (by simp)
  have h := h.step (.go _ _ (.spawn ei [] rfl) trivial) (by simp)
  have h := h.step (.go _ _ (.rlock 4 ei [] [] rfl (by rintro ⟨_, _, h | h⟩ <;> cases h)
    (by rintro ⟨_, h | h⟩ <;> cases h)
    (by rintro _ (⟨_, _, h⟩ | ⟨_, h⟩) <;> cases h)) trivial) (by simp)
  have h := h.step (.go _ _ (.pick 4 ei [] (.user 1) [] [] rfl (by decide)) trivial) (by simp)
  have h := h.step (.go _ _ (.send 4 ei [] (.user 1) [] [] rfl) trivial) (by simp)
  have h := h.step (.go _ _ (.fin 4 ei [.user 1] [] [] rfl (by intro k; exact Nat.le_of_eq (congrArg (List.count k) hs)) (by decide)) trivial) (by simp)
  exact ⟨_, h, rfl, rfl, rfl, rfl⟩

end TwiceEx

/-- **C98 is false** of the code.  Channel 1 watches `/d/x` and channel 2 `/d/y`, both for Create; then channel 3 watches `/d`.  That call starts a stream of `/d` and
then stops the two others.  `/d/x/f` is created in between, and each stream reports it at most once; channel 1, which has one registration that covers it,
is signalled twice.  No call fails and every operation is harmless. -/
theorem C98_refuted : ∃ (cfg : Sched.Cfg) (ops₀ ops : List ROp) (reps₀ reps : List (Nat × List Rep)) (sg : List (Key × EventInfo)) (s s' : MSt) (c : Nat)
    (E : Event) (x : Path), MRun cfg true [] MSt.init ops₀ reps₀ [] s ∧ s.plan = none ∧ s.Quiet ∧ MRun cfg true ops₀ s ops reps sg s' ∧ s'.plan = none ∧ s'.Quiet ∧
      Spec.copies (rregOf ops₀) c E x = 1 ∧ Spec.copies (rregOf (ops₀ ++ ops)) c E x = 1 ∧ (∀ k, flagsOf k x reps₀ = []) ∧
      (∀ k, (flagsOf k x reps).length ≤ 1) ∧ sg.countP (Linux.Gets c E x) = 2 := by
  obtain ⟨s', h1, h2, h3⟩ := TwiceEx.run3
  refine ⟨_, _, _, _, _, _, _, s', 1, Ex.C, TwiceEx.xf, TwiceEx.run2, rfl, ⟨rfl, rfl, rfl⟩, h1, h2, h3, by decide, by decide, ?_, ?_, by decide⟩
  · intro k
    simp only [flagsOf, List.flatMap_cons, List.flatMap_nil, List.append_nil]
    split
    · decide
    · rfl
  · intro k
    by_cases e1 : k = 1
    · subst e1; decide
    · by_cases e3 : k = 3
      · subst e3; decide
      · simp [flagsOf, Ne.symm e1, Ne.symm e3]

end Mac
end Verif
