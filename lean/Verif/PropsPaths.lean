/-
C113: the path of an event is a path of the file that changed.

A watch of the kernel is on a file, whatever its name is; the tables of the watchers have the name that was given to Watch.
Adds to the models of `InotifyPipe` and `KqFds` the files that the paths lead to, at every moment.
-/
import Verif.PropsInotify4
import Verif.KqFds
import Verif.PropsEventInfo

namespace Verif

/-! ### Linux -/

namespace Inotify

/-- The paths in the table, and the one that a running `watch` is about to put there, lead where they led before. -/
def Still (s s' : PSt) : Prop :=
  (∀ x ∈ s.k.m, s'.k.inode x.2.path = s.k.inode x.2.path) ∧ ∀ wd p e, s.caller = .added wd p e → s'.k.inode p = s.k.inode p

/-- Executions from the start of the program, with the inode that each descriptor of inotify is or was for. -/
inductive GRun (stable : Bool) : (Nat → Option Nat) → PSt → Prop
  | init (f : Path → Option Nat) (n : Nat) : GRun stable (fun _ => none) (PSt.init f n)
  | step {made : Nat → Option Nat} {s s' : PSt} {l : List Raw} : GRun stable made s → PStep s l s' → (stable = true → Still s s') →
      GRun stable (fun wd => match s'.k.watches.get? wd with | some k => some k.inode | none => made wd) s'

structure GInv (made : Nat → Option Nat) (s : PSt) : Prop where
  nodup : s.k.watches.Nodup
  kern : ∀ wd k, s.k.watches.get? wd = some k → made wd = some k.inode
  tab : ∀ x ∈ s.k.m, ∃ i, made x.1 = some i ∧ s.k.inode x.2.path = some i
  call : ∀ wd p e, s.caller = .added wd p e → ∃ i, made wd = some i ∧ s.k.inode p = some i
  fresh : ∀ wd, made wd ≠ none → wd < s.k.next

theorem GInv.same {made : Nat → Option Nat} {s s' : PSt} (h : GInv made s) (hw : ∀ wd k, s'.k.watches.get? wd = some k → s.k.watches.get? wd = some k) :
    (fun wd => match s'.k.watches.get? wd with | some k => some k.inode | none => made wd) = made := by
  funext wd
  cases hg : s'.k.watches.get? wd with
  | none => rfl
  | some k => exact (h.kern wd k (hw wd k hg)).symm

theorem GRun.inv {made : Nat → Option Nat} {s : PSt} (h : GRun true made s) : GInv made s := by
  induction h with
  | init f n => exact ⟨by simp [PSt.init], by simp [PSt.init], by simp [PSt.init], by simp [PSt.init], by simp⟩
  | @step made s s' l _ hst hstill ih =>
    have hst' := hstill rfl
    -- steps that leave the kernel's watches, the files and the table alone
    have quick : s'.k = s.k → s'.caller = s.caller →
        GInv (fun wd => match s'.k.watches.get? wd with | some k => some k.inode | none => made wd) s' := by
      intro h1 h2
      rw [ih.same (s' := s') (by rw [h1]; exact fun _ _ h => h)]
      exact ⟨by rw [h1]; exact ih.nodup, by rw [h1]; exact ih.kern, by rw [h1]; exact ih.tab, by rw [h1, h2]; exact ih.call, by rw [h1]; exact ih.fresh⟩
    cases hst with
    | change r => exact quick rfl rfl
    | read n => exact quick rfl rfl
    | hand i es => exact quick rfl rfl
    | transform i es => exact quick rfl rfl
    | send i o l => exact quick rfl rfl
    | next i => exact quick rfl rfl
    | fs k' hfs =>
      cases hfs with
      | mk f keep hkeep =>
        have hsub : ∀ wd k, GoMap.get? (s.k.watches.filter (fun p => keep p.2.inode)) wd = some k → s.k.watches.get? wd = some k :=
          fun wd k hk => ((get?_filter ih.nodup _ _ _).1 hk).1
        rw [ih.same hsub]
        refine ⟨?_, fun wd k hk => ih.kern wd k (hsub wd k hk), fun x hx => ?_, fun wd p e hc => ?_, ih.fresh⟩
        · exact (List.Sublist.map _ List.filter_sublist).nodup ih.nodup
        · obtain ⟨i, h1, h2⟩ := ih.tab x hx
          exact ⟨i, h1, (hst'.1 x hx).trans h2⟩
        · obtain ⟨i, h1, h2⟩ := ih.call wd p e hc
          exact ⟨i, h1, (hst'.2 wd p e hc).trans h2⟩
    | reorder k' hc hr =>
      cases hr with
      | mk m' hp =>
        rw [ih.same (s' := { s with k := { s.k with m := m' } }) (fun _ _ h => h)]
        exact ⟨ih.nodup, ih.kern, fun x hx => ih.tab x (hp.mem_iff.1 hx), ih.call, ih.fresh⟩
    | add p e wd k' hc ha hk =>
      unfold addWatch at hk
      split at hk
      · cases hk
      · split at hk
        · cases hk
        · rename_i ino hino
          split at hk
          · rename_i wd' hwd
            cases hk
            obtain ⟨k, h1, h2⟩ := wdOf_some ih.nodup hwd
            have hmade : (fun wd' => match ((s.k.watches.set wd ⟨ino, encode e, p⟩).get? wd') with | some k => some k.inode | none => made wd') = made := by
              funext x
              rw [GoMap.get?_set]
              by_cases hx : wd = x
              · subst hx; rw [if_pos rfl]; simp only; rw [ih.kern _ _ h1, h2]
              · rw [if_neg hx]
                cases hg : s.k.watches.get? x with
                | none => rfl
                | some k => exact (ih.kern x k hg).symm
            simp only
            rw [hmade]
            refine ⟨ih.nodup.set _ _, fun x k' hk' => ?_, ih.tab, fun wd' p' e' hc' => ?_, ih.fresh⟩
            · rw [GoMap.get?_set] at hk'
              by_cases hx : wd = x
              · subst hx; rw [if_pos rfl] at hk'; cases hk'; rw [ih.kern _ _ h1, h2]
              · rw [if_neg hx] at hk'; exact ih.kern x k' hk'
            · cases hc'
              exact ⟨ino, by rw [ih.kern _ _ h1, h2], hino⟩
          · cases hk
            have hnone : made s.k.next = none := by
              apply Classical.byContradiction
              intro hne
              exact Nat.lt_irrefl _ (ih.fresh _ hne)
            have hmade : ∀ x i, made x = some i →
                (match ((s.k.watches.set s.k.next ⟨ino, encode e, p⟩).get? x) with | some k => some k.inode | none => made x) = some i := by
              intro x i hx
              have hne : s.k.next ≠ x := by rintro rfl; rw [hnone] at hx; cases hx
              rw [GoMap.get?_set, if_neg hne]
              cases hg : s.k.watches.get? x with
              | none => exact hx
              | some k => rw [← hx]; exact (ih.kern x k hg).symm
            refine ⟨ih.nodup.set _ _, fun x k' hk' => ?_, fun x hx => ?_, fun wd' p' e' hc' => ?_, fun x hx => ?_⟩
            · simp only [hk']
            · obtain ⟨i, h1, h2⟩ := ih.tab x hx
              exact ⟨i, hmade _ _ h1, h2⟩
            · cases hc'
              exact ⟨ino, by simp [GoMap.get?_set], hino⟩
            · show x < s.k.next + 1
              by_cases hx' : s.k.next = x
              · omega
              · simp only [GoMap.get?_set, if_neg hx'] at hx
                cases hg : s.k.watches.get? x with
                | none => rw [hg] at hx; exact Nat.lt_succ_of_lt (ih.fresh x hx)
                | some k => exact Nat.lt_succ_of_lt (ih.fresh x (by rw [ih.kern x k hg]; simp))
    | table wd p e hc =>
      rw [ih.same (s' := { s with k := { s.k with m := s.k.m.set wd ⟨p, e⟩ }, caller := .idle }) (fun _ _ h => h)]
      refine ⟨ih.nodup, ih.kern, fun x hx => ?_, (fun _ _ _ h => by cases h), ih.fresh⟩
      rcases mem_set' hx with hx | rfl
      · exact ih.tab x hx
      · exact ih.call wd p e hc
    | rm p wd w l hc hf hl =>
      have hsub : ∀ x k, (s.k.watches.del wd).get? x = some k → s.k.watches.get? x = some k := by
        intro x k hk
        rw [GoMap.get?_del] at hk
        split at hk
        · cases hk
        · exact hk
      simp only
      rw [ih.same (s' := { s with k := { s.k with watches := s.k.watches.del wd } }) hsub]
      exact ⟨ih.nodup.del _, fun x k hk => ih.kern x k (hsub x k hk), ih.tab, (fun _ _ _ h => by cases h), ih.fresh⟩
    | forget wd hc =>
      rw [ih.same (s' := { s with k := { s.k with m := s.k.m.del wd }, caller := .idle }) (fun _ _ h => h)]
      exact ⟨ih.nodup, ih.kern, fun x hx => ih.tab x (mem_del' hx), (fun _ _ _ h => by cases h), ih.fresh⟩

/-- **C113, Linux, in part.**  As long as the paths that are watched lead to the same files, under every schedule of the calls and of the
goroutines of the watcher: whenever a consumer makes events (`outs`) of records that it has received, the path of every event leads to the file that the
record is about, or to an entry, with the name in the record, of the directory that it is about. -/
theorem C113_linux_partial {made : Nat → Option Nat} {s : PSt} (h : GRun true made s) {es : List Raw} {o : Out} (ho : o ∈ outs s.k.m es) :
    ∃ ino p, made o.sys.wd = some ino ∧ s.k.inode p = some ino ∧ o.info.path = at_ p o.sys.name := by
  obtain ⟨r, hr, ho⟩ := List.mem_flatMap.1 ((outs_batch _ es).mem_iff.1 ho)
  rw [outs_single] at ho
  obtain ⟨ei, hei, rfl⟩ := List.mem_map.1 ho
  obtain ⟨w, hw, -, -, hpath⟩ := C33_sound hei
  obtain ⟨ino, h1, h2⟩ := h.inv.tab _ (GoMap.mem_of_get? hw)
  exact ⟨ino, w.path, h1, h2, hpath⟩

namespace PathEx
def d : Path := [['d']]
def e : Path := [['e']]
def fs0 (p : Path) : Option Nat := if p = d then some 1 else none
/-- After `mv /d /e`. -/
def fs1 (p : Path) : Option Nat := if p = e then some 1 else none
/-- A file `f` is written in the directory. -/
def r : Raw := { wd := 1, mask := inModify, name := ['f'] }
def W : Event := inModify
def k1 : St := { inode := fs0, watches := [(1, ⟨1, encode W, d⟩)], next := 2, m := [(1, ⟨d, W⟩)] }
def made (wd : Nat) : Option Nat := if wd = 1 then some 1 else none
/-- `/d` is watched. -/
def s1 : PSt := { PSt.init fs0 2 with k := k1 }
/-- The same, and it has been renamed. -/
def s2 : PSt := { s1 with k := { k1 with inode := fs1 } }

theorem got (b : Bool) : GRun b made s1 := by
  have h := (GRun.init (stable := b) fs0 2).step (.add d W 1 _ rfl (by decide) rfl) (fun _ => ⟨fun _ _ => rfl, fun _ _ _ _ => rfl⟩)
  have h := h.step (.table 1 d W rfl) (fun _ => ⟨fun _ _ => rfl, fun _ _ _ _ => rfl⟩)
  refine cast (congrArg₂ (GRun b) (funext fun wd => ?_) rfl) h
  by_cases hw : wd = 1
  · subst hw; rfl
  · have h1 : GoMap.get? k1.watches wd = none := by simp [k1, GoMap.get?, Ne.symm hw]
    have h2 : made wd = none := if_neg hw
    show (match GoMap.get? k1.watches wd with
      | some k => some k.inode
      | none => match GoMap.get? k1.watches wd with | some k => some k.inode | none => none) = made wd
    rw [h1, h2]

theorem moved : GRun false made s2 := by
  have h := (got false).step (.fs s2.k (.mk _ fs1 (fun n => n == 1) (by
    intro n
    constructor
    · intro hn; exact ⟨e, by rw [beq_iff_eq.1 hn]; rfl⟩
    · rintro ⟨q, hq⟩
      unfold fs1 at hq
      split at hq
      · cases hq; rfl
      · cases hq))) (fun h => by cases h)
  refine cast (congrArg₂ (GRun false) (funext fun wd => ?_) rfl) h
  by_cases hw : wd = 1
  · subst hw; rfl
  · have h1 : GoMap.get? k1.watches wd = none := by simp [k1, GoMap.get?, Ne.symm hw]
    have h2 : made wd = none := if_neg hw
    show (match GoMap.get? k1.watches wd with | some k => some k.inode | none => made wd) = made wd
    rw [h1]

/-- Before the renaming the theorem applies. -/
example : ∃ ino p, made 1 = some ino ∧ fs0 p = some ino ∧ d ++ [['f']] = at_ p ['f'] :=
  C113_linux_partial (got true) (es := [r]) (o := ⟨r, mkInfo W (d ++ [['f']]) r⟩) (by decide)
end PathEx

/-- **C113, Linux, refuted.**  `/d` is watched and renamed to `/e`; what happens in it is reported under `/d`, where nothing is. -/
theorem C113_linux_refuted : ¬ ∀ (made : Nat → Option Nat) (s : PSt), GRun false made s → ∀ (es : List Raw) (o : Out), o ∈ outs s.k.m es →
    ∃ ino p, made o.sys.wd = some ino ∧ s.k.inode p = some ino ∧ o.info.path = at_ p o.sys.name := by
  intro h
  obtain ⟨ino, p, h1, h2, h3⟩ := h _ _ PathEx.moved [PathEx.r] ⟨PathEx.r, mkInfo PathEx.W (PathEx.d ++ [['f']]) PathEx.r⟩ (by decide)
  have h4 : p = PathEx.e := by
    apply Classical.byContradiction
    intro hp
    simp only [PathEx.s2, PathEx.fs1, if_neg hp] at h2
    cases h2
  subst h4
  revert h3
  decide

end Inotify

/-! ### kqueue -/

namespace KqFds

/-- Histories with the files that the paths lead to.  `stable`: watched paths lead to the same files while they are watched. -/
inductive FsHist (stable : Bool) : (Path → Option Nat) → S → Prop
  | nil (f : Path → Option Nat) : FsHist stable f {}
  | watch {f s} (p v fd) : FsHist stable f s → f p = some v → s.pth.get? p = none → s.opn.get? fd = none →
      (∀ x, s.hand = some x → x.1 ≠ fd) → FsHist stable f (watch s p v fd)
  | unwatch {f s} (p) : FsHist stable f s → FsHist stable f (unwatch s p)
  | wait {f s} (fd fl) : FsHist stable f s → FsHist stable f (wait s fd fl)
  | process {f s} : FsHist stable f s → FsHist stable f (process s)
  | fs {f s} (f' : Path → Option Nat) : FsHist stable f s → (stable = true → ∀ p, s.pth.get? p ≠ none → f' p = f p) → FsHist stable f' s

theorem FsHist.hist {stable : Bool} {f : Path → Option Nat} {s : S} (h : FsHist stable f s) : Hist false s := by
  induction h with
  | nil => exact .nil
  | watch p v fd _ _ h1 h2 h3 ih => exact .watch p v fd ih h1 h2 (fun _ => h3)
  | unwatch p _ ih => exact .unwatch p ih
  | wait fd fl _ ih => exact .wait fd fl ih
  | process _ ih => exact .process ih
  | fs _ _ _ ih => exact ih

theorem del_leads {f : Path → Option Nat} {s : S} (hi : Inv s) (h : ∀ p fd, s.pth.get? p = some fd → s.opn.get? fd = f p) {q : Path} {fd' : Nat}
    (hq : s.pth.get? q = some fd') : ∀ p fd, (del s q fd').pth.get? p = some fd → (del s q fd').opn.get? fd = f p := by
  intro p fd hp
  simp only [del, GoMap.get?_del] at hp ⊢
  split at hp
  · cases hp
  · rename_i hne
    have hfd : fd' ≠ fd := by
      rintro rfl
      have h1 := (hi.id fd' q).2 hq
      rw [(hi.id fd' p).2 hp] at h1
      cases h1
      exact hne rfl
    rw [if_neg hfd]
    exact h p fd hp

theorem FsHist.leads {f : Path → Option Nat} {s : S} (h : FsHist true f s) : ∀ p fd, s.pth.get? p = some fd → s.opn.get? fd = f p := by
  induction h with
  | nil => intro p fd hp; cases hp
  | @watch f s p v fd h0 hf hp hfd hr ih =>
    intro q fd' hq
    have hi := h0.hist.inv
    simp only [KqFds.watch, GoMap.get?_set] at hq ⊢
    split at hq
    · rename_i hpq
      cases hq
      rw [if_pos rfl, ← hpq, hf]
    · have : fd ≠ fd' := by
        rintro rfl
        have h1 := (hi.id fd q).2 hq
        rw [(hi.opn fd).1 hfd] at h1
        cases h1
      rw [if_neg this]
      exact ih q fd' hq
  | @unwatch f s q h0 ih =>
    unfold KqFds.unwatch
    cases hq : s.pth.get? q with
    | none => exact ih
    | some fd' => exact del_leads h0.hist.inv ih hq
  | @wait f s fd fl h0 ih =>
    unfold KqFds.wait
    split <;> exact ih
  | @process f s h0 ih =>
    unfold KqFds.process
    split
    · exact ih
    · split
      · exact ih
      · rename_i fd v fl _ _ p hp
        simp only
        have hi := h0.hist.inv
        split
        · exact del_leads (s := { s with hand := none, out := _ }) ⟨hi.id, hi.opn⟩ ih ((hi.id fd p).1 hp)
        · exact ih
  | @fs f s f' h0 hst ih =>
    intro p fd hp
    rw [hst rfl p (by rw [hp]; simp)]
    exact ih p fd hp

/-- **C113, kqueue, in part.**  As long as watched paths lead to the same files while they are watched, and open(2) does not return the number of the notification that is being
handled (C81): when a notification is handled, what is reported is reported for a path that leads to the file that changed. -/
theorem C113_kqueue_partial {f : Path → Option Nat} {s : S} (h : FsHist true f s) {fd v : Nat} {fl : Event} (hh : s.hand = some (fd, v, fl)) :
    ∀ x ∈ (process s).out, x ∈ s.out ∨ x.2.2 = (v, fl) ∧ f x.1 = some v := by
  intro x hx
  have hall := C81_files_partial h.process.hist x hx
  unfold process at hx
  rw [hh] at hx
  simp only at hx
  cases hp : s.id.get? fd with
  | none => rw [hp] at hx; exact .inl hx
  | some p =>
    rw [hp] at hx
    have hx' : x ∈ s.out ++ [(p, s.opn.get? fd, v, fl)] := by
      simp only at hx
      split at hx <;> exact hx
    rcases List.mem_append.1 hx' with h1 | h1
    · exact .inl h1
    · rw [List.mem_singleton] at h1
      subst h1
      refine .inr ⟨rfl, ?_⟩
      rw [← h.leads p fd ((h.hist.inv.id fd p).1 hp)]
      exact hall

/-- Before a renaming the theorem applies. -/
example : ∀ x ∈ (process (wait (watch {} Ex.a 10 5) 5 0x2)).out, x ∈ (wait (watch {} Ex.a 10 5) 5 0x2).out ∨ x.2.2 = (10, 0x2) ∧ some 10 = some 10 :=
  C113_kqueue_partial (f := fun _ => some 10) (.wait 5 0x2 (.watch Ex.a 10 5 (.nil _) rfl rfl rfl (fun _ h => by cases h))) (fd := 5) rfl

/-- **C113, kqueue, refuted.**  `/a` is watched, but not for Rename, and renamed to `/b`; a write is then reported under `/a`, where nothing is. -/
theorem C113_kqueue_refuted : ∃ f s, FsHist false f s ∧ s.out = [(Ex.a, some 10, 10, 0x2)] ∧ f Ex.a = none ∧ f Ex.b = some 10 :=
  ⟨fun p => if p = Ex.b then some 10 else none, _,
    .process (.wait 5 0x2 (.fs (fun p => if p = Ex.b then some 10 else none)
      (.watch Ex.a 10 5 (.nil (fun p => if p = Ex.a then some 10 else none)) (by decide) rfl rfl (fun _ h => by cases h)) (fun h => by cases h))),
    by decide, by decide, by decide⟩

end KqFds
end Verif
