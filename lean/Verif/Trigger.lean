/-
The watcher for kqueue (BSDs) and FEN (Solaris).

Models: /repo/watcher_trigger.go (singlewatch 151-178, decode 182-195, watch 197-218, walk 221-237, unwatch 239-253,
Watch 256-265, Unwatch 268-277, Rewatch 282-295, file 297-300, dir 302-357, singleunwatch 368-397, process 419-454),
/repo/watcher_kqueue.go (NewWatched 59-79, Record 82-84, Del 87-91, Unwatch 120-126, Watch 129-137, encode 169-187,
tables 188-201) and /repo/watcher_fen.go (encode 127-144, tables 145-161, Watched, Del).

Simplifications: a call runs alone (the mutex of `trg` is held); the native watch table of the OS is a map from paths,
which on kqueue stands for the registrations of the descriptors of the entries of `pthLkp`; `idLkp` is left out because
`Record` and `Del` always change both tables together; descriptors are numbered in the order in which they are opened and
are not reused; a notification is given by the path of the entry that belongs to it.  What the OS answers is an argument of
every function.
-/
import Verif.Watchpoint

namespace Verif
namespace Trg

/-! ### The platforms -/

/-- What the two platforms provide (watcher_trigger.go:74-85). -/
structure Native where
  P : Platform
  encode : Event → Bool → Event
  nat2not : List (Event × Event)
  nWrite : Event
  nRename : Event
  nRemove : Event
  /-- `Del` also ends the native watch: on kqueue it closes the descriptor (watcher_kqueue.go:88). -/
  delEnds : Bool
  /-- A native watch ends when a notification of it is retrieved: associations of port_associate(3C) do. -/
  oneShot : Bool

/-- kqueue: event_kqueue.go:29-50, watcher_kqueue.go:169-201. -/
def kqueue : Native where
  P := Platform.kqueue
  encode := fun e dir =>
    let o := e &^ 0x100
    let o := if (e &&& 0x100 ≠ 0 ∧ dir = true) ∨ e &&& 0x400 ≠ 0 then (o &^ 0x400) ||| 0x2 else o
    let o := if e &&& 0x800 ≠ 0 then (o &^ 0x800) ||| 0x20 else o
    let o := if e &&& 0x200 ≠ 0 then (o &^ 0x200) ||| 0x1 else o
    o
  nat2not := [(0x2, 0x400), (0x20, 0x800), (0x1, 0x200), (0x4, 0), (0x8, 0), (0x40, 0), (0x10, 0)]
  nWrite := 0x2
  nRename := 0x20
  nRemove := 0x1
  delEnds := true
  oneShot := false

/-- FEN: event_fen.go:10-45, watcher_fen.go:127-161, the flags of port_associate(3C). -/
def fen : Native where
  P := Platform.fen
  encode := fun e dir =>
    let o := e &^ 0x100
    let o := if (e &&& 0x100 ≠ 0 ∧ dir = true) ∨ e &&& 0x400 ≠ 0 then (o &^ 0x400) ||| 0x2 else o
    o &&& (~~~0x800#32 &&& ~~~0x200 &^ 0x10 &^ 0x20 &^ 0x40 &^ 0x20000000 &^ 0x40000000)
  nat2not := [(0x2, 0x400), (0x40, 0x800), (0x10, 0x200), (0x1, 0), (0x4, 0), (0x20, 0), (0x100000, 0), (0x10000000, 0),
    (0x20000000, 0), (0x40000000, 0)]
  nWrite := 0x2
  nRename := 0x40
  nRemove := 0x10
  delEnds := false
  oneShot := true

/-- One entry of the loop of `decode`. -/
def decode1 (o w : Event) (e : Event) (fn : Event × Event) : Event :=
  if o &&& fn.1 ≠ 0 then
    let e := if w &&& fn.1 ≠ 0 then e ||| fn.1 else e
    if w &&& fn.2 ≠ 0 then e ||| fn.2 else e
  else e

/-- `func decode` (watcher_trigger.go:182-195) for one order of the table. -/
def decode (tab : List (Event × Event)) (o w : Event) : Event := tab.foldl (decode1 o w) 0

/-! ### State -/

/-- `type trgWatched` (watcher_trigger.go:63-72); the path is the key in `pthLkp`. -/
structure W where
  fd : Nat
  isDir : Bool
  eDir : Event := 0
  eNonDir : Event := 0
  deriving DecidableEq, Repr

/-- All events requested for an entry. -/
def W.all (w : W) : Event := w.eDir ||| w.eNonDir

/-- What happened to descriptors. -/
inductive FdEv
  | opened (fd : Nat)
  | closed (fd : Nat)
  deriving DecidableEq, Repr

/-- `pthLkp`, the native watches, the next descriptor and the history of descriptors. -/
structure St where
  lkp : GoMap Path W := []
  nat : GoMap Path Event := []
  next : Nat := 0
  log : List FdEv := []

/-- Results: nil, errAlreadyWatched, errNotWatched, any other error and whether os.IsNotExist holds of it. -/
inductive Res
  | ok
  | already
  | notWatched
  | err (notExist : Bool)
  deriving DecidableEq, Repr

/-- Result of `syscall.Open` in `NewWatched` (watcher_kqueue.go:60-79). -/
inductive Open
  | ok
  | skip
  | err (notExist : Bool)
  deriving DecidableEq, Repr

/-- What the OS answers during one call. -/
structure Env where
  /-- `os.Stat`: is it a directory. -/
  stat : Path → Option Bool
  opn : Path → Open
  /-- Native watch and unwatch succeed. -/
  reg : Path → Bool
  unreg : Path → Bool
  /-- A native unwatch that fails returns errNotWatched, as on FEN if there is no file object (watcher_fen_cgo.go:83-86). -/
  unregNot : Path → Bool := fun _ => false
  /-- os.IsNotExist holds of the error of a native watch that fails, as it does of ENOENT of port_associate(3C). -/
  regGone : Path → Bool := fun _ => false
  /-- Names in a directory, and which are directories; or the error. -/
  list : Path → Except Bool (List (Comp × Bool))

/-- `type mode` (watcher_trigger.go:359-365). -/
inductive Mode
  | dir
  | ndir
  | both
  deriving DecidableEq, Repr

/-- `filepath.Join` with a name; `/` is `[""]`. -/
def join (p : Path) (c : Comp) : Path := if p = [[]] then [c] else p ++ [c]

variable (N : Native)

/-- `Del` (watcher_kqueue.go:87-91, watcher_fen.go). -/
def del (s : St) (p : Path) (w : W) : St :=
  { s with
    lkp := s.lkp.del p
    nat := if N.delEnds then s.nat.del p else s.nat
    log := s.log ++ [.closed w.fd] }

/-- Lines 161-169 of watcher_trigger.go. -/
def W.add (w : W) (m : Mode) (e : Event) : W :=
  match m with
  | .dir => { w with eDir := w.eDir ||| e }
  | .ndir => { w with eNonDir := w.eNonDir ||| e }
  | .both => { w with eDir := w.eDir ||| e, eNonDir := w.eNonDir ||| e }

/-- `singlewatch` (watcher_trigger.go:151-178). -/
def singlewatch (E : Env) (s : St) (p : Path) (e : Event) (m : Mode) (d : Bool) : St × Res :=
  match s.lkp.get? p with
  | none =>
    match E.opn p with
    | .skip => (s, .ok)
    | .err x => (s, .err x)
    | .ok =>
      let w := W.add { fd := s.next, isDir := d } m e
      let s := { s with next := s.next + 1, log := s.log ++ [.opened s.next] }
      if E.reg p then ({ s with lkp := s.lkp.set p w, nat := s.nat.set p (N.encode w.all d) }, .ok)
      else (s, .err (E.regGone p))
  | some w =>
    let w := w.add m e
    let s := { s with lkp := s.lkp.set p w }
    if E.reg p then ({ s with nat := s.nat.set p (N.encode w.all d) }, .already)
    else (s, .err (E.regGone p))

/-- Lines 373-380 of watcher_trigger.go. -/
def W.sub (w : W) : Mode → W
  | .dir => { w with eDir := 0 }
  | .ndir => { w with eNonDir := 0 }
  | .both => { w with eDir := 0, eNonDir := 0 }

/-- `singleunwatch` (watcher_trigger.go:368-397). -/
def singleunwatch (E : Env) (s : St) (p : Path) (m : Mode) : St × Res :=
  match s.lkp.get? p with
  | none => (s, .notWatched)
  | some w =>
    let w := w.sub m
    let s := { s with lkp := s.lkp.set p w }
    if E.unreg p then
      let s := { s with nat := s.nat.del p }
      if w.eNonDir ||| w.eDir ≠ 0 then
        let mod := if w.eNonDir ≠ 0 then Mode.ndir else Mode.dir
        match singlewatch N E s p (w.eNonDir ||| w.eDir) mod w.isDir with
        | (s, .ok) => (s, .ok)
        | (s, .already) => (s, .ok)
        | (s, r) => (s, r)
      else (del N s p w, .ok)
    else (s, if E.unregNot p then .notWatched else .err false)

/-- The loop of `walk` (watcher_trigger.go:231-235) with the state it works on. -/
def walkLoop {σ : Type} (f : σ → Comp × Bool → σ × Res) : σ → List (Comp × Bool) → σ × Res
  | s, [] => (s, .ok)
  | s, x :: l =>
    match f s x with
    | (s, .ok) => walkLoop f s l
    | (s, r) => (s, r)

/-- `walk` (watcher_trigger.go:221-237). -/
def walk {σ : Type} (E : Env) (p : Path) (f : σ → Comp × Bool → σ × Res) (s : σ) : σ × Res :=
  match E.list p with
  | .error x => (s, .err x)
  | .ok l => walkLoop f s l

/-- The callback of `watch` (watcher_trigger.go:204-212). -/
def watchKid (E : Env) (p : Path) (e : Event) (s : St) (x : Comp × Bool) : St × Res :=
  match singlewatch N E s (join p x.1) e .ndir x.2 with
  | (s, .already) => (s, .ok)
  | r => r

/-- `watch` (watcher_trigger.go:197-218). -/
def watch (E : Env) (s : St) (p : Path) (e : Event) (d : Bool) : St × Res :=
  match singlewatch N E s p e .dir d with
  | (s, .err x) => (s, .err x)
  | (s, .notWatched) => (s, .notWatched)
  | (s, _) => if d then walk E p (watchKid N E p e) s else (s, .ok)

/-- The callback of `unwatch` (watcher_trigger.go:241-247). -/
def unwatchKid (E : Env) (p : Path) (s : St) (x : Comp × Bool) : St × Res :=
  match singleunwatch N E s (join p x.1) .ndir with
  | (s, .notWatched) => (s, .ok)
  | r => r

/-- `unwatch` (watcher_trigger.go:239-253). -/
def unwatch (E : Env) (s : St) (p : Path) (d : Bool) : St × Res :=
  if d then
    match walk E p (unwatchKid N E p) s with
    | (s, .ok) => singleunwatch N E s p .dir
    | r => r
  else singleunwatch N E s p .dir

/-- `Watch` (watcher_trigger.go:256-265). -/
def Watch (E : Env) (s : St) (p : Path) (e : Event) : St × Res :=
  match E.stat p with
  | none => (s, .err true)
  | some d => watch N E s p e d

/-- `Unwatch` (watcher_trigger.go:268-277). -/
def Unwatch (E : Env) (s : St) (p : Path) : St × Res :=
  match E.stat p with
  | none => (s, .err true)
  | some d => unwatch N E s p d

/-- `Rewatch` (watcher_trigger.go:282-295): the result is nil whatever happens after Stat. -/
def Rewatch (E : Env) (s : St) (p : Path) (e : Event) : St × Res :=
  match E.stat p with
  | none => (s, .err true)
  | some d =>
    match unwatch N E s p d with
    | (s, .ok) => ((watch N E s p e d).1, .ok)
    | (s, _) => (s, .ok)

/-! ### Notifications -/

/-- `type event` (event_trigger.go:10-15). -/
structure Ev where
  path : Path
  event : Event
  isDir : Bool
  deriving DecidableEq, Repr

/-- `strings.HasPrefix(p, w.p + "/")`. -/
def below (q p : Path) : Bool := q.isPrefixOf p && q != p

/-- The loop over `pthLkp` after a directory has been renamed (watcher_trigger.go:315-329).  `keys` is the range order;
an entry is only removed when it is its turn. -/
def moved (E : Env) (p : Path) (w : W) (e : Event) : St → List Path → St × List Ev
  | s, [] => (s, [])
  | s, q :: l =>
    if below p q then
      let s := (singleunwatch N E s q .both).1
      let r := moved E p w e s l
      (r.1, (if w.all &&& (N.nRename ||| N.P.rename) ≠ 0 then
        [⟨q, w.all &&& e &^ N.P.write &^ N.nWrite, w.isDir⟩] else []) ++ r.2)
    else moved E p w e s l

/-- The callback of `dir` (watcher_trigger.go:335-348): it never returns an error. -/
def scanKid (E : Env) (p : Path) (w : W) (n : St × List Ev) (x : Comp × Bool) : (St × List Ev) × Res :=
  let q := join p x.1
  match singlewatch N E n.1 q w.eDir .ndir x.2 with
  | (s, .err true) => ((s, n.2 ++ if w.eDir &&& N.P.remove ≠ 0 then [⟨q, N.P.remove, x.2⟩] else []), .ok)
  | (s, .already) => ((s, n.2), .ok)
  | (s, .ok) => ((s, n.2 ++ if w.eDir &&& N.P.create ≠ 0 then [⟨q, N.P.create, x.2⟩] else []), .ok)
  | (s, _) => ((s, n.2), .ok)

/-- `dir` (watcher_trigger.go:302-357). -/
def dir (E : Env) (s : St) (p : Path) (w : W) (e ge : Event) : St × List Ev :=
  if ge &&& (N.nRename ||| N.nRemove) ≠ 0 then
    let ev : Ev := ⟨p, e &^ N.P.write &^ N.nWrite, true⟩
    let r := if ge &&& N.nRename ≠ 0 then moved N E p w e s s.lkp.keys else (s, [])
    (del N r.1 p w, ev :: r.2)
  else if ge &&& N.nWrite ≠ 0 then (walk E p (scanKid N E p w) (s, [])).1
  else (s, [])

/-- `Wait` (watcher_kqueue.go:140-149, watcher_fen.go:112-119) returns a notification of the entry of path `p`. -/
def retrieved (s : St) (p : Path) : St := { s with nat := if N.oneShot then s.nat.del p else s.nat }

/-- Renewal of the native watch (watcher_trigger.go:429-438). -/
def renew (E : Env) (s : St) (p : Path) (w : W) (ge : Event) : St :=
  if ge &&& (N.nRemove ||| N.nRename) = 0 then
    match E.stat p with
    | none => s
    | some d => if E.reg p then { s with nat := s.nat.set p (N.encode w.all d) } else del N s p w
  else s

/-- `process` (watcher_trigger.go:419-451) for a notification `ge` of the entry of path `p`.  The state is that after
`retrieved`. -/
def process (E : Env) (s : St) (p : Path) (ge : Event) : St × List Ev :=
  match s.lkp.get? p with
  | none => (s, [])
  | some w =>
    let e := decode N.nat2not ge w.all
    let s := renew N E s p w ge
    if e = 0 ∧ (w.isDir = false ∨ ge &&& N.nWrite = 0) then (s, [])
    else
      let r := if w.isDir then dir N E s p w e ge else (s, [⟨p, e, w.isDir⟩])
      if ge &&& (N.nRemove ||| N.nRename) ≠ 0 then (del N r.1 p w, r.2) else r

end Trg
end Verif
