# Formal model of rjeczalik/notify: design

What is modelled, how each property of `properties.jsonl` is stated and proved, what is trusted, and where model, code and
property disagree.  The first version was written before any proof; see the change log at the end.

## 1. Shape of the model

Plain Lean 4 over small total computable functions; only a few small Mathlib modules (tactics, list counting) are imported.  Modules are in `lean/Verif/`.

### Models of code

| module | models |
|---|---|
| `Event` | `Event` as `BitVec 32`, the six core constants of each platform (`event*.go`), what a platform must satisfy |
| `GoMap` | Go maps as association lists with `get?/set/del` |
| `Watchpoint` | `watchpoint.go`, `watchpoint_other.go`, `watchpoint_readdcw.go` |
| `Channel` | buffered channels and `select` with `default` |
| `PathStr`, `Canonical`, `CanonicalWin` | `util.go` on strings; string loops of `node.go`; a static file system with links; `canonical` on Windows (with C71) |
| `Node` | `node.go` |
| `Watcher` | interfaces of `watcher.go`: log of calls, oracle, the OS watches a log denotes, the contract |
| `NonRec` | `tree_nonrecursive.go` |
| `Rec` | `tree_recursive.go` |
| `Volumes` | `root` of `node.go` with volume names, and `tree_recursive.go` with it |
| `Sched`, `SchedTrees` | goroutines, the tree lock, both dispatch loops, for any schedule |
| `Scan` | `AddDir` and event handling against concurrent creation of directories |
| `Inotify` | `watcher_inotify.go` and the kernel's tables |
| `InotifyPipe`, `InotifyInit` | the goroutines of `watcher_inotify.go`; its descriptors (with C74) |
| `Fsevents` | `watcher_fsevents.go` |
| `EventString` | `Event.String` and the tables of names (with C77) |
| `FenMem`, `PropsTrigger9` | associations of `watcher_fen_cgo.go` (with C79, C80) |
| `PropsTrigger10` | C126 |
| `PropsApart` | C127 |
| `PropsNear` | C128 |
| `PropsNear2` | C129 |
| `PropsNarrow` | C130 |
| `PropsNarrow2` | C131 |
| `PropsOnce` | C132 |
| `PropsReplace` | C131 |
| `PropsOrder` | C31: any two events can be exchanged, in both trees |
| `PropsStop2` | C85: Stop of an unused channel after a failed Watch |
| `KqFds` | descriptors of `watcher_kqueue.go` between `Wait` and `process` (with C81) |
| `PropsNodes` | C82 |
| `PropsFail` | C83 |
| `KqInit` | start-up on the BSDs and Solaris, C84 |
| `StopNil` | Stop for any channel, nil included |
| `PropsStop` | C85 |
| `Close` | Close of the watchers, C86 |
| `PropsEventInfo` | what an EventInfo says, C87 |
| `PropsPanic` | panics of Watch and Stop, C88 |
| `PropsGap`, `PropsGap2` | the OS watches in the middle of calls: trees, inotify, and the gaps of the other watchers, C89 |
| `Linux` | the whole program on Linux with the kernel, as one transition system |
| `PropsLinux` | C90, C91 |
| `ScanOps` | scans interleaved with creations and with Watch, Stop and event handling elsewhere |
| `PropsScan2` | C92 |
| `PropsLinux2` | C93, C94 |
| `Mac` | the program on macOS: `Sched`, `Rec`, `Streams` and `Fsevents` in one transition system |
| `MacInv`, `MacHold`, `PropsMac` | C96 |
| `RecTidy`, `PropsLeak`, `PropsMac2` | C97: the OS watches of the recursive tree and what is left of them |
| `PropsMac3` | C98, and C89 for the whole program on macOS |
| `Win` | the whole program on Windows: tree, goroutines, watcher and completion port as one transition system |
| `WinFeed` | readdcw: handles of a directory that stays watched keep reporting to its entry |
| `WinInv` | invariant of the whole program on Windows |
| `PropsWin`, `PropsWin2` | C99, C100 |
| `TrgBook` | kqueue and FEN: bookkeeping up to entries with empty sets |
| `Bsd` | the whole program on the BSDs: tree, goroutines, watcher and kqueue as one transition system |
| `BsdFd` | kqueue: what leaves the descriptor of an entry alone |
| `PlainRun` | the non-recursive tree in the program of any platform |
| `PropsBsd` | C101, C102 |
| `PropsLinks` | C103, refutation of C36 in full |
| `PropsMacGap` | refutation of C50 in full |
| `Utf16` | Windows names: UTF-16 |
| `PropsUtf16` | C104 |
| `PropsReaddcw7` | C105 |
| `PropsReaddcw8` | C123, with `unwatch` when posting a packet fails |
| `PropsReaddcw9` | C124 |
| `PropsReaddcw10` | C125 |
| `PropsWin4` | `C99_refuted` |
| `PropsWin3` | C106 |
| `Fen` | whole program on Solaris: calls of port_associate and port_dissociate, associations, events, all goroutines |
| `FenRec` | `Fen` is `Trigger` with a record of these calls |
| `PropsFen` | C107, C108 |
| `PropsStill` | C109 |
| `PropsLive` | C110, macOS |
| `PropsMemory` | C111 |
| `PropsLost` | C112 |
| `PropsPaths` | C113 |
| `PropsPathsWin` | C113 on Windows |
| `PropsOverflow` | C116 |
| `PropsAgain` | C117 |
| `PropsClosing` | C118 |
| `PropsAlone` | C120 |
| `PropsNewFile`, `PropsNewFile2`, `PropsNewFile3` | C121 |
| `PropsNewDir`, `PropsNewDir2` | C122 (the BSDs; Solaris and illumos) |
| `PropsHandles` | C119: loading and using handles in two steps, numbers of handles, calls of CloseHandle |
| `PropsGor` | C115 |
| `PropsSound`, `PropsSound2` to `PropsSound4` | C114 |
| `ReaddcwSane` | Windows: an invariant of all executions of the watcher, failures and races included; when `loopstate` spins |
| `PropsLiveWin` | C110, Windows |
| `PropsLiveWin2` | refutation of C110 on Windows |
| `PropsLivePlain` | the non-recursive tree makes only plain calls and never panics, whatever fails |
| `PropsLiveBsd`, `PropsLiveLinux`, `PropsLiveFen`, `PropsLiveFen2` | C110, BSD, Linux and Solaris |
| `LinuxDirs` | the program on Linux with the directories at and below one path; scans read directories one by one |
| `PropsLinux3`, `PropsLinux4`, `PropsLinux5` | C95 |
| `Streams` | streams and registry of `watcher_fsevents_cgo.go` (with C76) |
| `Trigger` | `watcher_trigger.go`, `watcher_kqueue.go`, `watcher_fen.go` |
| `Readdcw` | `watcher_readdcw.go` and the kernel's handles, reads and completion queue |

### Specifications

`Spec` (registration table), `SpecRec` (OS watches against the table), `SpecInotify` (inotify(7)), `SpecTrigger` (kqueue(2),
port_associate(3C)).  Specifications for the other groups are at the head of their `Props` file.

### Lemmas and theorems

| modules | content |
|---|---|
| `NodeLemmas`, `PropsNode`, `PropsPath`, `PropsCanonical`, `PropsCleanpath` | watchpoints, path tree, strings: C21–C24, C51, C57 |
| `NonRecWP`, `NonRecHist`, `NonRecInv`, `NonRecReg`, `NonRecCover`, `NonRecEx`, `Dispatch`, `PropsNonRec`, `PropsNonRec2`, `PropsNonRec3`, `PropsScan` | non-recursive tree: C01, C03–C20, C43, C44, C55, C56, C72 |
| `RecLemmas`, `RecEff`, `RecOp`, `RecStop`, `RecStopOs`, `RecHist`, `RecView`, `RecBook`, `RecSync`, `RecEx`, `PropsRec`, `PropsRecSync`, `PropsRecFail`, `PropsVolumes` | recursive tree: C02–C08, C25–C29, C43, C45, C75 |
| `PropsApi`, `PropsChannel` | C47, C09 |
| `SchedInv`, `PropsSched`, `PropsSched2`, `PropsSched3` | C05, C30, C31, C46 |
| `PropsInotify` … `PropsInotify5` | C32–C36, C42, C68, C70, C73 |
| `PropsFsevents`, `PropsFsevents2`, `PropsFsevents3`, `PropsFsevents4` | C37–C39, C42, C48–C50, C78 |
| `PropsTrigger` … `PropsTrigger8` | C40–C42, C52–C54, C66, C67, C69 |
| `ReaddcwInv`, `ReaddcwInv2`, `ReaddcwInv3`, `ReaddcwBuf`, `PropsReaddcw` … `PropsReaddcw6` | C42, C58–C65 |

### Modelling decisions

* **Events** are 32-bit vectors, as in Go (`uint32`).  Go's `&^` is `a &&& ~~~b`; `e > eset` is the unsigned comparison.  The
  core constants (`Create … omit`) are a parameter `P : Platform`; theorems about the trees hold for every platform whose six
  core constants are distinct single bits, and each platform of the repository is shown to be one.
* **Go maps** are association lists.  A list order is one possible iteration order.  Theorems hold for every list; histories
  contain steps that reorder every map arbitrarily (every map is ranged over at most once per operation, so a reordering
  between operations gives every per-`range` order).
* **Channels** are numbers; watchpoint keys are the `nil` key (total), the internal channel, and user channels.
* **Paths** in the tree are lists of components: `/a/b` is `["a","b"]`, `""` is `[]`, `/` is `[""]`.  The string functions are
  modelled separately and proved to commute with this view (C23).
* **Nodes** are a mutual inductive `Node`/`Forest`.  Go's nodes are handles to maps; each hangs under exactly one parent and
  all mutation happens under the tree lock, so functional update is the same thing.
* **Explicit stacks** in `Walk`, `walkWatchpoint` and `AddDir` become structural recursion in the same order.
* **The OS watcher**, seen from the trees, is an oracle that knows the call history and decides whether the next call succeeds.
  A failed call is assumed to leave the OS watches unchanged (for FSEvents and Windows this assumption is itself a property:
  C49, C63).
* **Directory listings** used by `AddDir` are a finite tree of `ReadDir` answers, each possibly an error.  Each directory is
  listed at most once per traversal, so a fixed tree covers file systems that change during a traversal; `Scan` makes the
  changes explicit.
* **Errors** are values; **panics** are an explicit result where the code has them.
* **Concurrency**: transition systems with program counters, any number of goroutines, any schedule.  `Sched` merges
  statements between which no other goroutine can interfere.
* **inotify**: the kernel is a map inode → (descriptor, mask) with descriptors that are not used again; the byte buffer is little
  endian.
* **FSEvents**: batches are arguments; `stream.Start` may fail at any call.
* **kqueue/FEN**: one call runs at a time; descriptors are numbered in order of opening; what the OS answers is an argument. On FEN `nat` is
  the latest association of a path; `retrieved` ends it when a notification of it is returned by port_get(3C). `KqFds` and `FenMem` drop these simplifications, for one entry per call.
* **Windows**: methods that hold the lock are one step; the completion loop makes three steps.  `Ans` says what the kernel answers
  to each call of a method; `early` is a completion that arrives before `ovlapped.parent` is set; `gone` is a packet whose
  structure has been dropped.

## 2. Properties: plan and outcome

*proved* = full statement.  *partial* = the English property is false of the code or only part is proved; where it is false the
negation is proved for a concrete witness (`_refuted`) and what does hold is proved (suffix `_partial`).  Beside every theorem
is an `example` that meets its hypotheses.

### C01 Delivery is exact on platforms without native recursion (inotify, kqueue, FEN) — *proved*

`Spec.Reg` is a table channel × path → (set, recursive). It is updated by API operations only. By induction over histories (`NonRecHist`, `NonRecReg`) the users' entries of the tree equal the table; then dispatch sends exactly the multiset that the table gives.

Theorems: `NonRec.C01_delivery_exact`.

Note: every history of Watch/Stop/creation/removal, any oracle, any map order; for each channel of which no non-recursive Watch failed (see C10)

### C02 Delivery is exact on platforms with native recursion (FSEvents, ReadDirectoryChangesW) — *partial*

Same table, against `Rec` (`RecHist`, `RecOp`); what the OS calls return does not matter for delivery.

Theorems: `Rec.C02_delivery_exact`, `Rec.C03_refuted_windows`.

Note: proved for all events except the raw FileAction events of Windows, for which it is false (witness)

### C03 A channel never receives an event it did not ask for, and internal channels never leak — *partial*

For arbitrary tree states: a send requires the event to be contained in the set of a user key; the internal channel only gets events with the internal bits.

Theorems: `NonRec.C03_only_requested`, `Rec.C03_only_requested`, `Rec.C03_refuted_windows`.

Note: proved on every tree state of both trees for all events except the raw FileAction events of Windows, for which it is false (witness)

### C04 Stop silences the channel — *proved*

After Stop the channel is in no watchpoint; no operation of other channels puts it back; a channel in no watchpoint is sent nothing.

Theorems: `NonRec.C04_stop_silences`, `Rec.C04_stop_silences`.

Note: both trees

### C05 When Stop returns, c receives no more signals, under every goroutine schedule — *proved*

Transition system `Sched`: invariant that a goroutine which has picked a receiver holds the read lock, so that Stop (write lock) cannot return in between.

Theorems: `Sched.C05_nonrec`, `Sched.C05_rec`.

Note: transition system with any number of goroutines, any schedule, both policies of the lock

### C06 Stop of one channel does not change what other channels are sent — *proved*

Effect of Stop at every path, with the table of C01/C02.

Theorems: `NonRec.C06_stop_frame`, `Rec.C06_stop_frame`.

Note: both trees

### C07 Watch only expands, and repeating a Watch changes nothing — *partial*

Effect of Watch at every path. The recursive tree: a repeated Watch makes no call and changes nothing if OS watches mirror the tree.

Theorems: `NonRec.C07_watch_expands`, `NonRec.C07_repeat_noop`, `Rec.C07_watch_expands`, `Rec.C07_repeat_partial`, `Rec.C07_repeat_refuted`.

Note: proved on the non-recursive tree; on the recursive tree repeating a Watch is a no-op after harmless histories and not in general (witness)

### C08 Watch with an empty event list is a no-op and a nil channel is rejected before any effect — *proved*

The entry points with an empty list or a nil channel: tree, log of OS calls and channel table are unchanged, for every path.

Theorems: `NonRec.C08_empty_list`, `Rec.C08_empty_list`.

Note: both trees

### C09 Delivery never blocks and drops only when the channel buffer is full — *proved*

Channels are bounded buffers with blocked receivers (`Channel`). Every send of a dispatch either adds to the buffer, hands over to a receiver, or drops the event because the buffer is full.

Theorems: `C09_deliver`, `C09_room`.

Note: for every tree state and every state of the channels; the recursive tree sends to the same list (Verif.Rec.sends = Verif.NonRec.sends, used by C01); that a send attempt is always possible is part of C30

### C10 A failed Watch leaves no trace — *partial*

Refuted by two witnesses; what a failed non-recursive Watch leaves is characterised exactly.

Theorems: `NonRec.C10_failed_watch_partial`, `NonRec.C10_refuted_plain`, `NonRec.C10_refuted_rec`.

Note: false as stated: the two _refuted theorems have the witnesses; the partial theorem says exactly what a failed non-recursive Watch leaves

### C100 Windows, whole program: a change is not signalled twice because two handles report it — *partial*

`WRun.clear`: a path without entry that is not asked for gets no entry, and a read always belongs to an entry; the refutation is an execution of 40 steps.

Theorems: `Win.C100_once_partial`, `Win.C100_refuted`.

Note: False of the code: Watch(/a/..., c1), Stop(c1), Watch(/a/b, c2), and a file created in /a/b is signalled to c2 twice, because Stop leaves the handles of /a open (`C100_refuted`). Proved: if everything unwatched is gone from the watcher's table, one directory only reports and the event is signalled once per record and registration. Missing: directories that are unwatched and still report.

### C101 BSDs, whole program: a change of a watched file is signalled — *partial*

`J` ties the watcher's table to the calls the tree has made (`Trg.Drives`), at every step. `Track`: descriptor and set of the file stay the same, pending flags tell the event. `Count`: signals made and due = copies × notifications processed; notifications in hand, pending and processed are at most the changes, and at least one if there was one.

Theorems: `Bsd.C101_bsd_partial`, `Bsd.C101_again_partial`, `Bsd.C101_refuted`, `Bsd.C101_parts`.

Note: False of the code: if another channel's Watch extends the watch of the file or its directory while a notification is pending, the watcher closes and reopens the descriptor and the change is lost (`C101_refuted`). Proved in full as long as other channels' operations make no call of the watcher for the file or its directory, for files without removals and renamings, whose changes tell no other event that is asked for (C42).

### C102 BSDs, whole program: when every channel is stopped nothing is left open — *partial*

The invariant of C101 with `C66_any_partial` and C13.

Theorems: `Bsd.C102_left_partial`, `Bsd.C102_refuted`.

Note: False of the code: files in subdirectories of a watched directory are opened when something changes there, and stay open (`C102_refuted`, see C66). Proved: nothing else is left, and for these files the kernel was asked to report nothing.

### C103 Linux: a file or directory watched under several names — *partial*

`holder` replays the calls of the log on inodes; the watcher's table agrees with it after every call (`LinkRuns.held`), with the invariant of C35.

Theorems: `Inotify.C103_last_name_partial`, `Inotify.C103_refuted`.

Note: False of the code: the watcher keeps one path per kernel watch, so after a second name of the same inode is watched the channels of the first are told nothing (`C103_refuted`), and its Unwatch fails. Proved: for every inode, exactly which name and set are in force after any calls, under which paths its events are reported, and which Unwatch calls succeed.

### C104 Windows: names are reported as they are — *partial*

Round trips between the library's encoder and decoder and a relation written from the Unicode standard (`Form`); composed with C64.

Theorems: `Utf16.C104_text`, `Utf16.C104_watched`, `Utf16.C104_any_partial`, `Utf16.C104_refuted`, `Utf16.C104_watched_refuted`.

Note: Proved for all names and paths that are Unicode text, and since Go 1.21 for all names. False up to Go 1.20 for names with unpaired surrogates (`C104_refuted`), and for watched paths that are no UTF-8: their entry stays in the table after Unwatch (`C104_watched_refuted`).

### C105 Windows: a directory that is no longer watched stops reporting — *partial*

Counting: reports so far and reads outstanding are at most handles, packets handled and the packet in the hand of the loop.

Theorems: `Dcw.C105_silent_partial`, `Dcw.C105_any_partial`, `Dcw.C105_tight`, `Dcw.C105_refuted`.

Note: False in general: after the race of C61 there are more reads than handles, and five reports (`C105_refuted`). Proved for the executions of C60 to C62 (calls that follow the contract, nothing fails but opening a directory, the directory exists). The bound is reached (`C105_tight`). Without an event the handles stay open for ever (`C60_unwatch_refuted`).

### C106 Windows, whole program: when every channel is stopped the watcher comes to rest — *partial*

C97's argument for the tree gives that the watcher is asked for nothing; then C105 for each directory, at any time.

Theorems: `Win.C106_windows_rest_partial`, `Win.C106_total_partial`, `Win.C106_refuted`.

Note: That no handle is open is false: `Stop` leaves them until the directory changes (`C106_refuted`). The rest is proved for executions with operations harmless as in C26 and without the races and failures of C60-C62. Missing: these.

### C107 Solaris, whole program: a change of a watched file is signalled — *partial*

Invariant: what was asked for last for a path is still associated, or its event has not been handled (`Tok`); then counting as in C101, with a lower bound only. The refutation is an induction over the changes of the directory.

Theorems: `Fen.C107_fen_partial`, `Fen.C107_again_partial`, `Fen.C107_parts`, `Fen.C107_refuted`, `Fen.C107_lost_refuted`.

Note: False of the code in two ways: after m changes of its directory one change of a file is signalled m+1 times, for every m (`C107_refuted`), and a change is lost while a notification of another kind is on its way (`C107_lost_refuted`). Proved: if the changes mean one requested event, there is at least one notification after each change and none without one, and the signals are those of whole notifications; while the files stay, no call fails, and others do not make the tree call the watcher for the file or its directory. Missing: such calls, failures, changes of the set of files.

### C108 Solaris, whole program: when every channel is stopped nothing is left — *partial*

C66 and C13 through the invariant of C107; the counterexample is computed.

Theorems: `Fen.C108_left_partial`, `Fen.C108_refuted`.

Note: False of the code: an association is left (`C108_refuted`). Proved: the table is empty, or has entries with empty sets only, while the files stay and no call fails. Missing: failures, changes of the set of files.

### C109 Calls alone cause no events — *partial*

Invariant: nothing is on its way. On Windows queue and requests correspond, so a completion is of a stopped watch; on FSEvents each watch whose history is over had a marker (`Past`); on Solaris the times kept are those of the file (`Fresh`). The counterexample is one execution, step by step.

Theorems: `Linux.C109_linux`, `Bsd.C109_bsd`, `Win.C109_windows`, `Mac.C109_mac`, `Fen.C109_solaris_partial`, `Fen.C109_watch_partial`, `Fen.C109_solaris_refuted`.

Note: Proved in full for Linux (records that a watch was ended may come), BSD, Windows and FSEvents. False on Solaris: Stop of one channel signals another a Write that it had got before (`C109_solaris_refuted`). Proved there: if no file that changed is watched, and for executions in which the watcher is only asked to watch more. Accesses that the library itself makes to directories and files count as changes.

### C11 OS watches mirror the registrations (non-recursive tree) — *proved*

Invariant over histories (`NonRecInv`): the table denoted by the log of OS calls has, for each path, exactly the total of its watchpoint without internal bits.

Theorems: `NonRec.C11_os_mirror`.

Note: calls whose failure the code ignores are assumed to succeed

### C110 Every call returns and every report is handled — *partial*

Progress from the invariants of the scheduler (one lock, who holds it, who waits) and of the watcher; termination by a lexicographic measure over what lies in callback, channels and calls (on Solaris a multiset of numbers that are less for what is deeper in the tree of files); draining by running an operation against an oracle that answers as the watcher will.

Theorems: `Mac.C110_mac`, `Linux.C110_linux`, `Bsd.C110_bsd`, `Fen.C110_solaris`, `Fen.C110_solaris_partial`, `Win.C110_windows_partial`, `Win.C110_windows_refuted`, `Win.C110_loopstate`.

Note: Proved for FSEvents with the recursive tree: progress, no infinite execution without calls and reports, and draining; the outcomes of the watcher are guessed when an operation begins, so progress is up to a wrong guess, while draining chooses the right one. A Watch may panic instead of returning (C31). Proved likewise, without panics, for Linux and for BSD. False on Windows: the loop may spin for ever when the second handle of a directory cannot be opened again after a change of the set; proved: this is the only way in which it goes on for ever, progress, draining, and that loopstate does not panic. Proved for Solaris given a bound on the depth of directories (PATH_MAX); there Unwatch and Rewatch make the kernel notify, which may make the tree call them again, but only deeper in the tree. Without the bound (_partial): progress, no panic, draining of everything but the kernel's queue, and that an endless execution retrieves notifications and calls Unwatch or Rewatch again and again.

### C111 The watchers keep nothing in memory about what is gone — *partial*

Exact keys of `prev` by induction over the reports; the two leaks by induction over rounds of calls.

Theorems: `Fsevents.C111_prev`, `Fsevents.C111_prev_refuted`, `Inotify.C111_table_partial`, `Inotify.C111_table_refuted`, `Streams.C111_objects_refuted`.

Note: False of FSEvents: a watch keeps a name for every file that was ever created or removed below it (C111_prev has exactly which), and each stream leaks its Core Foundation objects. False of inotify: a file that is replaced while it is watched and then watched for more leaves an entry for ever; proved as long as watched paths lead to the same inodes. For kqueue and FEN see C66, C79 and C102, for Windows C106.

### C112 Linux, whole program: every directory that appears below a recursive watch is signalled as Create — *partial*

The appearance is one step of the execution; its parent has the kernel watch of C95 at that moment, so the record is queued, and the count of C93 gives the signal. The refutation is an execution of 35 steps.

Theorems: `Linux.C112_linux_created_partial`, `Linux.C112_linux_created_refuted`.

Note: False of the code: `mkdir /d/s; mkdir /d/s/t` gives no Create for /d/s/t if the second directory is made before the watch of the first is set up; the scan that follows the event of /d/s finds /d/s/t and watches it, but sends no event (`C112_linux_created_refuted`, an execution of the whole program). Proved: between two moments at which all events have been handled, every directory that appears in a directory that was there at the first moment is signalled. Other entries than directories are not in the model of the file system here; for them the same follows from C95.

### C113 The path of an event leads to the file that changed — *partial*

Invariant: the path of every entry of the table leads to the file that the descriptor is or was for; descriptors of inotify are never used again, those of kqueue belong to one entry (C81). On Windows: the handle of a grip and of an outstanding read is for the directory that the grip's path leads to, and grips keep their paths.

Theorems: `Inotify.C113_linux_partial`, `Inotify.C113_linux_refuted`, `KqFds.C113_kqueue_partial`, `KqFds.C113_kqueue_refuted`, `Dcw.C113_windows_partial`, `Dcw.C113_windows_refuted`.

Note: False of the code: a watched directory that is renamed goes on being reported under its old name on Linux (`C113_linux_refuted`), and so does a watched file on BSD if Rename was not asked for (`C113_kqueue_refuted`), and a directory on Windows (`C113_windows_refuted`). Proved for as long as watched paths lead to the same files. The path is compared with the files at the moment when the event is made, not when the change happened (on Windows, when the kernel reports the change). Solaris is not covered; FSEvents gets paths from the system.

### C114 Nothing is signalled that was not asked for and did not happen — *partial*

Invariants: the tree has no entry beyond the table of requests (`Within`), it is the tree of the operations that began (`Tied`), and everything on its way from kernel to dispatch has a reason (`SInv`, `Carries`).

Theorems: `Sched.C114_plain`, `Sched.C114_rec`, `Linux.C114_linux`, `Mac.C114_macos`, `Bsd.C114_bsd`, `Fen.C114_fen`, `Win.C114_windows_partial`, `Sched.C114_windows_refuted`.

Note: Proved in full for Linux, macOS, BSD and Solaris: both parts, all executions from the start of the program, whatever fails. On Windows part 2 is proved for all events and part 1 for Create, Remove, Write and Rename; for FileAction events part 1 is false: a channel that watches /a is signalled changes of /a/b/f if another one watches /a/... (`C114_windows_refuted`), and proved is that the channel watches something for the path or above it. A Watch that fails counts as asked for (C10). On BSD and Solaris Create and Remove of an entry may follow any write to the directory: these two are guesses of the package, not of the kernel. C114_plain and C114_rec are about any watcher.

### C115 The number of goroutines is bounded — *partial*

Induction over executions (count); a family of executions with n reports during one Stop (refutation).

Theorems: `Sched.C115_refuted_plain`, `Sched.C115_refuted_rec`, `Sched.C115_count_partial`, `Sched.C115_moves_partial`.

Note: The bound is refuted for both trees: while one call of Stop or Watch holds the lock, every event that arrives adds a goroutine, so that there is an execution with more than n of them for every n. Proved: the events reported are exactly those not sent yet, those in the channel, those whose goroutine is alive and those whose goroutine ended; and while no Watch, no Stop and no internal work is under way and `rec` has room, every goroutine of the dispatch can go on. That they also end is C110.

### C116 Users are told when the OS says that it lost notifications — *partial*

From the invariants of C114 (every signal has a record with an event), with executions as witnesses; for FSEvents by cases of `strip`.

Theorems: `Linux.C116_linux_refuted`, `Linux.C116_linux_silent`, `Win.C116_windows_refuted`, `Win.C116_windows_silent`, `Fsevents.C116_fsevents_refuted`, `Fsevents.C116_fsevents_unasked`, `Fsevents.C116_fsevents_partial`.

Note: False on Linux and Windows in every execution: such records cause no signal at all and no directory is scanned again (`C116_linux_silent`, `C116_windows_silent`). False of FSEvents for watches that did not ask for one of the three flags (`C116_fsevents_unasked`: the notification is dropped with all its other flags), and, though asked for, if the path reported lies above the watched one (`C116_fsevents_refuted`). Proved: an FSEvents watch that asked for the flag tells it for every path that it watches. kqueue and FEN have no such notification.

### C117 Watching again makes up for what was missed — *partial*

Induction over histories: a path at and above which no channel is left has an empty watchpoint (`clean_at`); then C15, and for the calls an invariant of the scan (`addDir_begun`). Executions as witnesses.

Theorems: `NonRec.C117_again_refuted`, `NonRec.C117_more_refuted`, `NonRec.C117_other_refuted`, `Linux.C117_linux_refuted`, `NonRec.C117_covers_partial`, `NonRec.C117_asked_partial`.

Note: False of the code: a repeated Watch reads no directory (`C117_again_refuted`, `C117_linux_refuted`), one that asks for more visits only directories that are known (`C117_more_refuted`), and Stop before it does not help while another channel watches the directory, even not recursively (`C117_other_refuted`). Proved: if every channel with a Watch at the path or above has been stopped since, the Watch covers everything that it finds; and if those below have been stopped as well, it asks the OS for each directory anew, whatever failed before. Assumes for the first that calls whose failure the code ignores succeed.

### C118 A channel may be closed once it is stopped — *partial*

From C05 in its general form: identifiers of calls are used once, so the effect of every Watch is before that of the Stop (`no_watch_after`). Executions as witnesses for failed calls.

Theorems: `Sched.C118_stopped_nonrec`, `Sched.C118_stopped_rec`, `Sched.C118_failed_refuted_nonrec`, `Sched.C118_failed_refuted_rec`, `Sched.C118_failed_partial`.

Note: Closing after Stop: proved for both trees. Closing because every Watch returned an error: false of the code on both trees (a refused extension leaves the channel registered for what the OS watches already, and it is sent events); proved on the non-recursive tree if all these Watch calls were recursive.

### C119 Windows: reads and closes are of the watcher's own open handles — *partial*

`readDirChanges` of the loop is split into load and call, and handles have numbers; the invariant of C113 on Windows is kept, and what is loaded is for the grip's directory. For closing, the calls of CloseHandle are collected function by function; the invariant: no two grips have the same handle, closed handles are none of those in slots.

Theorems: `Dcw.C119_reads_partial`, `Dcw.C119_reads_refuted`, `Dcw.C119_closes_partial`, `Dcw.C119_closes_refuted`.

Note: False of the code as stated. Reads: the loop loads the handle and then calls ReadDirectoryChangesW without the lock; if a caller changes the set for the directory in between, so that the handle is closed, and another directory is watched whose handle gets the same number, the loop reads from the other directory for the first (`C119_reads_refuted`). Closing: if CreateIoCompletionPort fails for a handle that the loop opens after a rewatch, `register` closes the handle and `updateGrip` closes it again (`C119_closes_refuted`). Proved: every outstanding read is on a handle of the directory that the path of its grip leads to, if the system never gives a number twice; no handle is closed twice if CreateIoCompletionPort succeeds for handles that the loop opens (watch may fail anywhere). Simplified: names lead to the same directories all the time (renames are C113); handles that are never closed are C63; CloseHandle and the CompareAndSwap after it are one step; Close is not in this model.

### C12 The OS watcher is driven according to its contract (non-recursive tree) — *proved*

Each call in the log obeys the contract of `watcher.go` (Watch only on unwatched paths, Rewatch with the true old set, Unwatch only on watched paths).

Theorems: `NonRec.C12_contract`.

Note: Calls whose failure the code ignores are assumed to succeed.

### C120 What a channel is sent depends on the calls with this channel only — *partial*

The column of the channel in the table of registrations is computed from what concerns the channel alone; by the refinement behind C01 and C02 the tree stores this column; what is sent to the channel depends on it only.

Theorems: `NonRec.C120_alone_partial`, `Rec.C120_alone_partial`, `Rec.C120_trees_partial`, `NonRec.C120_since_stop`, `Rec.C120_since_stop`, `NonRec.C120_refuted`, `Rec.C120_refuted`.

Note: False of the code if a Watch with the channel returns an error: what the channel keeps depends on what others have registered at the path, on both trees (`C120_refuted`). Proved for both trees and all events if no plain Watch with the channel (recursive tree: no Watch with it) returned an error; calls with other channels may fail. `C120_trees_partial`: both trees send the same. `C120_since_stop`: what happened before the channel's last Stop does not matter, not even failed calls with it. The theorems are about the sequence of operations on the tree; that concurrent executions are such sequences is C46. What the OS reports to the tree may depend on other channels (C42).

### C121 BSDs and Solaris: a new file in a directory watched for Create is signalled, whatever other calls are made meanwhile — *partial*

Invariant: the directory is in the table with Create, the entry is not. Every call for another path and every notification keeps it or sends the Create; reading the directory with the entry in it sends the Create. For the whole program: in addition the registration and the descriptor of the directory stay, so that the notification is not lost; after the Create was sent, the signals due are counted as in C101.

Theorems: `Bsd.C121_bsd_partial`, `Fen.C121_fen_partial`, `Trg.C121_trg_partial`, `Bsd.C121_refuted`, `Bsd.C121_above_refuted`, `Fen.C121_fen_refuted`.

Note: False of the code (`C121_bsd` is the full statement): if another channel calls Watch with the new file before the watcher reads the directory, the file is in the watcher's table and its creation is signalled to nobody (`C121_refuted`); if another channel ends a watch of the directory above, the notification is discarded (`C121_above_refuted`); both are executions of the whole program on the BSDs. Proved for the whole program on the BSDs (`C121_bsd_partial`) if the tree does not call the watcher for the directory or the file, nor ends or changes a watch of the directory above; removals and renamings are excluded. For the watcher alone (`C121_trg_partial`), with kqueue and FEN: any calls for paths other than the directory and the file, any notifications and any answers of the OS, as long as the directory and those above it are not removed or renamed. On Solaris and illumos the whole-program theorem (`C121_fen_partial`) asks in addition that what happens to the directory meanwhile are changes of its contents: a change of its attributes ends the association, and a file that appears before the watcher makes another one is signalled to nobody, although nobody calls anything (`C121_fen_refuted`).

### C122 BSDs, Solaris and illumos: a directory that appears below a recursive watch is followed up, whatever other calls are made meanwhile — *partial*

The invariant of C121 until the directory is read. Then the event is in one of the buffers, with a dispatch goroutine, or with the internal goroutine: no goroutine drops it, as the tree has the recursive registration above it.

Theorems: `Bsd.C122_bsd_partial`, `Bsd.C122_refuted`, `Bsd.C122_unwatched`, `Fen.C122_fen_partial`, `Fen.C122_fen_refuted`.

Note: False of the code (`C122_bsd`, `C122_fen` are the full statements): if another channel calls Watch with the new directory before the watcher reads the directory it is in, the watcher has it in its table and reports no Create (`C122_refuted`); the channel is registered recursively above it and the new directory is not watched for its events (`C122_unwatched`). Both are about one execution of the whole program on the BSDs; `C122_fen_refuted` is the same on Solaris and illumos. Proved (`C122_bsd_partial`, `C122_fen_partial`) if, from the moment on, the tree does not call the watcher for the directory or the new one, nor ends or changes a watch of the directory above: the creation is with the internal goroutine or was followed up. On Solaris and illumos each change of the directory in this time is also taken to be one of its contents. Removals and renamings are excluded. What following up does is C17 and C44.

### C123 Windows: a call of the watcher that returns an error leaves the watches as they were — *partial*

The invariant of C60 to C63: closing a handle never fails, so that a Rewatch only fails before it has changed anything; a failed Watch has changed nothing but the memory of its own new entry. Unwatch is computed with the number of packets posted as a parameter.

Theorems: `Dcw.C123_partial`, `Dcw.C123_refuted`, `Dcw.C123_two_reads`.

Note: False of Unwatch for a directory that is gone: it posts a packet for each handle, and if the second cannot be posted it returns an error while the first is in the queue (`C123_refuted`); the loop takes it for a completed read and reads again, so that two reads are outstanding with one OVERLAPPED structure (`C123_two_reads`). Proved of everything else: a Watch that fails because a directory cannot be opened (also if only the second handle cannot), every Rewatch, and an Unwatch whose first packet cannot be posted change nothing; otherwise there is one packet more and nothing else. A Watch whose first read is refused is C63.

### C124 Windows: Unwatch of a directory that is gone releases it without a report of the kernel — *proved*

An invariant from the Unwatch on, kept by each function of the watcher working on any other entry: the counter of the entry is at most the number of packets of its handles in the queue and with the loop, or everything is released. Packets that an earlier entry of the same directory left may only take the directory out of the table too early.

Theorems: `Dcw.C124_released`.

Note: For all states of C60 to C62 and all executions from the Unwatch on in which no call is for the same directory (a Watch of it meanwhile is C60); other directories may be watched, changed and ended in any way, with any failures. That the loop comes to rest is C106.

### C125 Windows: what is done for one directory leaves the others alone — *proved*

An invariant of all executions (a handle belongs to one grip, a grip to one entry, an entry in the table to its path), carried together with what is to stay the same through each function of the watcher.

Theorems: `Dcw.C125_isolated`, `Dcw.C125_loop`.

Note: For all executions, also those with the races and failures of C60 to C62. The model gives every handle a new number; what follows when the system uses a number again is C119.

### C126 kqueue and FEN: what is done for one path leaves the other watched paths alone — *partial*

Each function keeps a predicate that the single steps for the path and for the entries of its directory keep; by cases on the steps for the path itself.

Theorems: `Trg.C126_far`, `Trg.C126_requests`, `Trg.C126_viaDir`, `Trg.C126_native_partial`, `Trg.C126_run_partial`, `Trg.C126_refuted`.

Note: False of native watches: Unwatch of a directory ends the native watch of a file in it that is watched by itself and makes it again, and if that fails the file is not watched any more (C126_refuted). Proved for all states and failures: paths elsewhere keep entry and native watch (C126_far), what is asked for any other path stays (C126_requests, C126_viaDir); and the native watch stays if the system does register the path again (C126_native_partial, with executions C126_run_partial).

### C127 Linux and macOS: a call of the watcher for one path leaves the other watched paths alone — *proved*

Linux: the invariant of C35 (descriptors in use are below the next one, one per file) and by cases on the calls; macOS: by cases on the calls.

Theorems: `Inotify.C127_linux`, `Inotify.C127_events`, `Fsevents.C127_macos`, `Inotify.C127_links_refuted`.

Note: Proved as stated. That it needs the paths on Linux to lead to different files is C127_links_refuted: two names of one file share a descriptor (C103).

### C128 Watch asks the OS only about its own path, what is below it, or the watch above that covers it — *proved*

Every node of the tree carries its own path (the invariants of C01 and C02, which hold whatever fails), so the walks call the OS only for paths at or below the node they start from; for native recursion by the three cases of Watch.

Theorems: `NonRec.C128_watch`, `NonRec.C128_internal`, `NonRec.C128_os`, `Rec.C128_native`, `Rec.C128_native_os`.

Note: Proved as stated.

### C129 Stop asks the OS only about watches that cover a path of its channel — *partial*

Without native recursion: a node with neither an entry of the channel nor an internal set keeps its total, and by the invariant `Plain` of C10 only paths that a recursive Watch reaches have an internal set. With it, walk of Stop: a node that has no entry of the channel in its two watchpoints yields the empty difference, so no call; an entry of the inactive watchpoint comes from a path below (`Book`, which holds whatever happens if all Watches succeed).

Theorems: `NonRec.C129_stop_partial`, `NonRec.C129_os_partial`, `NonRec.C129_widens_refuted`, `Rec.C129_stop_partial`, `Rec.C129_os_partial`, `Rec.C85_honest_partial`, `Rec.C129_refuted`.

Note: False without native recursion below recursively watched directories: Stop of a channel that was never used can ask the OS to watch more events on the directory of another recursive watch, with no failure in the history (C129_widens_refuted). Proved for every history that the calls are for paths on which the channel is registered or that a recursive Watch of some channel reaches (NonRec.C129_stop_partial, NonRec.C129_os_partial). With native recursion false after a Watch that failed: Stop of a channel that was never used calls Unwatch (Rec.C129_refuted); proved for every history in which every Watch succeeded and the OS watcher answered truthfully about the watches it has (`Honest`), whatever the OS answers during the Stop; it covers histories that are not harmless, for which C26 fails.

### C13 When the last channel is stopped no OS watch remains (non-recursive tree) — *proved*

From C11 and "no user entry implies no total".

Theorems: `NonRec.C13_all_stopped`.

Note: Calls whose failure the code ignores are assumed to succeed.

### C130 Stop never asks the OS for more events — *partial*

The total after the removal of a channel is the union of what is left, which the stored total has (invariant RW, which holds whatever fails); walk over the tree.

Theorems: `Rec.C130_native`, `NonRec.C130_stop_partial`, `NonRec.C130_refuted`.

Note: Proved with native recursion for every history, also with failures. False without it, with no failure in the history: below a recursively watched directory Stop can call Rewatch with a larger set (C130_refuted, the history of C129_widens_refuted). There it is proved for all paths that no recursive Watch reached (C130_stop_partial). The old and new sets compared are the arguments of the call.

### C131 Watch takes no events from OS watches that other channels use — *partial*

Adding a set to a watchpoint adds it to the total, so every difference passed to the OS is widening; walks as in C128.

Theorems: `NonRec.C131_watch`, `NonRec.C131_appears`, `Rec.C131_native_partial`, `Rec.C131_replace_partial`.

Note: Proved without native recursion. With it proved for every call that is not for the path of the Watch and paths below it only, so for the watch above that covers the path. After a harmless history, a harmless Watch that succeeds leaves every OS watch in place with its events, or replaces it by one of its path with these events and its own (C131_replace_partial). Missing: this for harmful histories and for Watches that fail; C89_rec_between and C89_rec_partial are about what the OS reports in the meantime.

### C132 A Watch that the OS watch covers makes no call, others one call for the union — *partial*

The stored total of a node is what the OS watches there (the invariants of C01 and C25); the difference that `Add` returns, computed from it.

Theorems: `NonRec.C132_watch`, `Rec.C132_native_partial`, `Rec.C132_first_partial`.

Note: Proved without native recursion for histories in which the calls whose failure the code ignores succeed. With native recursion proved after harmless histories (C132_native_partial; C132_first_partial for the first Watch); missing the others, after which the sets in the tree are not those of the OS (C26). That a recursive Watch covered by an OS watch that is not recursive makes no call is part of the statement; it is why such a Watch misses changes (C27).

### C14 A registration is backed by an OS watch as long as it lives (non-recursive tree) — *proved*

From C11: a registered set is contained in the OS set of its path.

Theorems: `NonRec.C14_backed`.

Note: Calls whose failure the code ignores are assumed to succeed.

### C15 A successful recursive Watch covers every existing subdirectory (non-recursive tree) — *partial*

Post-condition of `AddDir` over any listing tree; refuted for the retry after a failure; C44 is the invariant form.

Theorems: `NonRec.C15_covers_partial`, `NonRec.C15_refuted`.

Note: false as stated after a failed recursive Watch on the same path (witness); C44 has the statement for histories without failed listings

### C16 Recursive coverage survives the activity of other channels (non-recursive tree) — *partial*

Invariant `Cov`: every node between the recursive watchpoint and the directory has an internal set containing the events.

Theorems: `NonRec.C16_survives_partial`, `NonRec.C16_refuted`.

Note: false as stated after failed recursive Watches (witness); proved for histories without failed listings

### C17 A new directory below recursive watchpoints is watched for everything they need (non-recursive tree) — *partial*

Refuted with two kinds of witness; holds for histories in which each creation is handled before the next step.

Theorems: `NonRec.C17_new_dir_partial`, `NonRec.C17_refuted`, `NonRec.C17_refuted_pending`.

Note: false after a failed recursive Watch (C17_refuted), and without any failure if a scan overtakes pending events below nested recursive watches (C17_refuted_pending); proved for histories in which each creation is handled before the next step

### C18 No directory is missed, however creation interleaves with the recursive scan — *proved*

Transition system `Scan`: creations interleave with the scan of Watch, scans of the internal goroutine and events in any order; invariant "each existing directory is watched or will be reached by a pending scan or event".

Theorems: `NonRec.C18_no_directory_missed`.

Note: For every interleaving of creations with the scan of the recursive Watch, with the scans of the internal goroutine and with event handling, in any order. OS calls and listings succeed and nothing is removed (see C55, C56); no other Watch or Stop call is made meanwhile (see C17_refuted_pending for nested recursive watches); there is no recursive watch above the path.

### C19 Stop removes every OS watch for which c was the last listener (non-recursive tree) — *partial*

Refuted; the set Stop leaves is bounded by what other channels still have in the subtree.

Theorems: `NonRec.C19_minimal_partial`, `NonRec.C19_refuted`.

Note: false as stated (witness); the partial theorem bounds what Stop leaves

### C20 Handling a removed directory drops exactly that subtree (non-recursive tree) — *proved*

Effect of the removal at every path: watchpoints at and below vanish, everything else stays, every OS watch below is removed.

Theorems: `NonRec.C20_removed`.

Note: Calls whose failure the code ignores are assumed to succeed.

### C21 Event-set accounting is exact — *proved*

Algebra of `Add`/`Del`/`dryAdd` over association lists, for every order.

Theorems: `WP.C21_total`, `WP.C21_diff`, `WP.C21_remove`, `WP.C21_empty`, `WP.C21_dryAdd`.

### C22 The path tree behaves like a map from paths to watchpoints — *proved*

Lookup laws of the tree as a map; `Walk` visits each watchpoint of a subtree once.

Theorems: `Node.C22_add`, `Node.C22_del`, `Node.C22_walkPath`, `Node.C22_walk`.

Note: lookup is Node.find; Walk is shown for trees without inactive children (empty key)

### C23 Path splitting is correct for every clean path — *partial*

String functions of `util.go` and the string loops of `node.go` agree with the component view used by all other modules. False for `/`.

Theorems: `PathStr.C23_below`, `PathStr.C23_split`, `PathStr.C23_steps`, `PathStr.C23_tree`, `PathStr.C23_rootGet`, `PathStr.C23_root_refuted`.

Note: proved for every path other than / itself, for which it is false (witness; see C43); C23_tree ties the string loops of node.go to the component functions used everywhere else

### C24 Symlink resolution always terminates and returns a symlink-free path — *partial*

`canonical` against an arbitrary oracle (bound on the number of probes, form of the result), and against a static filesystem with links (no link in the result; refuted when top-level entries are relative links).

Theorems: `Canon.C24_probes`, `Canon.C24_form`, `Canon.C24_depth`, `Canon.C24_linkfree_partial`, `Canon.C24_refuted`.

Note: Proved for every OS behaviour: at most 128 Lstat calls (each followed by at most one Readlink), and a successful result is / or a sequence of proper names. 'No symlink in the result' is false when an entry of the root directory is a relative link (C24_refuted: the loop restarts one character too late); proved for all other filesystems that do not change during the call. A link-free path comes out unchanged, or is refused if it has more than 128 components (C24_depth).

### C25 Recursive tree: OS watches mirror the registrations while only Watch is called — *proved*

Mirror invariant of the recursive tree under Watch only (`RecSync`).

Theorems: `Rec.C25_watch_only_mirror`.

### C26 Recursive tree: stopping one channel keeps the other channels' OS watches — *partial*

Refuted; `SafeHist` gives the histories for which the mirror is kept, `C26_stop_keeps_iff` the exact condition for one Stop.

Theorems: `Rec.C26_mirror_partial`, `Rec.C26_stop_keeps_iff`, `Rec.C26_refuted`.

Note: false as stated (witness); the exact condition under which a Stop keeps the other channels covered is proved

### C27 Recursive tree: a recursive Watch is backed by a recursive OS watch — *partial*

Refuted; otherwise the OS watch is recursive whenever an OS call was made for it.

Theorems: `Rec.C27_recursive_partial`, `Rec.C27_refuted`.

Note: false as stated (witness); proved except when the events were already covered by a non-recursive OS watch

### C28 Recursive tree: a failed Watch leaves no trace — *partial*

Two refutations; two kinds of failure for which a retry behaves as if the failure had not happened.

Theorems: `Rec.C28_retry_partial`, `Rec.C28_refuted_adopt`, `Rec.C28_refuted_recursive`.

Note: false as stated (two witnesses); proved when the failed Watch was to extend an OS watch above, or was a non-recursive one with none above or below

### C29 Recursive tree: a Watch on a parent succeeds whenever the OS accepts it — *partial*

Refuted; for safe histories from the mirror invariant.

Theorems: `Rec.C26_mirror_partial`, `Rec.C29_refuted`.

Note: false as stated (witness); proved for harmless histories

### C30 Watch, Stop and event delivery cannot deadlock each other — *proved*

Progress: in every reachable state with unfinished work some transition is possible; a measure decreases without new input; everything is drained.

Theorems: `Sched.C30_nonrec`, `Sched.C30_rec`, `Sched.C30_returns_nonrec`, `Sched.C30_returns_rec`.

Note: progress, termination without new input, and draining; Close: C86

### C31 Events reach a channel in the order in which the OS reported them — *partial*

Refuted by a schedule of two events; order is kept for goroutines that do not overlap.

Theorems: `Sched.C31_refuted`, `Sched.C31_sequential_partial`, `Sched.C31_sequential_rec_partial`, `Sched.C31_swap`, `Sched.C31_rec_refuted`, `Inotify.C68_order_refuted`.

Note: false as stated (witness schedules for both trees; in every state at rest any two events that a channel is sent can be exchanged, C31_swap; on Linux the watcher itself may change the order too); proved for events whose goroutines do not overlap

### C32 inotify: the kernel mask requests exactly what is needed — *proved*

`encode` for every 32-bit set, bit by bit, against `SpecInotify`.

Theorems: `Inotify.C32_mask`.

### C33 inotify: kernel events are translated to exactly the requested events — *proved*

`decode`/`transform` for every mask and every registered set.

Theorems: `Inotify.C33_exact`, `Inotify.C33_sound`, `Inotify.C33_some`, `Inotify.C33_nothing`, `Inotify.C33_batch`.

Note: exactness is for kernel events with one event bit, with or without IN_ISDIR, as inotify reports them; soundness and completeness for every raw mask

### C34 inotify: a buffer of kernel records is parsed completely and correctly — *proved*

Byte-level parser against a serialiser written from inotify(7), any number of records and lengths of names.

Theorems: `Inotify.C34_parse`, `Inotify.C34_fits`.

Note: little-endian machine

### C35 inotify: Unwatch removes the kernel watch of that path and no other — *partial*

Kernel tables (inode → descriptor) and the table `i.m`; refuted for re-created files; invariant for histories where paths keep inodes.

Theorems: `Inotify.C35_unwatch_partial`, `Inotify.C35_others`, `Inotify.C35_refuted`.

Note: false as stated: after deletion and re-creation of a watched file the table has two entries for the path and Unwatch may only drop the stale one (witness); other paths are never affected; proved when watched paths keep their inodes

### C36 Linux end to end: a requested change in a watched directory reaches the channel — *partial*

C33 + C35 + C11 + C01 composed: a kernel event on a watched directory leads to a send to exactly the channels the table gives.

Theorems: `Inotify.C36_linux_partial`, `Inotify.C36_refuted`.

Note: False of the code for a directory reachable under two paths (`C36_refuted`). Proved for histories where watched paths keep their inodes, there are no hard links, no non-recursive Watch of the channel failed, and the calls whose failure is ignored succeed

### C37 FSEvents: a coalesced flag set is split into its single flags — *proved*

`splitflags` for every set: the results are the single bits, each once.

Theorems: `Fsevents.C37_split`.

Note: For every 32-bit set; splitflags is a total function, so the loop terminates.

### C38 FSEvents: events are reported only for paths inside the watch — *proved*

`Dispatch` over any batch: only paths in scope are forwarded, and all that are.

Theorems: `Fsevents.C38_sound`, `Fsevents.C38_exact`, `Fsevents.C38_root`.

Note: C38_exact also says what is forwarded for an event in scope. C38_root: a watch of the root directory forwards nothing below it.

### C39 FSEvents: repeated creations and removals of a path are reported alternately — *proved*

State invariant of `strip` over any sequence of batches.

Theorems: `Fsevents.C39_alternate`, `Fsevents.C39_toggle`, `Fsevents.C39_needs_pure`.

Note: For watches that ask for both flags and paths without trailing separator. C39_needs_pure shows that the alternation need not hold before the first pure report.

### C40 kqueue and FEN: the native mask is valid and translation reports only requested events — *partial*

Masks bit by bit; decode for every order of the table; refuted for descendants of a renamed directory.

Theorems: `Trg.C40_mask_kqueue`, `Trg.C40_mask_fen`, `Trg.C40_decode_kqueue`, `Trg.C40_decode_fen`, `Trg.C40_reports_partial`, `Trg.C40_refuted`.

Note: Masks and translation are proved for every event set, every native flags and every order of the table. 'Contained in what was requested for the path or its directory' is false for files further below a renamed directory (C40_refuted); proved with respect to the sets of the path of the notification (C40_reports_partial).

### C41 kqueue and FEN: bookkeeping of files watched directly and through their directory — *partial*

Bookkeeping of direct and indirect registrations refines a two-column table; refuted with errors.

Theorems: `Trg.C41_book_partial`, `Trg.C41_ok_partial`, `Trg.C41_refuted`, `Trg.C41_rewatch_refuted`.

Note: Proved for every history in a filesystem without errors, with entries that are skipped. False if an entry of the directory cannot be opened (C41_refuted); Rewatch reports success although it failed (C41_rewatch_refuted).

### C42 A registration of one channel does not hide events from another — *partial*

Monotonicity in the set of another channel. Proved for inotify, FSEvents and Windows, refuted for kqueue.

Theorems: `Inotify.C42_inotify`, `Fsevents.C42_fsevents`, `Fsevents.C42_watchpoint`, `Dcw.C42_windows`, `Trg.C42_kqueue_partial`, `Trg.C42_gets_iff`, `Trg.C42_kqueue_refuted`, `Trg.C42_native_refuted`.

Note: Proved on inotify, on Windows and, for batches without failure flags, on FSEvents. False on kqueue: several flags of a notification become one event, which a channel only gets if it asked for all of them (C42_kqueue_refuted, C42_native_refuted); proved there if the further events are not meant by the notification. FEN works like kqueue.

### C43 Watching the filesystem root works like watching any other directory — *partial*

Refuted for both trees for every registration.

Theorems: `NonRec.C43_refuted`, `Rec.C43_refuted`, `NonRec.C43_deaf_refuted`, `NonRec.C43_collide_refuted`, `Rec.C43_blocks_refuted`, `Rec.C43_stays_refuted`.

Note: refuted on both trees: no event on a top-level path is ever delivered, whatever is registered (C43_refuted); a channel registered on / only never receives anything (C43_deaf_refuted); a recursive Watch of / misses directories whose names differ in the first letter only (C43_collide_refuted); on macOS, once / is watched every Watch that asks for another event fails (C43_blocks_refuted), and Stop leaves the OS watch (C43_stays_refuted)

### C44 A recursive watch covers the directory tree as it changes — *proved*

Invariant over histories `DHist` of mkdir, events, Watch and Stop.

Theorems: `NonRec.C44_coverage`, `NonRec.C44_asked_registered`, `NonRec.C44_handed_over`.

### C45 A registration below another watch is backed by a recursive OS watch — *partial*

Refuted; holds when an OS call was made.

Theorems: `Rec.C45_nested_partial`, `Rec.C45_refuted`.

Note: false as stated (witness); proved unless the events were already covered and no OS call was made

### C46 Concurrent calls and deliveries behave like sequential ones — *proved*

Simulation: every execution of `Sched` has a sequential history with the same sends per event, ordered by lock acquisition.

Theorems: `Sched.C46_linearizable`, `Sched.C46_linearizable_rec`, `Sched.C46_delivery`, `Sched.C46_delivery_rec`.

### C47 Only the union of the events passed to Watch matters — *proved*

Watch depends on its event arguments only through their union.

Theorems: `C47_nonrec`, `C47_rec`.

### C48 FSEvents: a removal is not reported together with a write — *proved*

`strip`+`Dispatch`: no forwarded batch contains a removal together with a write.

Theorems: `Fsevents.C48_remove_alone`.

Note: For watches that ask for creations (otherwise a creation could be present but not forwarded).

### C49 FSEvents: the watcher does what the recursive tree relies on — *partial*

The FSEvents watcher refines the OS watch table of `Watcher.lean`; refuted for a move whose new stream does not start.

Theorems: `Fsevents.C49_serve`, `Fsevents.C49_contract_partial`, `Fsevents.C49_refuted`.

Note: False for a move of a watch to another path whose new stream does not start: the old watch is gone (C49_refuted). Proved for all other call sequences.

### C50 macOS end to end: what FSEvents reports in scope reaches the channel — *partial*

C49 + C26 + C02 composed.

Theorems: `Fsevents.C50_macos_partial`, `Fsevents.C50_refuted`.

Note: False of the code further below a non-recursive OS watch (`C50_refuted`, see C45). Proved for harmless histories in the sense of C26 and no failed move of a watch otherwise.

### C51 Symlink resolution does not change the file — *partial*

Resolution by `canonical` and by the file system agree.

Theorems: `Canon.C51_same_partial`, `Canon.C51_refuted`.

Note: False when an entry of the root directory is a relative link (C51_refuted: /a -> b, /b -> cc turns /a/f into /bcc/f); proved for all other filesystems.

### C52 kqueue and FEN: no event without content is reported — *partial*

Refuted for FEN; proved for kqueue notifications within the mask.

Theorems: `Trg.C52_kqueue_partial`, `Trg.C52_refuted`, `Trg.C52_goes_everywhere`.

Note: Proved on kqueue if the kernel reports only flags of the native mask. False on FEN (C52_refuted).

### C53 kqueue and FEN: every new entry of a directory watched for Create is reported exactly once — *partial*

Any sequence of directory readings; refuted for re-creation and skipped entries.

Theorems: `Trg.C53_scan`, `Trg.C53_once_partial`, `Trg.C53_again_refuted`, `Trg.C53_skipped_refuted`.

Note: Proved for any sequence of readings without errors, for entries that are not removed and created again in between. False for entries that are created again if Remove is not requested (C53_again_refuted) and for entries the watcher skips (C53_skipped_refuted).

### C54 kqueue: every descriptor is closed exactly once — *partial*

Counting opens and closes of every descriptor over all histories; refuted twice.

Theorems: `Trg.C54_once_partial`, `Trg.C54_closed_partial`, `Trg.C54_twice`, `Trg.C54_refuted`, `Trg.C54_leak_refuted`.

Note: Proved for histories in which no watched directory is removed or renamed; the second part also needs that registrations succeed. False otherwise: removal of a directory closes its descriptor twice (C54_refuted), and a failed registration leaves the descriptor open (C54_leak_refuted).

### C55 A directory that cannot be read does not keep the others from being watched — *partial*

Refuted; nothing is lost by a scan that aborts.

Theorems: `NonRec.C55_nothing_lost_partial`, `NonRec.C55_refuted`.

Note: False: the scan ends at the first directory that cannot be read (C55_refuted). Proved: nothing that was watched or registered is lost.

### C56 A directory removed and created again is watched again — *partial*

Refuted by handling Create before Remove; proved in order.

Theorems: `NonRec.C56_in_order_partial`, `NonRec.C56_refuted`.

Note: False if the removal is handled last (C56_refuted); proved if the events are handled in the order in which they happened.

### C57 Three dots ask for the directory before them, recursively — *partial*

`cleanpath` on strings, with `Abs`/`Clean`; refuted for names ending in three dots.

Theorems: `Canon.C57_dots_partial`, `Canon.C57_alone`, `Canon.C57_refuted`.

Note: False for names that themselves end in three dots: the dots are cut off the name (C57_refuted). Proved for all other paths without links of at most 128 components, absolute or relative.

### C58 On Windows the kernel is asked for exactly what the set is about — *partial*

`encode` and the two filters for every accepted set, against the meaning of Windows filters.

Theorems: `Dcw.C58_native_partial`, `Dcw.C58_accepted`, `Dcw.C58_refuted`.

Note: False of the code: Rename alone does not ask for names of directories, Write does not ask for FILE_NOTIFY_CHANGE_LAST_WRITE (C58_refuted). C58_native_partial gives the exact set of changes registered for every accepted set, equal to what is wanted apart from these two; C58_accepted: no handle is registered with an empty or unknown filter (for sets with more than the names of directories).

### C59 On Windows an action is delivered to a channel exactly if the channel asked for it — *proved*

`decode`, `gensys`, `send` and the Windows `matches` together: what a channel is sent for every action.

Theorems: `Dcw.C59_delivery`.

Note: For all watchpoints, channels, actions, both handles and all states.

### C60 On Windows the kernel watches what was asked for last — *partial*

Transition system `Dcw` (methods under the lock; loop in three steps; kernel with handles, outstanding reads, completion queue). Four refutations; invariant `Inv` for the executions `CHist`.

Theorems: `Dcw.C60_held_partial`, `Dcw.C60_refuted`, `Dcw.C60_dirname_refuted`, `Dcw.C60_early_refuted`, `Dcw.C60_unwatch_refuted`.

Note: False of the code in four ways, each with a witness: Unwatch and Watch with another set keeps the old set; Rewatch to names of directories only kills the watch; a completion that arrives before the grip is linked kills the watch; Unwatch keeps the kernel watching until the next event. C60_held_partial proves it for all executions without these (a path is watched again only when its entry is gone, Rewatch not while the loop is between reading again and looking at the state of the entry, nothing fails but opening the directory in Watch).

### C61 On Windows the memory of a read is used once and kept while in use — *partial*

Same system; two refutations; invariant "at most one read per OVERLAPPED, and the object is linked".

Theorems: `Dcw.C61_memory_partial`, `Dcw.C61_refuted`, `Dcw.C61_drop_refuted`.

Note: False of the code: two reads may be outstanding with one OVERLAPPED (C61_refuted), and the structure is dropped while the last completion is still queued (C61_drop_refuted). C61_memory_partial proves the first part for the executions of C60_held_partial, the second for those of them without Unwatch and failed Watch.

### C62 On Windows calls that follow the contract succeed — *partial*

Same system; refuted twice; holds in `CHist`.

Theorems: `Dcw.C62_calls_partial`, `Dcw.C62_panic_refuted`, `Dcw.C62_refuted`.

Note: False of the code: Unwatch, Watch, Rewatch panics; a second Rewatch shortly after the first fails. C62_calls_partial proves for the executions of C60_held_partial that nothing panics, and that calls succeed when everything reported is handled.

### C63 On Windows a failed Watch leaves nothing open — *partial*

Same system; refuted; holds in `CHist`.

Theorems: `Dcw.C63_noleak_partial`, `Dcw.C63_refuted`.

Note: False of the code: when the first read is refused, Watch fails and its handle stays open for ever. C63_noleak_partial proves it for the executions of C60_held_partial, where opening the directory may fail in Watch.

### C64 On Windows a buffer of change records is read completely and correctly — *proved*

`loopevent` on bytes against a serialiser written from winnt.h, like C34.

Theorems: `Dcw.C64_parse`, `Dcw.C64_long`.

Note: For buffers of the size the code uses and `syscall.MAX_LONG_PATH` of at least 2042 (it is 32768); with a smaller constant a long name would make the program panic (`C64_long`). Decoding of the names: C104. Overflow of the buffer (no bytes reported) is not an event.

### C65 Windows end to end: a requested change reaches the channel — *partial*

The log of calls of the recursive tree drives the transition system `Dcw` (`Drives`, with any steps of the loop in between); C26, C58, C60, C02 composed.

Theorems: `Dcw.C65_windows_partial`, `Dcw.C65_refuted`.

Note: False of the code: Watch for Create, Stop, Watch for Write, Watch for Rename on one directory, with no event in between, makes the program panic (C65_refuted). C65_windows_partial composes C02, C26, C58, C60 and the translation for the executions in which these hold: harmless histories, no failed move of a watch, none of the races of C60; not for raw events, the two kinds of change of C58_refuted, and paths further below a non-recursive OS watch.

### C66 kqueue and FEN hold open only what is requested, whatever is notified — *partial*

The bookkeeping invariant of C41 extended to notifications (`NRuns`); refuted for subdirectories of a watched directory; `LBook` is the invariant that survives any notification: what is not requested may be open with empty sets.

Theorems: `Trg.C66_any_partial`, `Trg.C66_notes_partial`, `Trg.C66_refuted`.

Note: False of the code: a change in a subdirectory of a watched directory makes the watcher open every entry of that subdirectory with an empty set, and they stay open after Unwatch (C66_refuted). C66_any_partial proves, for all histories with any notifications that are not about removals, that requested paths are watched exactly as requested and that nothing else is in the table except such entries with empty sets; C66_notes_partial proves the property itself if the only directories notified are themselves requested.

### C67 kqueue and FEN: a requested change of an existing file or directory reaches the channel — *partial*

The log of calls of the non-recursive tree drives the watcher (`Drives`, notifications in between); C01, C11, C41/C66, C42, C44 composed.

Theorems: `Trg.C67_kqueue_partial`, `Trg.C67_recursive_partial`, `Trg.C67_create_partial`, `Trg.C67_refuted`.

Note: False of the code for raw events other than removal and renaming of a directory itself (C67_refuted), and where one flag stands for two requested events (C42). Proved for all other events, for histories with any notifications that are not about removals, channels without failed non-recursive Watch.

### C68 inotify: the goroutines neither lose nor repeat a change, under any schedule — *proved*

Transition system `PStep` (kernel queue, reader, any number of senders, calls cut at the system call); the number of events sent or on their way is invariant.

Theorems: `Inotify.C68_once`, `Inotify.C68_calls`, `Inotify.C68_change`, `Inotify.C68_only`, `Inotify.C68_progress`, `Inotify.C68_linux_partial`.

Note: For all schedules. The order of events is not kept (C68_order_refuted, see C31). C68_linux_partial composes it with the tree under the conditions of C36.

### C69 kqueue and FEN: a path that is renamed or removed is forgotten, with everything below a renamed directory — *partial*

The loop of `dir` over the table, for every table and order; C69_refuted is decided.

Theorems: `Trg.C69_rename_partial`, `Trg.C69_remove_partial`, `Trg.C69_refuted`.

Note: False on FEN when the renaming (or removal) was not requested: the entries stay in the table (C69_refuted). Proved if the notified event was requested for the path, and the native unwatching of the entries below succeeds.

### C70 Linux: a Watch that returns without error is in force — *partial*

`Feeds p` is the history of calls and arbitrary file system changes, with a flag that says whether `p` is still the inode last watched; C11, C32, C33 and C01 composed without the stability assumption of C36.

Theorems: `Inotify.C70_since_partial`, `Inotify.C70_watch_partial`, `Inotify.C70_refuted`.

Note: False of a Watch that asks for nothing new: if the directory was replaced since it was first watched, Watch returns nil and nothing is watched (C70_refuted). Proved for a non-recursive Watch that asks for more than was asked before (C70_watch_partial), and from then on as long as the path leads to the same inode and this inode is not watched under another name (C70_since_partial); no non-recursive Watch of the channel failed, and the calls whose failure is ignored succeed.

### C71 Windows: watching a symbolic link watches its target — *partial*

The loop of `canonical` on strings with backslashes, with the list of names it asks about.

Theorems: `CanonWin.C71_plain_partial`, `CanonWin.C71_absolute_refuted`, `CanonWin.C71_relative_refuted`.

Note: False of every link: canonical looks for / and puts / before an absolute target, so that the Watch fails (C71_absolute_refuted); a relative target is put after the drive letter (C71_relative_refuted). Proved for paths that are no links themselves. Links with forward slashes in their targets are not covered.

### C72 Changes of directories are followed up exactly below recursive watches — *proved*

The walk of the path in the tree against the registrations, over all histories.

Theorems: `NonRec.C72_handed`, `NonRec.C72_reported`.

### C73 Linux: a directory that appears below a recursive Watch is watched by the kernel — *partial*

C44 and C70 composed: the calls made for a new directory are answered by the kernel model; the refutations are complete runs of tree and kernel.

Theorems: `Inotify.C73_new_partial`, `Inotify.C73_covered_partial`, `Inotify.C73_silent_refuted`, `Inotify.C73_rename_refuted`.

Note: False if a directory was at the name before and its removal was not reported because the channel did not ask for Remove (C73_silent_refuted), or it was renamed, which is never followed up (C73_rename_refuted): the tree takes the new directory for the old one and makes no call. Proved for histories in which every removal is reported and handled and directories are not renamed (C73_new_partial), and from then on as long as the path leads to the same inode (C73_covered_partial).

### C74 Linux: the watcher closes exactly the descriptors it opened — *partial*

Invariant over all histories of set-ups and ends; the acts are replayed against the set of open descriptors.

Theorems: `InotifyInit.C74_descriptors_partial`, `InotifyInit.C74_result`, `InotifyInit.C74_stdin_refuted`.

Note: False with the version of golang.org/x/sys named in go.mod, whose Pipe stores zeros when it fails: a Watch for which no descriptor is left for the pipe closes descriptor 0, twice (C74_stdin_refuted). Proved for versions of Pipe that store nothing on failure (C74_descriptors_partial). Missing: nothing else.

### C75 Windows: drives and shares — *partial*

`root` of node.go modelled with the volume as first component; simulation by the tree without volumes, from which C02 follows. The refutations hold in all states, not in one.

Theorems: `Vol.C75_below_partial`, `Vol.C75_top_refuted`, `Vol.C75_deaf_refuted`, `Vol.C75_blocks_refuted`, `Vol.C75_stays_refuted`, `Vol.C75_share_refuted`.

Note: False of root directories: events directly below them are sent to nobody (C75_top_refuted), a channel registered only for root directories is sent nothing (C75_deaf_refuted), after a Watch of C:\ every Watch on the drive that asks for another event fails (C75_blocks_refuted), Stop leaves the OS watch (C75_stays_refuted), and Watch of the root of a share panics (C75_share_refuted). Proved for Watch calls below the root directories and events at least two levels down: the tree is in a state it also reaches without volumes, so C02, C04, C06, C07, C25-C29 hold (C75_below_partial).

### C76 macOS: FSEvents callbacks reach their watch, and nothing is left behind — *partial*

Transition system with the registry, the table of watches, running streams and callbacks; invariant over all interleavings.

Theorems: `Streams.C76_route`, `Streams.C76_clean_partial`, `Streams.C76_late_refuted`, `Streams.C76_leak_refuted`.

Note: Callbacks and running streams: proved (C76_route). False: a callback that has taken its function forwards events after Unwatch returned (C76_late_refuted); a stream that does not start stays in the registry for ever (C76_leak_refuted). The registry is proved clean if every stream starts (C76_clean_partial).

### C77 The text of an event — *partial*

Tables checked by evaluation (names distinct, values disjoint); the rest for every set and every permutation of the tables.

Theorems: `EventString.C77_names`, `EventString.C77_determines`, `EventString.C77_single`, `EventString.C77_complete`, `EventString.C77_exact`, `EventString.C77_exported`, `EventString.C77_order_refuted`.

Note: Names, single constants and that the text determines the set: proved. That a set has one text is false for sets of two or more constants, since the names come in the order of a map range (C77_order_refuted).

### C78 FSEvents: calls that are documented to fail do fail — *partial*

Case analysis over the calls, for every table.

Theorems: `Fsevents.C78_refuses_partial`, `Fsevents.C78_refuted`.

Note: False of RecursiveRewatch, which does not check the old set if it moves the watch or keeps the set (C78_refuted); proved of all other calls that must fail.

### C79 Solaris: file objects shared with the kernel — *partial*

Invariant over histories; two of the clauses need a restriction.

Theorems: `FenMem.C79_blocks`, `FenMem.C79_name_partial`, `FenMem.C79_noleak_partial`, `FenMem.C79_freed_refuted`, `FenMem.C79_leak_refuted`.

Note: What the kernel, its queue and the table refer to is allocated and has the right path, and is freed once: C79_blocks, all histories. Reading is false of the code: between port_get and cfo2fo the block can be freed (C79_freed_refuted); proved when no dissociation falls there (C79_name_partial). Freeing is false: every new association of a path leaks the previous block (C79_leak_refuted); proved without new associations (C79_noleak_partial).

### C80 Solaris: one change, one notification, until Unwatch — *partial*

Invariant over histories in which no path is associated twice.

Theorems: `FenMem.C80_once_partial`, `FenMem.C80_ends_partial`, `FenMem.C80_refuted`, `Trg.C80_inflight_refuted`.

Note: False: a file watched directly and through its directory has two associations, one of which Unwatch leaves (C80_refuted); and Unwatch of a directory fails half way if a notification of one of its files is on its way (C80_inflight_refuted). Proved if no path is associated while it is associated (C80_once_partial, C80_ends_partial).

### C81 kqueue: a notification is about the file it is reported for — *partial*

Invariant over histories, with the changed file as a ghost.

Theorems: `KqFds.C81_tables`, `KqFds.C81_handled`, `KqFds.C81_files_partial`, `KqFds.C81_refuted`.

Note: The tables and what handling does: proved, all histories. The file: false if a number is used again between Wait and process, in which case the removal of one file is reported for another and ends its watch (C81_refuted); proved otherwise (C81_files_partial).

### C82 The trees do not grow without bound — *partial*

Induction over histories; every operation is shown to keep the set of nodes.

Theorems: `NonRec.C82_kept`, `NonRec.C82_stop_keeps`, `NonRec.C82_removed`, `NonRec.C82_new`, `NonRec.C82_bound_partial`, `NonRec.C82_refuted`, `Rec.C82_exact`, `Rec.C82_refuted`.

Note: False of both trees: Stop and failed Watches release nothing, so a program that watches one path at a time keeps a node for every path (C82_refuted). Exact set of nodes of the recursive tree after every history (C82_exact); on the other tree nodes go away only when removals are handled (C82_kept), and then all below (C82_removed). Which nodes a step adds: C82_new; the exact set without recursive watches: C82_bound_partial.

### C83 Watch reports that nothing can be watched — *partial*

Induction over histories with arbitrary outcomes of all calls; invariant: the total of the path is contained in what the OS watches there.

Theorems: `NonRec.C83_in_force_partial`, `NonRec.C83_unsupported_partial`, `NonRec.C83_refuted`, `NonRec.C83_after_refuted`.

Note: False of recursive Watches: they ignore the outcome of every call and return nil though nothing is watched (C83_refuted), and a later Watch of the path returns nil without a call (C83_after_refuted). Proved for non-recursive Watches of paths for which, and above which, there was no recursive Watch, with any calls failing at any time. Assumes that a call that fails leaves the watches as they were.

### C84 A program starts although the watcher cannot be set up — *partial*

Case analysis of the start-up code over all answers of the system.

Theorems: `KqInit.C84_iff`, `KqInit.C84_runs`, `KqInit.C84_starts_partial`, `KqInit.C84_kevent_refuted`, `KqInit.C84_stdin_refuted`, `KqInit.C84_fen`.

Note: False on the BSDs: after a refusal newWatcher calls Close, which waits for a goroutine that was not started; so the program never starts if the queue does not take the pipe (C84_kevent_refuted), or if the queue or the pipe is refused and descriptor 0 can be written to, in which case it also writes to it (C84_stdin_refuted). C84_iff has the exact condition. True on Solaris (C84_fen). What Watch returns with the stub: C83.

### C85 Stop of a channel that is not registered does nothing — *partial*

Stop is modelled for any key of a watchpoint, nil being the total; induction over the tree shows what each node's difference is.

Theorems: `NonRec.C85_nil_sends`, `NonRec.C85_nil_os_partial`, `NonRec.C85_again`, `NonRec.C85_unregistered`, `NonRec.C85_contract_refuted`, `Rec.C85_unregistered_partial`, `Rec.C85_honest_partial`, `Dcw.C85_windows_refuted`, `NonRec.C85_failed_refuted`, `Rec.C85_failed_refuted`, `NonRec.C129_widens_refuted`, `NonRec.C85_norec_partial`.

Note: False for nil: Stop(nil) deletes the stored total of each node and calls Rewatch with an empty old set (C85_contract_refuted); on Windows the watcher panics on it (C85_windows_refuted). On systems without native recursion Stop(nil) changes no delivery and no user's set (C85_nil_sends, C85_nil_os_partial), a second Stop makes no call (C85_again) and Stop of an unregistered channel changes no registration (C85_unregistered). With native recursion proved for a channel that is not registered after a harmless history (C85_unregistered_partial), and that it makes no call after every history with an honest OS in which every Watch succeeded (C85_honest_partial). After a Watch of another channel that failed, Stop of a channel that was never used makes calls: it removes the OS watch left over, or calls Unwatch for a path without a watch (C85_failed_refuted, in both trees). Without native recursion it can also ask the OS for more events with no failure before (C129_widens_refuted); it makes no call if no recursive Watch was made (C85_norec_partial).

### C86 Close of a watcher returns, and after it nothing is reported — *partial*

Transition systems of the goroutines with a caller of Close; inductive invariants, and a measure that every step after Close decreases.

Theorems: `Close.Ino.C86_silent`, `Close.Ino.C86_progress`, `Close.Ino.C86_returns`, `Close.Dcw.C86_silent`, `Close.Dcw.C86_progress`, `Close.Dcw.C86_returns`, `Close.Trg.C86_silent`, `Close.Trg.C86_returns_partial`, `Close.Trg.C86_hangs_refuted`, `Close.Trg.C86_reached_refuted`, `Streams.C86_close_partial`, `Streams.C86_late_refuted`.

Note: Proved for inotify and Windows, all schedules. False with kqueue and FEN: Close waits for the monitor with the lock that the monitor needs to handle a notification, and never returns (C86_hangs_refuted, C86_reached_refuted); that nothing is reported once it has returned is proved (C86_silent), and that it returns if nothing is notified (C86_returns_partial). False of FSEvents: a callback that has its function reports after Close (C86_late_refuted); proved that none begins (C86_close_partial). Assumes that the wake-up call succeeds and that Watch is not called at the same time.

### C87 An event says what is documented: one event, an absolute clean path, and Sys — *partial*

Inotify: an invariant of the transition system of C68. The others: by cases on what is sent; on kqueue and FEN a copy of process with the values of Sys, proved to send the same events.

Theorems: `Inotify.C87_linux_partial`, `Inotify.C87_len_refuted`, `Fsevents.C87_macos`, `Dcw.C87_windows`, `Dcw.C87_windows_refuted`, `Trg.C87_trg_partial`, `Trg.C87_kqueue_refuted`, `Trg.C87_single_partial`, `Trg.C87_single_refuted`, `Trg.C87_path_partial`, `Canon.C87_base_refuted`.

Note: Proved on Linux for every execution except that Len of the record is always zero (C87_len_refuted), with FSEvents, and on Windows for event and path. False: with kqueue Sys is nil for what lies below a renamed directory and never a *notify.Kevent (C87_kqueue_refuted), coalesced flags are not split (C87_single_refuted; proved for one flag at a time in C87_single_partial), on Windows Sys is never nil (C87_windows_refuted; C87_windows says what it is), and the path given to Watch is not the base of the paths reported if it is a link (C87_base_refuted). Assumes that the kernel reports one event bit per inotify record, proper names in directories, and clean paths from FSEvents.

### C88 Watch and Stop never panic — *partial*

Without native recursion: a difference that is not none has a non-empty new set, in any watchpoint, and traversals keep what their callback keeps. With it: the invariant that every watchpoint that is not empty has a channel, which only the clean-up of a failed Watch above others breaks.

Theorems: `NonRec.C88_nonrec`, `NonRec.C88_nonrec_zero`, `Rec.C88_rec_partial`, `Rec.C88_zero_refuted`, `Rec.C88_adopt_refuted`, `Rec.C88_retry_refuted`.

Note: Proved without native recursion, in any state. With native recursion it is false: a Watch for the empty event set panics (C88_zero_refuted, for every path), and so does a Watch above a path on which an earlier Watch failed (C88_adopt_refuted, C88_retry_refuted: a write to a nil map). C88_rec_partial: no panic for a non-empty event set after any history in which every Watch that failed was for a path with no earlier Watch at or below it; Stop never panics in any state. Of panics it covers the panic statements and writes to nil maps of the trees; path handling is C75.

### C89 No gap: a registered channel stays backed by OS watches at every moment while other calls run — *partial*

The logs that occur while a call runs are the suffixes of the log after it that extend the log before it. Along one walk each path gets at most one call, and that call goes from a set to one that includes it or is included in it; so every moment lies between the two ends, and both ends are known from C14 and C26.

Theorems: `NonRec.C89_nonrec`, `NonRec.C89_nonrec_between`, `Rec.C89_rec_between`, `Rec.C89_rec_partial`, `Inotify.C89_linux`, `Trg.C89_trigger_refuted`, `Fsevents.C89_fsevents_refuted`, `Dcw.C89_windows_refuted`, `Mac.C89_mac_partial`.

Note: Proved for the calls the trees make: without native recursion for every history (C89_nonrec, calls whose failure the code ignores assumed to succeed); with it, whatever the OS reports before and after a call it reports all the time (C89_rec_between, any outcome), and what the channels asked for after a harmless history (C89_rec_partial). On Linux also for the kernel (C89_linux), in every schedule. The other watchers have a gap inside one call of theirs: kqueue and FEN remove and add (C89_trigger_refuted), FSEvents stops the old stream when a watch moves to a directory above and drops what the new one reports before HistoryDone (C89_fsevents_refuted), Windows closes the handles and lets the loop open them again (C89_windows_refuted). Not proved: C89_rec_partial for histories that are not harmless, for which C26 fails already.

### C90 Linux, whole program: every change the kernel reports is signalled exactly as often as it was asked for, under every schedule — *proved*

Invariant `J`: the log of calls begun so far lies between the tree's log and the log of the operation under way, and the watcher is where these calls lead once the running one is finished. C89 then keeps the kernel watch, the count of C68 gives the events sent to the tree, and a second count (signals made + due) gives the signals.

Theorems: `Linux.C90_linux`, `Linux.C90_parts`.

Note: Proved for all executions of the transition system `Linux` (tree, calls, dispatch, watcher and kernel together), under these assumptions: no hard links and watched paths keep their inodes (C35 and C70 say what happens otherwise), calls whose failure the code ignores succeed, no non-recursive Watch of the channel has failed (C10). Exactly: if path/name is not watched itself; at least: always. Counted from one moment at which nothing is on its way to another. Events of the watched path itself: C94; of the entries of / : C43.

### C91 Linux, whole program: after the last Stop the kernel holds no watch — *proved*

Invariant `J` of C90 with C13.

Theorems: `Linux.C91_nothing_left`.

Note: For all executions of `Linux`, with no hard links, watched paths that keep their inodes, and calls whose failure the code ignores succeeding. Without the second assumption it is false: C35_refuted.

### C92 No directory is missed while other channels watch and stop — *proved*

Invariant of C18 restricted to the directories that are connected with the watched one through internal sets: Stop may take events away from the others, and they are scanned again. Stop keeps the set of each such directory above that of its parent (watchDelMin).

Theorems: `NonRec.C92_no_directory_missed_meanwhile`.

Note: Transition system `XStep`, which extends that of C18. With a second recursive watch above or below and events pending it is false: C17_refuted_pending.

### C93 Linux, whole program: below a recursive watch every change the kernel reports is signalled, under every schedule — *proved*

Invariant of the tree: the channel's entry on p and the internal sets of all directories from p to q have the event; Watch and creation events only add to internal sets, Stop keeps each above that of its parent and that of p above what the remaining channels asked for. With C89 the kernel watch of q is never without the event; the two counts of C90 give the signals.

Theorems: `Linux.C93_linux_recursive`, `Linux.C93_found`.

Note: For all executions of `Linux`. That the directories were found is a premise about the internal sets of the tree; `C93_found` gives it for the scan of the first recursive Watch of the path, C95 for directories that appear during and after it.

### C94 Linux, whole program: changes of a watched file are signalled — *proved*

The counts of C90 for records without a name.

Theorems: `Linux.C94_linux_itself`.

Note: For all executions of `Linux`. Paths directly below the root directory are excluded because of C43.

### C95 Linux, whole program: no directory that appears below a recursive watch is missed, whenever it appears — *proved*

Invariant: a directory whose parent is connected with p by internal sets has a set itself, or the record or event of its appearance is in one of the places between the kernel's queue and the internal goroutine. For directories that the running scan has read, the same with what the scan found. A directory appears in a directory that has its OS watch from before the listing on (C89), so the kernel queues the record; each step of the pipeline hands it on, and while an operation runs nobody dispatches. At the end of a scan C92's lemmas give the invariant for the new tree.

Theorems: `Linux.C95_linux_no_directory_missed`.

Note: For all executions of `LinuxDirs`, which adds the directories and the steps of the scans to `Linux`. What a scan will find is guessed when it begins, and the steps of the execution confirm the guess. Removal of directories is left out: C56 and C70 say what goes wrong then.

### C96 macOS, whole program: what a stream reports about a path is signalled exactly as often as it was asked for, under every schedule — *proved*

`J`: the calls made so far are a log of the tree's, and table and event sets of the watcher are what the log says, also in the middle of a call. The watch that carries x keeps doing so at every log between two calls (`Carries`, lemmas of C89). Counting: signals made, plus what is due from channel and dispatch, plus what the callback will send for the reports it still has, equals copies times what the reports so far show; the stream's own memory (`prev`) is tracked alongside, and reports of other paths and streams do not touch it.

Theorems: `Mac.C96_mac_signalled`, `Mac.shows_plain`, `Mac.shows_write`, `Mac.C96_parts`.

Note: For all executions of `Mac`. C45 shows that a watch need not be recursive where it should, hence the condition on it; C89 that a Watch above loses reports. `shows_plain` and `shows_write`: for events other than creation, removal and change, and for changes without removal, the number does not depend on what was reported before. `C96_parts`: an execution is one of `Sched` with the same signals and one of `Streams`.

### C97 Native recursion: when every channel is stopped, no OS watch is left — *partial*

`Tidy`: the OS watches only paths that are topmost in the tree's books. A Watch that returns nil keeps it because an honest watcher had each watch that the Watch removed, hence the children it took over were the topmost ones; a Stop that empties a topmost node removes its watch.

Theorems: `Rec.C97_needed_partial`, `Rec.C97_nothing_left_partial`, `Rec.C97_refuted`, `Mac.C97_mac_nothing_left_partial`.

Note: False of the code: `C97_refuted` has a Watch that returned an error and whose predecessor's OS watch stays for ever. Proved for all histories in which every Watch returned nil (Stop may be harmful in the sense of C26, and calls may be refused), and for all executions of the whole program on macOS without failures and harmful operations. Missing: histories in which a Watch returned an error.

### C98 macOS, whole program: a change is not signalled twice because two streams report it — *partial*

At rest the OS watches are those of C26, which are apart. In the middle of an operation each watched path was watched before it or is after it (`Mids`), and neither set has nested paths. The refutation is an execution of 50 steps.

Theorems: `Mac.C98_one_stream_partial`, `Mac.C98_two_streams_partial`, `Mac.C98_refuted`.

Note: False of the code: a Watch above two watched paths starts its stream before it stops theirs, and a change reported by both in between is signalled twice (`C98_refuted`). Proved: when no Watch or Stop is under way there is one stream for each path at most, and at any moment never more than two. Missing: the moments in the middle of a Watch; C96 has the number of signals for the reports of one stream.

### C99 Windows, whole program: what the handles of a directory report is signalled exactly as often as asked for — *partial*

`J` ties the table of the watcher to the calls the tree has begun, at every step in the middle of an operation. `Feeds`: handles of the directory have filters with the event, and every packet of its path belongs to its entry (kept by each watcher step that leaves the path asked for, also closing and opening again). Then records, packets, events in the loop, in the channel and in the tree's goroutines are counted.

Theorems: `Win.C99_windows_signalled_partial`, `Win.C99_refuted`, `Win.C99_parts`.

Note: False of the code with the races of C60: Watch for Create, Stop and Watch for Rename on one directory, with no event in between, and renames that the handles report are not signalled (C99_refuted). Proved in full for executions without the races and failures of C60-C62 (`Dcw.CStep`) and operations harmless as in C26; if other handles report about the path, too, the number is between that for the records of the directory and that for all records. `C99_parts`: tree and watcher of the whole program are executions of the separate models. Missing: those races, raw events.


Not expressible here: real time (how long delivery takes), whether an OS reports a change at all, memory safety of cgo
callbacks.

## 3. Trusted base

* The Lean 4.33.0 kernel; the axioms `propext`, `Classical.choice`, `Quot.sound` (no others; checked by the gate for every
  theorem).
* That the definitions of the model modules transcribe the Go source.  Each cites file and lines.  No Go code was run.
* Go semantics: map semantics, `select` with `default` never blocks, `sync.RWMutex` excludes writers from readers (both with
  and without writer preference), statements of a goroutine run in order.
* Kernels: the small models in `Inotify`, `Trigger`, `Readdcw`, written from the manual pages.
* The assumptions in the notes of section 2.

Not modelled:

* `debug*.go`, `doc.go`, `notify.go` beyond forwarding to the tree (`defaultTree`);
* cgo glue (`watcher_fsevents_cgo.go` beyond C76, `watcher_fen_cgo.go` beyond C79);
* in `watcher_inotify.go`: the pipe of `loop` beyond C68 and C74;
* in `watcher_readdcw.go`: `lazyinit`;
* Windows volume names in the non-recursive tree, which Windows does not use;

## 4. Disagreements between code, model and properties

Each has a machine-checked witness where a theorem is named.

Both trees
1. Events on top-level paths are never dispatched, so a watch of `/` never fires; `Watch("/")` is stored under the empty child
   name, `AddDir` on `/` cuts the first letter of child names, so that `/ab` hides `/xb`; the recursive tree's Stop then calls `Unwatch("")` (C43, C23).
2. Every event is dispatched by its own goroutine, so order is not kept (C31).
3. One set per channel and directory: a recursive and a non-recursive Watch of the same channel on one directory merge.

Non-recursive tree
4. A failed Watch keeps the channel registered for those requested events that other channels already had (C10).
5. A failed recursive Watch (listing error) keeps internal entries and OS watches made so far (C10); a retry scans nothing (C15);
   they make `internal` later choose a set that lacks events of another channel (C16, C17).
6. Nested recursive watches and a scan that overtakes pending events: a directory ends up with too few events (C17_refuted_pending).
7. Stop of a recursive channel keeps the OS watches of the subtree if another channel has a non-recursive watchpoint with the same
   events on the directory (C19).
8. Handling a removed directory drops users' watchpoints in the subtree (C20 states this as behaviour); if Create and Remove of a
   re-created directory are handled in the wrong order the watch is lost (C56).
9. A scan ends at the first directory that cannot be read (C55).
10. A file node keeps its internal entry, which is stale if a directory appears under that name.

Recursive tree
11. Stop of a channel nested below another's watchpoint makes the tree unwatch the outer path (C26).
12. A recursive Watch covered by a non-recursive OS watch makes no OS call (C27, C45).
13. A failed Watch that adopts children leaves totals behind; a later identical Watch returns nil without an OS watch (C28).
14. After the middle one of three nested watchpoints is stopped, Watch on a new parent asks to move a watch that does not exist (C29).
15. In such states `watchCopy` may write to a nil map.  Watch with `Event(0)` panics.

Paths
16. `canonical` restarts at index 2 after a link (C24, C51) and counts components against the limit of 128 (C24_depth).
17. Names ending in `...` are cut (C57).

inotify
18. After deletion and re-creation of a watched file two descriptors have one path; Unwatch may remove the stale one (C35).
    Hard links share one descriptor, the second Watch takes it over.
19. Two goroutines send what was read, so a removal may overtake the creation (C68_order_refuted); with C56 this loses the watch of a
    re-created directory.  `transform` reports the generic event before the system specific one; the branch of `joinevents` for `All` is dead.

kqueue, FEN
20. Several flags become one event; a channel that did not ask for all of them does not get it (C42).
21. Removal of a watched directory closes its descriptor twice (C54); a failed registration leaks it (C54_leak_refuted).
22. `trg.Rewatch` swallows errors (C41_rewatch_refuted).
23. After a directory was renamed, events of entries deeper down are decided by the renamed directory's set (C40).
24. FEN reports events without content (C52); with `Remove` not requested, deletion leaves a stale entry, so a re-creation is
    not reported (C53_again_refuted).  A renaming that was not requested leaves the entries of the directory behind (C69_refuted).
25. `trg.Close` holds the lock while it waits for the monitor, which may need it.  A change in a subdirectory of a watched directory
    opens every entry of it, and they stay open (C66); raw events of a directory itself are never reported (C67_refuted).

FSEvents
26. A move of a watch whose new stream does not start loses the old one (C49); a failed start leaks a registry entry.
27. `strip` with no state and both bits reports both (C39_needs_pure).
28. A watch of `/` forwards nothing below it (C38_root).

Windows
29. `matches` for raw FileAction events lets events through to internal keys (C03, C02).
30. Rename alone does not watch names of directories; Write does not request LAST_WRITE (C58).
31. Unwatch+Watch keeps the old set; a later Rewatch panics; Rewatch to names of directories only kills the watch; a completion
    before `ovlapped.parent` is set kills the watch; Unwatch leaves the kernel watching until the next event (C60, C62).
32. Two reads with one OVERLAPPED; the structure is dropped while its packet is queued (C61), also after a failed Watch whose second
    handle cannot be opened.
33. A second quick Rewatch fails (C62); a failed first read leaks a handle (C63); a failed `CreateIoCompletionPort` leaves a stale handle
    number that is closed again later.
34. Watch, Stop, Watch with another set, Watch on one directory
    makes the program panic (C65_refuted).

Replaced directories
35. On Linux a directory that was removed and created again is not watched any more, and a second Watch of it that asks for nothing new
    returns nil without effect (C70).
36. On Linux a directory below a recursive Watch that takes the name of one that was renamed, or of one that was removed when the
    channel did not ask for Remove, is not watched (C73).  C44 therefore assumes that removals are reported.
37. On Windows, Watch of a symbolic link fails or watches another path (C71).

Drives, set-up, closing
38. On Windows, Watch of the root directory of a drive delivers nothing, makes later Watches on the drive fail and cannot be stopped;
    Watch of a share panics (C75).  On macOS the same is true of `/`, except for the panic (C43).
39. On Linux a Watch that fails because the process has no descriptors left closes descriptor 0 (C74).
40. On macOS a stream that does not start stays in the registry, and a callback in progress forwards events after Unwatch (C76).  Streams,
    CFStrings and CFArrays are never released; `gostream` drops the events that say that ids wrapped, also if they were asked for.
41. `Close` of the trees closes `t.c` but never `t.rec`; the internal goroutine stays.
42. The text of a set of two or more events differs from call to call (C77).
43. On macOS `RecursiveRewatch` does not check the old event set if it moves a watch or keeps its set, against its documentation (C78).
44. On Solaris the block of an event can be freed between `port_get` and the reading of its name; each new association leaks a block (C79).
45. On Solaris a file watched directly and through its directory is notified twice, and Unwatch leaves one association. Unwatch of a
    directory stops half way if a notification of one of its files is on its way (C80).
46. On the BSDs a notification can be reported for another file, and end its watch, if its descriptor is closed and the number used
    again before the notification is handled (C81).
47. Nodes of paths that were watched once are never released, except when removal of a directory is handled on Linux and the BSDs (C82).
48. On Linux, the BSDs and unsupported systems a recursive Watch returns nil even if no call succeeded, and a later Watch of the same path
    returns nil without a call (C83).
49. On the BSDs a program that imports the package waits for ever before `main` if the pipe of the watcher cannot be registered, or if no queue or
    pipe is to be had and descriptor 0 can be written to; then a byte is written to descriptor 0 (C84).
50. `Stop(nil)` is not rejected. It deletes the stored total of each node and makes the tree call `Rewatch` with an empty old set; on Windows
    the watcher panics on that, with the lock of the tree held (C85).
51. With kqueue and FEN `Close` never returns if the monitor has a notification at that moment; with FSEvents a callback may report after `Close`
    (C86). `Close` is not exported; tests use it.
52. `Sys` differs from its documentation: with kqueue it is nil for entries below a renamed directory and otherwise a `syscall.Kevent_t` (there is no
    `notify.Kevent`), on Windows it is a `uint8`, on Linux `Len` is zero. With kqueue and FEN an event may be several (C87).
53. With native recursion `Watch(p, c, 0)` panics on a path not yet covered; without it the same call returns nil. After a failed Watch of a directory above
    a watched one (or two failed attempts on one path), a Watch below returns nil without an OS call, and the next Watch above it panics with
    "assignment to entry in nil map" (C88).
54. Changing the event set of a watched path opens a gap on all systems but Linux (C89): kqueue and FEN remove the native watch and add it again,
    Windows closes the handles and opens them when the loop has received the packets, FSEvents stops the old stream before it starts the one above
    (and drops what the new one reports before HistoryDone). A second `Watch` by unrelated code can so lose events of the first.
55. With native recursion a Watch can leak an OS watch (C97): with `/a/b`, `/a/b/x` and `/a/b/y` registered by three channels and the first stopped,
    a Watch of `/a` removes watches of `/a/b/x` and `/a/b/y`, which do not exist, and overlooks the one of `/a/b`, which does. It returns an error
    but keeps its registration, and the watch of `/a/b` stays when all channels are stopped.
56. On macOS a change is signalled twice if it happens while a Watch of a directory above two watched ones has started its stream and not yet stopped
    theirs (C98). The source has a TODO about this only for the case that stopping them fails.
57. On Windows a change is signalled twice if a directory above was watched recursively and stopped before: its handles stay open and report
    until some more changes have happened (C100).
58. On the BSDs a Watch that extends what is watched of a directory closes and reopens the descriptors of all its files; changes whose
    notification was not yet retrieved are lost to all channels (C101).
59. On Linux, Watch of a second name of a file or directory (hard link, bind mount) takes the watch away from the first name: its channels are
    told nothing any more and its Unwatch fails (C103, C36).
60. On Windows a watched path that is no UTF-8 is stored under one key and deleted under another, so Unwatch leaves it in the table; up to Go 1.20
    files whose names differ in unpaired surrogates are reported under one name (C104).
61. On Windows the handles of a directory stay open after Stop until the directory changes, and up to four reports about it still come (C105, C106); more after a race (C105).
62. On Solaris every change of a watched directory adds one association of each file in it, as each call of port_associate has a new file object: after m changes of the directory one write of a file is signalled m+1 times, for ever (C107). Stop ends one of them only (C108).
63. On Solaris a change of a file is lost if it comes while a notification of another kind about the file is on its way (C107).
64. On Solaris Stop of a channel that watches the directory makes the watcher associate its files again with the times that they had at the first Watch; a file written since is reported at once, and another channel gets a second Write without a change (C109).
65. On Windows, when the set of a directory was changed and its second handle cannot be opened again, `updateGrip` closes the first one, which completes its read and wakes the loop, which tries the same again: the loop spins as long as the second handle cannot be opened (C110).
66. With FSEvents a watch keeps an entry of `prev` for every name that was ever created or removed below it, and drops none before Unwatch, so a long watch of a directory of temporary files grows for ever; and each stream leaks the C string, the CFString, the CFArray and the stream itself, since nothing calls CFRelease or FSEventStreamRelease (C111).
67. On Linux, if a file is replaced while it is watched, and then watched for more events, the table has two entries for its path and Unwatch drops one of them: the other stays for ever (C111, see also C35).
68. On Linux a directory that is made in a directory that has just been made is watched (C95), but no Create is signalled for it: `mkdir -p /d/s/t` below a recursive watch of /d signals /d/s only, unless the program is faster than mkdir (C112). The scan of the internal goroutine sends no events for what it finds.
69. On Linux and on Windows a watched directory that is renamed goes on being reported under its old name, and on BSD a watched file that is renamed if Rename was not asked for: the kernel's watch is on the file, the name in the table is the one given to Watch (C113).
70. On Windows a channel that watches /a for FileNotifyChangeSize is signalled changes of /a/b/f if another channel watches /a/..., in an execution of tree and goroutines (C114, see C03).
71. One goroutine is started for every event, without limit: while a Watch or Stop holds the lock of the tree, each event that arrives adds one that waits for it (C115). The buffer of the channel `c` does not bound the work in progress.
72. Overflows are not passed on: an inotify queue overflow and a read of ReadDirectoryChangesW without records are dropped silently and nothing is scanned again; FSEvents notifications with MustScanSubDirs, UserDropped or KernelDropped are dropped unless asked for, and also if asked for when the path reported is above the watched one (C116).
73. A recursive Watch of a path that has one already never reads directories again, so what was missed (after an overflow, say) stays unwatched; Stop before it helps only if no other channel watches the path or a directory above (C117).
74. A program that closes a channel because Watch returned an error may crash: the channel can be left registered for the events that the OS watched before, and a later event is sent to the closed channel (C118). Stop has to be called even then.
75. Windows: the loop loads the handle of a grip and calls ReadDirectoryChangesW with it later, without the lock. When a caller's `rewatch`
    closes it in between and the number is given to the next directory that is opened, the loop reads from that directory for the first one, and
    its changes are reported with the wrong path (`C119_reads_refuted`). When CreateIoCompletionPort fails in the loop, the handle is closed
    twice, by `register` and by `updateGrip` (`C119_closes_refuted`).
76. What a channel keeps after a failed Watch depends on other channels: the roll-back takes away only what nobody else had at the path
    (`C120_refuted`, both trees).
77. kqueue and FEN: whatever puts a new file into the watcher's table before the directory is read hides its creation from those who watch the
    directory for Create, for example a Watch of the file by another channel (`C121_refuted`). A Stop that ends a watch of the directory above discards
    the pending notification of the directory (`C121_above_refuted`).
78. FEN: a change of the attributes of a directory ends its association. A file that appears in the directory before the watcher has made another
    association is signalled to nobody: the watcher reads the directory only if the notification speaks of its contents (`Fen.C121_fen_refuted`).
79. kqueue: a Watch by another channel on a directory that has just appeared below a recursive watch hides its creation from the tree too, and the
    directory does not get watched for the recursive watch (`C122_refuted`, `C122_unwatched`).
80. Windows: if Unwatch of a directory that is gone cannot post its second packet it returns an error and leaves the first one in the queue, which
    makes the loop start a second read with the same OVERLAPPED structure (`C123_refuted`, `C123_two_reads`).
81. kqueue and FEN: Unwatch of a directory ends the native watch of every entry and makes it again for those watched by themselves; if the system refuses,
    such a file is not watched any more though a channel asks for it (`C126_refuted`).
82. Windows: Watch of a directory for Create, Stop, and Watch of it for Rename before the watcher has noticed the Stop: the handles report renames, but the
    watcher still translates them for Create, and they are not signalled (`C99_refuted`; the cause is that of `C60_refuted`).
83. Stop of a channel that was never used acts on what a failed Watch left (C85). Without native recursion a recursive Watch of a
    directory that cannot be listed fails and leaves its OS watch; with native recursion a failed Watch leaves the stored total of the node.
    The next Stop of any channel, also one never passed to Watch, unwatches the directory, in the second case without there being a watch
    (`NonRec.C85_failed_refuted`, `Rec.C85_failed_refuted`).
84. Without native recursion, `watchDelMin` replaces the internal set of each node by that of the node above before it removes the channel, and
    reports the difference of the totals, whether or not the channel is there. If the directory above was watched recursively while this
    one was not listed (it had been removed), its internal set is not a part of this one's, and Stop of a channel that was never used calls
    `Rewatch` with a larger set (`NonRec.C129_widens_refuted`).

## 5. Mutation testing

`seeded/LOG.jsonl` has one line per edit of the model in a scratch copy: the definition, the edit, the claim it breaks, the
theorems that failed, what was tightened.  Edits that survived are explained there (equivalent programs, or repairs of one of
the disagreements above, which make the `_refuted` theorem fail).

## 6. Change log

* Initial version, before any proof (C01–C43).
* Path tree, watchpoints, strings; non-recursive tree (C01–C17, C19–C23, C43, C44).
* Recursive tree (C02–C08, C25–C29, C45); API (C47).
* Schedules (C05, C30, C31, C46); channels (C09).
* inotify (C32–C36), FSEvents (C37–C39, C48–C50), symlinks (C24, C51).
* kqueue and FEN (C40–C42, C52–C54).
* Scans interleaved with creation (C18, C55, C56), three dots (C57).
* Windows watcher (C58–C63).
* This file rewritten to describe the outcome.
* Windows buffer and end to end (C64, C65).
* kqueue and FEN: notifications and end to end (C66, C67).
* Goroutines of the inotify watcher (C68).
* kqueue and FEN: renamed directories (C69), found by a surviving edit of the model.
* Linux: watches of paths that are replaced (C70).
* Symlinks on Windows (C71).
* Which changes are followed up (C72), found by a surviving edit; new directories on Linux end to end (C73).
* Descriptors of the Linux watcher (C74).
* Drives and shares on Windows (C75); Watch of `/` on macOS (C43).
* Streams and callbacks of FSEvents (C76).
* The text of events (C77).
* Calls that must fail on macOS (C78), found by a surviving edit.
* C42 on Windows.
* Associations on Solaris (C79, C80), descriptors on the BSDs (C81); C74 and C77 after surviving edits.
* Nodes the trees keep (C82).
* The module proving C42 on FSEvents had been overwritten by the one for C78 (commits d20d6dd to 78bac1f lack it); restored as `PropsFsevents4`.
* Failures that the non-recursive tree ignores (C83), start-up on the BSDs and Solaris (C84).
* Stop of a channel that is not registered, nil included (C85).
* Close of the watchers (C86).
* What an EventInfo says (C87).
* Panics of Watch and Stop (C88).
* OS watches in the middle of calls (C89).
* The whole program on Linux as one transition system (C90, C91).
* C01, C02, C36, C67, C68, C70, C73, C75, C90: failed Watches of other channels are allowed.
* Scans interleaved with creations and other operations (C92).
* The whole program on Linux: below recursive watches, and watched files (C93, C94).
* Directories that appear at any time below a recursive watch, whole program on Linux (C95).
* The whole program on macOS (C96).
* What is left when all channels are stopped, native recursion (C97).
* Two streams for one change, and C89 for the whole program on macOS (C98).
* The whole program on Windows (C99, C100).
* The whole program on the BSDs (C101, C102).
