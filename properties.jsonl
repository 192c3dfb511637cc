{"id": "C01", "title": "Delivery is exact on platforms without native recursion (inotify, kqueue, FEN)", "statement": "After any history of successful Watch calls, Stop calls and reported directory removals, an event E reported for an absolute path P with at least two components is sent to channel c exactly once per watchpoint of c that covers it: a watchpoint at P or at the parent directory of P whose accumulated event set contains E, or a recursive watchpoint at a proper ancestor of the parent whose accumulated event set contains E. No other channel receives it.", "quantifier": "every history of Watch/Stop/directory-removal/directory-creation operations, every channel, every path, every event value, every map iteration order", "why_tests_cant": "The set of histories and of tree shapes is unbounded; the test tables replay a few dozen fixed calls on one fixed directory tree.", "anchors": ["tree_nonrecursive.go:nonrecursiveTree.dispatch", "tree_nonrecursive.go:nonrecursiveTree.Watch", "tree_nonrecursive.go:nonrecursiveTree.Stop", "watchpoint.go:watchpoint.Dispatch", "watchpoint_other.go:matches", "node.go:node.WalkPath"]}
{"id": "C02", "title": "Delivery is exact on platforms with native recursion (FSEvents, ReadDirectoryChangesW)", "statement": "After any history of Watch and Stop calls on the recursive tree, an event reported by the OS for a path with at least two components is sent to channel c, none of whose own Watch calls failed, exactly once per watchpoint of c that covers it (same covering rule as C01); nothing but the channels of the callers is sent anything.", "quantifier": "every history of Watch/Stop operations, every channel, every path, every event value", "why_tests_cant": "The history and the tree shape are unbounded, and watchpoints move between active and inactive state depending on the whole history.", "anchors": ["tree_recursive.go:recursiveTree.dispatch", "tree_recursive.go:recursiveTree.Watch", "tree_recursive.go:recursiveTree.Stop", "tree_recursive.go:watchCopy"]}
{"id": "C03", "title": "A channel never receives an event it did not ask for, and internal channels never leak", "statement": "Whatever the state of the bookkeeping, an event sent to a user channel is contained in the event set that channel accumulated on the watchpoint that triggered the send; a send through an ancestor watchpoint happens only if that watchpoint is recursive; and no event is ever sent through the internal bookkeeping channel by user dispatch.", "quantifier": "every tree state, every event value, every platform's constants", "why_tests_cant": "A test can only check the absence of unrequested events for the combinations it lists.", "anchors": ["watchpoint.go:watchpoint.Dispatch", "watchpoint_other.go:matches", "watchpoint_readdcw.go:matches", "watchpoint_readdcw.go:eventmask"]}
{"id": "C04", "title": "Stop silences the channel", "statement": "After Stop(c) no event whatsoever is sent to c, until Watch is called again with c; this holds on both kinds of tree, whatever was registered before and whatever other channels do afterwards.", "quantifier": "every tree state before Stop, every sequence of later operations that does not Watch with c, every event", "why_tests_cant": "Absence of deliveries over all later histories cannot be observed by running finitely many of them.", "anchors": ["notify.go:Stop", "tree_nonrecursive.go:nonrecursiveTree.Stop", "tree_recursive.go:recursiveTree.Stop", "watchpoint.go:watchpoint.Del"]}
{"id": "C05", "title": "When Stop returns, c receives no more signals, under every goroutine schedule", "statement": "In every interleaving of event-dispatch goroutines, Watch calls, Stop calls and the internal goroutine, no send to c happens after Stop(c) has returned and before a later Watch with c takes effect, even for events that were already in flight when Stop was called.", "quantifier": "every interleaving of any number of goroutines, every event stream, every tree state", "why_tests_cant": "Tests run a handful of schedules; the guarantee is about all of them, including a dispatch goroutine that was paused before it took the lock.", "anchors": ["notify.go:Stop", "tree_nonrecursive.go:nonrecursiveTree.dispatch", "tree_recursive.go:recursiveTree.dispatch"]}
{"id": "C06", "title": "Stop of one channel does not change what other channels are sent", "statement": "For every state and every reported event, the copies sent to a channel d other than c are the same before and after Stop(c).", "quantifier": "every tree state, every pair of channels, every event", "why_tests_cant": "Requires comparing all pairs of channels over all registration states.", "anchors": ["tree_nonrecursive.go:nonrecursiveTree.Stop", "tree_recursive.go:recursiveTree.Stop", "watchpoint.go:watchpoint.Del"]}
{"id": "C07", "title": "Watch only expands, and repeating a Watch changes nothing", "statement": "A Watch call never removes an event from any watchpoint of any channel, and a non-recursive Watch repeated with events already registered for that channel and path makes no call to the OS and changes no registration.", "quantifier": "every tree state, every path, channel and event set", "why_tests_cant": "Monotonicity is a statement about all states and all calls.", "anchors": ["notify.go:Watch", "tree_nonrecursive.go:nonrecursiveTree.watch", "tree_nonrecursive.go:nonrecursiveTree.watchrec", "watchpoint.go:watchpoint.Add"]}
{"id": "C08", "title": "Watch with an empty event list is a no-op and a nil channel is rejected before any effect", "statement": "Watch(path, c) with no events returns nil and changes neither registrations nor OS watches for any path, valid or not; Watch with a nil channel panics without changing anything.", "quantifier": "every state, every path (also invalid ones), every channel", "why_tests_cant": "Quantifies over all states and all paths, including those that do not resolve.", "anchors": ["notify.go:Watch", "tree_nonrecursive.go:nonrecursiveTree.Watch", "tree_recursive.go:recursiveTree.Watch"]}
{"id": "C09", "title": "Delivery never blocks and drops only when the channel buffer is full", "statement": "Sending an event to the covered channels always completes; a channel with free buffer space at the moment of the send receives the event, a channel with a full buffer is left unchanged, already buffered events are never reordered or removed, and no channel other than the covered ones changes.", "quantifier": "every set of channels with every capacity and fill level, every event, every tree state", "why_tests_cant": "Fill levels and receiver progress are schedule dependent.", "anchors": ["watchpoint.go:watchpoint.Dispatch", "notify.go:Watch"]}
{"id": "C10", "title": "A failed Watch leaves no trace", "statement": "If a Watch call returns an error, the registrations of every channel and the OS watches are what they were before the call.", "quantifier": "every state, every path, channel and event set, every point at which the OS call or directory listing fails", "why_tests_cant": "Failure points multiply with the states; tests inject no failures in the trees.", "anchors": ["tree_nonrecursive.go:nonrecursiveTree.watch", "tree_nonrecursive.go:nonrecursiveTree.watchrec", "watchpoint.go:watchpoint.Del"]}
{"id": "C100", "title": "Windows, whole program: a change is not signalled twice because two handles report it", "statement": "On Windows, in any use as in C99: a change about a path, which the handles of each directory report at most once, is signalled to a channel at most once for each of the channel's registrations that covers the path.", "quantifier": "every execution of the program together with the kernel from the start, every schedule, every path", "why_tests_cant": "After Stop the handles stay open until the directory has changed a few more times, so whether a second handle reports depends on what happened on the disk since; the tests never watch below a directory that was stopped before.", "anchors": ["tree_recursive.go:recursiveTree.Stop", "tree_recursive.go:recursiveTree.Watch", "tree_recursive.go:recursiveTree.dispatch", "watcher_readdcw.go:readdcw.unwatch", "watcher_readdcw.go:readdcw.loopstate", "watcher_readdcw.go:readdcw.loopevent"]}
{"id": "C101", "title": "BSDs, whole program: a change of a watched file is signalled", "statement": "On the BSDs (kqueue), while the set of files stays the same: from a moment at which nothing is on its way and a channel is registered for an event of a file or of its directory, until a Watch or Stop with this channel, whatever other channels do and however all goroutines are scheduled: the kernel is always registered to report that event of the file; and when nothing is on its way again, the channel was signalled the event, as often as its registrations ask for times some number of notifications, which is at least one if the file was changed accordingly and at most the number of changes; and after every change it is signalled again.", "quantifier": "every execution of the program together with the kernel from the start: any number of goroutines calling Watch and Stop, every schedule of them, of the goroutines of the tree and of the watcher, every moment at which the kernel merges changes into one notification, every file, every event of the BSDs", "why_tests_cant": "The kernel merges changes until the notification is retrieved and drops them when a descriptor is closed; whether a change made while another goroutine calls Watch is lost depends on who comes first, and a test cannot tell a lost change from a merged one.", "anchors": ["watcher_trigger.go:trg.monitor", "watcher_trigger.go:trg.process", "watcher_trigger.go:trg.send", "watcher_trigger.go:trg.Rewatch", "watcher_kqueue.go:kq.Wait", "watcher_kqueue.go:kq.Watched", "watcher_kqueue.go:kq.Unwatch", "tree_nonrecursive.go:nonrecursiveTree.dispatch"]}
{"id": "C102", "title": "BSDs, whole program: when every channel is stopped nothing is left open", "statement": "On the BSDs (kqueue), while the set of files stays the same: at a moment at which no Watch or Stop is under way, if every channel that was passed to Watch was stopped since, the watcher has no file open and the kernel has no registration.", "quantifier": "every execution of the program together with the kernel from the start, every schedule, every path", "why_tests_cant": "Files that stay open are opened by notifications that arrive between Watch and Stop, so what is left depends on what happened on the disk and when the goroutine of the watcher ran; tests do not count descriptors.", "anchors": ["tree_nonrecursive.go:nonrecursiveTree.Stop", "watcher_trigger.go:trg.Unwatch", "watcher_trigger.go:trg.dir", "watcher_trigger.go:trg.singleunwatch", "watcher_kqueue.go:kq.Del"]}
{"id": "C103", "title": "Linux: a file or directory watched under several names", "statement": "On Linux, when a file or directory is reachable under several paths (hard links, bind mounts), every channel that watches it under any of them is sent its changes under the path it watched; at any time the kernel has exactly one watch per inode that some name still watches, and no watch when every name was unwatched.", "quantifier": "every file system, in which any number of paths lead to any inode; every history of Watch, Rewatch and Unwatch calls with any outcome; every order of the watcher's table", "why_tests_cant": "Tests do not create hard links or bind mounts; whether two names interfere depends on the order of all earlier calls for either name.", "anchors": ["watcher_inotify.go:inotify.watch", "watcher_inotify.go:inotify.Unwatch", "watcher_inotify.go:inotify.transform"]}
{"id": "C104", "title": "Windows: names are reported as they are", "statement": "On Windows the name the watcher takes from the kernel's record is the name of the file, for every name the file system allows: opening the reported path opens the file that was changed, and no two files are reported under one name. The path under which an event is reported starts with the path that is watched, and Unwatch removes the entry of that path from the watcher's table.", "quantifier": "every sequence of change records that fits the buffer; every name of 16-bit units without zero, with and without unpaired surrogates; every path given as a Go string, UTF-8 or not; Go up to 1.20 and since 1.21", "why_tests_cant": "Tests use ASCII names; surrogates and invalid bytes take other paths through encoding and decoding.", "anchors": ["watcher_readdcw.go:readdcw.loopevent", "watcher_readdcw.go:newWatched", "watcher_readdcw.go:readdcw.loopstate", "event_readdcw.go:event.Path"]}
{"id": "C105", "title": "Windows: a directory that is no longer watched stops reporting", "statement": "On Windows, after Unwatch of a directory succeeds and until the directory is watched again, the kernel reports changes of it at most twice as often as there were handles for it, that is at most four times; and once the loop has handled as many reports as there were handles, the directory is not in the watcher's table and nothing is read for it.", "quantifier": "every history of calls and events before; every sequence of events, of steps of the loop and of calls for other directories after; every set", "why_tests_cant": "The handles are closed by the loop, packets later; what arrives in between depends on timing and on the number of handles.", "anchors": ["watcher_readdcw.go:readdcw.unwatch", "watcher_readdcw.go:readdcw.loopstate", "watcher_readdcw.go:readdcw.loop", "watcher_readdcw.go:watched.closeHandle"]}
{"id": "C106", "title": "Windows, whole program: when every channel is stopped the watcher comes to rest", "statement": "On Windows, once each channel that was passed to Watch has been stopped since and no operation is under way, no handle of the watcher is open; or at least, until the next Watch or Stop begins, the kernel reports at most four times about each directory that is in the watcher's table then, and never about any other directory; no directory gets into the table; and whenever the table is empty no handle is open and nothing is read.", "quantifier": "every execution of the program together with the kernel from the start: any number of goroutines calling Watch and Stop, every schedule of them, of the loop of the watcher and of the completions, every path and set", "why_tests_cant": "Open handles have no visible effect at the API but that their directories cannot be removed; when they are closed depends on later changes in the directories.", "anchors": ["tree_recursive.go:recursiveTree.Stop", "watcher_readdcw.go:readdcw.unwatch", "watcher_readdcw.go:readdcw.loop", "watcher_readdcw.go:readdcw.loopstate", "watcher_readdcw.go:watched.closeHandle"]}
{"id": "C107", "title": "Solaris, whole program: a change of a watched file is signalled", "statement": "On Solaris and illumos, a channel registered for an event on a file or its directory is signalled that event after every change of the file that means it, as often as its registrations ask for: one notification for each change, whatever other channels do, in every schedule of the goroutines of the tree, of the watcher and of the kernel.", "quantifier": "every execution of the program together with the kernel from the start, every number of goroutines calling Watch and Stop, every schedule, every path and set; the set of files stays as it is", "why_tests_cant": "An event port forgets a file with each event until the watcher associates it again; what happens depends on which changes come in between and on how often the file was associated before.", "anchors": ["watcher_trigger.go:trg.process", "watcher_trigger.go:trg.dir", "watcher_trigger.go:trg.singlewatch", "watcher_fen.go:fen.Watch", "watcher_fen_cgo.go:cfen.portAssociate", "tree_nonrecursive.go:nonrecursiveTree.dispatch"]}
{"id": "C108", "title": "Solaris, whole program: when every channel is stopped nothing is left", "statement": "On Solaris and illumos, once each channel that was passed to Watch has been stopped since and no operation is under way, the watcher's table is empty and the kernel has no association of any file with the watcher's port.", "quantifier": "every execution of the program together with the kernel from the start, every number of goroutines calling Watch and Stop, every schedule, every path and set; the set of files stays as it is", "why_tests_cant": "Associations without entry in the table have no effect at the API; they hold memory and wake the watcher.", "anchors": ["tree_nonrecursive.go:nonrecursiveTree.Stop", "watcher_trigger.go:trg.unwatch", "watcher_trigger.go:trg.singleunwatch", "watcher_fen.go:fen.Unwatch", "watcher_fen_cgo.go:cfen.portDissociate"]}
{"id": "C109", "title": "Calls alone cause no events", "statement": "As long as the OS reports no change of a file, no channel is signalled anything, whatever calls of Watch and Stop are made: from any moment at which nothing is on its way, in every schedule. On FSEvents the changes of the time before a stream was created, which FSEvents reports first, are not signalled either.", "quantifier": "every execution of the whole program from the start (Linux, BSD, macOS, Windows, Solaris), every state without reports on their way, every number of goroutines calling Watch and Stop with every path and set, every schedule, failures of the OS included", "why_tests_cant": "A spurious event needs a particular earlier history: on Solaris a write of a file long before the Stop of another channel.", "anchors": ["watcher_trigger.go:trg.singleunwatch", "watcher_fen.go:fi2fo", "watcher_fen.go:fen.NewWatched", "watcher_fsevents.go:watch.Dispatch", "watcher_inotify.go:inotify.transform", "watcher_readdcw.go:readdcw.loop", "tree_nonrecursive.go:nonrecursiveTree.dispatch", "tree_recursive.go:recursiveTree.dispatch"]}
{"id": "C11", "title": "OS watches mirror the registrations (non-recursive tree)", "statement": "After any history, the event set watched by the OS on each path is exactly the union of what the channels registered there (plus what recursive watchpoints need), with no watch on a path without registrations; this also holds after a failed non-recursive Watch.", "quantifier": "every history of Watch (recursive or not, failing or not for non-recursive), Stop, directory creation and directory removal, every directory listing", "why_tests_cant": "The mirror is maintained incrementally by diffs; a wrong diff shows up only in particular histories.", "anchors": ["tree_nonrecursive.go:nonrecursiveTree.watch", "tree_nonrecursive.go:nonrecursiveTree.recFunc", "tree_nonrecursive.go:nonrecursiveTree.watchDelMin", "tree_nonrecursive.go:nonrecursiveTree.Stop", "tree_nonrecursive.go:nonrecursiveTree.internal"]}
{"id": "C110", "title": "Every call returns and every report is handled", "statement": "In the whole program nothing hangs and nothing spins: as long as a Watch or a Stop has not returned, or a report that the OS made has not been handled, some goroutine of the library can go on without any further call and without any further report; and it cannot go on for ever, so that after finitely many steps every Watch and Stop has returned and every report has been handled.", "quantifier": "every execution of the whole program from the start, every number of goroutines calling Watch and Stop with every path and set, every schedule, failures of the OS included", "why_tests_cant": "Deadlocks and livelocks need a particular schedule and particular failures of the OS, and a test can only observe that something did not end yet.", "anchors": ["tree_recursive.go:recursiveTree.dispatch", "tree_recursive.go:recursiveTree.internal", "tree_recursive.go:recursiveTree.Watch", "tree_recursive.go:recursiveTree.Stop", "watcher_fsevents.go:fsevents.Watch", "watcher_fsevents_cgo.go:stream.Stop", "watcher_readdcw.go:readdcw.loop", "watcher_readdcw.go:readdcw.loopstate", "watcher_readdcw.go:watched.recreate", "tree_nonrecursive.go:nonrecursiveTree.Watch", "tree_nonrecursive.go:nonrecursiveTree.Stop", "tree_nonrecursive.go:nonrecursiveTree.internal", "watcher_inotify.go:inotify.loop", "watcher_inotify.go:inotify.send", "watcher_inotify.go:inotify.Unwatch", "watcher_trigger.go:trg.monitor", "watcher_trigger.go:trg.process", "watcher_trigger.go:trg.Unwatch", "watcher_kqueue.go:kq.Wait", "watcher_fen.go:fen.Wait", "watcher_fen.go:fen.Unwatch"]}
{"id": "C111", "title": "The watchers keep nothing in memory about what is gone", "statement": "What a watcher holds in memory is bounded by what is watched and by the files there are: it has an entry only for paths that are watched, one for each, and about the files below a watched directory it keeps nothing once they are gone; when everything has been unwatched, nothing that was allocated for it is held.", "quantifier": "every sequence of calls that follow the contract of the watcher interface, every change of the file system and every sequence of reports of FSEvents", "why_tests_cant": "A leak of this kind needs many rounds and is seen only in the memory of a process that has run for a long time; no test looks at the internal tables.", "anchors": ["watcher_fsevents.go:watch.strip", "watcher_fsevents.go:watch.Dispatch", "watcher_fsevents_cgo.go:stream.Start", "watcher_fsevents_cgo.go:stream.Stop", "watcher_inotify.go:inotify.watch", "watcher_inotify.go:inotify.Unwatch", "watcher_inotify.go:inotify.transform"]}
{"id": "C112", "title": "Linux, whole program: every directory that appears below a recursive watch is signalled as Create", "statement": "On Linux, after a recursive Watch with Create has returned nil, every directory that appears below the watched path is signalled to the channel as Create, by the time when all events have been handled, as long as the channel is neither watched with again nor stopped and nothing is removed.", "quantifier": "every execution of the program together with the kernel from the start: any Watches and Stops of other channels and schedules of all goroutines, directories that appear below the path at any time and place, also in directories that have just appeared, every pace of kernel, watcher and tree", "why_tests_cant": "Whether a directory made right after its parent is noticed depends on whether the goroutines of the package have set up the watch of the parent by then. The tests make one directory at a time and wait for its event.", "anchors": ["tree_nonrecursive.go:nonrecursiveTree.internal", "tree_nonrecursive.go:nonrecursiveTree.recFunc", "tree_nonrecursive.go:nonrecursiveTree.dispatch", "node.go:node.AddDir", "watcher_inotify.go:inotify.watch", "watcher_inotify.go:inotify.transform"]}
{"id": "C113", "title": "The path of an event leads to the file that changed", "statement": "On Linux, BSD and Windows, when an event is made of a notification of the kernel, its path leads to the file that changed, or on Linux and Windows to the entry, with the name that the kernel gave, of the directory that reported the change.", "quantifier": "every execution of the watcher: Watch, Rewatch and Unwatch of any paths at any time, files renamed, removed and replaced by others at any time, with hard links, every schedule of callers, reader and consumers (Linux), every number of open descriptors that open(2) returns (BSD)", "why_tests_cant": "The kernel reports a number for the file, and the package looks up the name that was given to Watch when it gets to it; between the change and the look-up names may have come to lead elsewhere. Tests rename files that nobody watches by themselves.", "anchors": ["watcher_inotify.go:inotify.watch", "watcher_inotify.go:inotify.Unwatch", "watcher_inotify.go:inotify.transform", "watcher_inotify.go:inotify.send", "watcher_kqueue.go:kq.NewWatched", "watcher_kqueue.go:kq.Record", "watcher_kqueue.go:kq.Watched", "watcher_trigger.go:trg.process", "watcher_readdcw.go:grip.register", "watcher_readdcw.go:readdcw.loopevent", "watcher_readdcw.go:readdcw.send"]}
{"id": "C114", "title": "Nothing is signalled that was not asked for and did not happen", "statement": "At the moment when an event is sent to a channel, (1) that channel asked for this event with Watch calls that began before, for the path, for its parent directory, or recursively for a directory above, and no Stop of the channel (or, without native recursion, removal of the directory) that has been carried out took it back since; and (2) the OS reported before, for this path or for the directory it is in, a change that the event is a name of.", "quantifier": "every execution of the whole program on every platform: every schedule of Watch, Stop, dispatch, internal goroutine, watcher and kernel, every failure of a call of the OS, every sequence of notifications, all races", "why_tests_cant": "Tests look for expected events and drain the rest; a signal that nobody asked for, made in one schedule of concurrent Watch, Stop and dispatch or after a failed call, is not noticed, and no test could rule it out.", "anchors": ["tree_nonrecursive.go:nonrecursiveTree.dispatch", "tree_recursive.go:recursiveTree.dispatch", "watchpoint.go:watchpoint.Dispatch", "node.go:node.Walk", "watcher_inotify.go:inotify.transform", "watcher_fsevents.go:watch.Dispatch", "watcher_readdcw.go:readdcw.send", "watcher_trigger.go:trg.process"]}
{"id": "C115", "title": "The number of goroutines is bounded", "statement": "However many events arrive, the library never has more than a fixed number of goroutines alive; each event is handled by exactly one goroutine, and those goroutines wait for nothing but Watch, Stop and the internal goroutine.", "quantifier": "every execution of tree and goroutines from the start of the program, both trees, every capacity of the channels, every number of events and calls", "why_tests_cant": "The growth appears only under a load of events that arrive during a long Watch or Stop; tests send a handful of events, one at a time, and never count goroutines.", "anchors": ["tree_nonrecursive.go:nonrecursiveTree.dispatch", "tree_recursive.go:recursiveTree.dispatch"]}
{"id": "C116", "title": "Users are told when the OS says that it lost notifications", "statement": "If the OS says that it lost notifications (the inotify queue overflowed, FSEvents sets MustScanSubDirs, UserDropped or KernelDropped, a read of ReadDirectoryChangesW completes with no bytes), every channel that watches what is concerned is signalled something.", "quantifier": "every execution of the whole program on Linux and Windows from the start, every schedule; every FSEvents watch and every notification", "why_tests_cant": "Making a kernel queue or a driver buffer overflow needs a load that the tests do not make, and the tests have no expectation for the case: what is dropped silently is seen by nobody.", "anchors": ["watcher_inotify.go:inotify.transform", "watcher_fsevents.go:watch.Dispatch", "watcher_readdcw.go:readdcw.loop"]}
{"id": "C117", "title": "Watching again makes up for what was missed", "statement": "If notifications were lost, so that the program does not know of a directory below a recursively watched one, a further recursive Watch of that path that returns nil has every directory that is there by then watched for what it asks for.", "quantifier": "every history of the trees without native recursion, any calls failing, any listing; for the refutation an execution of the whole program on Linux from the start", "why_tests_cant": "Losing a notification needs an overflow of a kernel queue at the right moment; the tests watch directories whose creation was reported or which exist before the first Watch.", "anchors": ["tree_nonrecursive.go:nonrecursiveTree.watchrec", "tree_nonrecursive.go:nonrecursiveTree.Stop", "watchpoint.go:watchpoint.dryAdd", "node.go:node.AddDir", "watcher_inotify.go:inotify.transform"]}
{"id": "C118", "title": "A channel may be closed once it is stopped", "statement": "A program that closes a channel only after a Stop of it has returned, every Watch with it having returned before that Stop was called and none being made later, or because every Watch with it has returned an error, never panics because a closed channel is sent to.", "quantifier": "every execution with any number of goroutines, calls, events and closed channels, both trees, any OS calls and listings failing", "why_tests_cant": "The panic needs an event in flight at the moment of the close; and the failing Watch needs the OS to refuse only an extension of what it watches already.", "anchors": ["watchpoint.go:watchpoint.Dispatch", "tree_nonrecursive.go:nonrecursiveTree.dispatch", "tree_nonrecursive.go:nonrecursiveTree.watch", "tree_nonrecursive.go:nonrecursiveTree.Stop", "tree_recursive.go:recursiveTree.dispatch", "tree_recursive.go:recursiveTree.Watch", "tree_recursive.go:recursiveTree.Stop"]}
{"id": "C119", "title": "Windows: reads and closes are of the watcher's own open handles", "statement": "On Windows the watcher asks for the changes in a directory only with a handle that it has opened for that directory, and it calls CloseHandle at most once for a handle. A number that the system has taken back is never used: it may be the number of another file of the program by then.", "quantifier": "every execution of the watcher from the start: every sequence of watch, rewatch and unwatch calls, every interleaving with the loop (for reads also between its load of a handle and the call with it), every outcome of the system calls, every choice of numbers for handles such that no two open ones have the same", "why_tests_cant": "The numbers of handles are used again by the system at once, but a handle has to be closed and another opened between two instructions of the loop; and CreateIoCompletionPort does not fail on demand. When it goes wrong nothing fails: another file of the program is closed, or events have the wrong directory.", "anchors": ["watcher_readdcw.go:grip.readDirChanges", "watcher_readdcw.go:grip.register", "watcher_readdcw.go:watched.closeHandle", "watcher_readdcw.go:watched.updateGrip", "watcher_readdcw.go:readdcw.loop", "watcher_readdcw.go:readdcw.loopstate", "watcher_readdcw.go:readdcw.rewatch"]}
{"id": "C12", "title": "The OS watcher is driven according to its contract (non-recursive tree)", "statement": "In every history the watcher receives Watch only for a path that is not watched and with a non-empty event set, Rewatch only for a watched path with the event set it currently has, a different new set and no zero argument, and Unwatch only for a watched path; the internal 'eset is empty' panics are unreachable.", "quantifier": "every history of operations, every directory listing", "why_tests_cant": "The contract in watcher.go is promised for all histories; tests compare a few recorded call lists.", "anchors": ["watcher.go:watcher", "tree_nonrecursive.go:nonrecursiveTree.watch", "tree_nonrecursive.go:nonrecursiveTree.recFunc", "tree_nonrecursive.go:nonrecursiveTree.watchrec", "tree_nonrecursive.go:nonrecursiveTree.Stop"]}
{"id": "C120", "title": "What a channel is sent depends on the calls with this channel only", "statement": "Take any two executions in which the Watch and Stop calls with a channel, in order and with their results, are the same, and the same directories were removed. Other channels may do anything in one and anything else in the other, successfully or not. Then an event that is reported afterwards is sent to the channel equally often in both. It also makes no difference whether the platform has native recursion, as long as no directory was removed.", "quantifier": "every pair of executions of the tree from the start, with any calls of any number of other channels, every outcome of OS calls, every order of map iteration; every event and path", "why_tests_cant": "The property is about pairs of executions with arbitrary activity of other channels; a test would have to run every program twice. Channels share watchpoints, totals, internal sets and OS watches, so that every operation of one goes through data of the others.", "anchors": ["tree_nonrecursive.go:nonrecursiveTree.Watch", "tree_nonrecursive.go:nonrecursiveTree.Stop", "tree_nonrecursive.go:nonrecursiveTree.dispatch", "tree_recursive.go:recursiveTree.Watch", "tree_recursive.go:recursiveTree.Stop", "tree_recursive.go:recursiveTree.dispatch", "watchpoint.go:watchpoint.Add", "watchpoint.go:watchpoint.Del", "watchpoint.go:watchpoint.Dispatch"]}
{"id": "C121", "title": "BSDs and Solaris: a new file in a directory watched for Create is signalled, whatever other calls are made meanwhile", "statement": "A channel is registered for Create on a directory. A file appears in the directory, and the kernel reports that the contents of the directory have changed. Other channels may call Watch and Stop at any time, also between the creation and the moment at which the watcher reads the directory. Then, once nothing is on its way any more, the channel was signalled a Create with the path of the file.", "quantifier": "every state in which the directory is watched for Create and the file is not in the watcher's table; every sequence of calls and notifications before the directory is read, every answer of the OS to them; for the whole program every schedule of goroutines calling Watch and Stop", "why_tests_cant": "The time between the creation of a file and the reading of the directory is very short, and a test would have to place a call of another channel in just this time; the tests of this package watch one directory with one channel.", "anchors": ["watcher_trigger.go:trg.dir", "watcher_trigger.go:trg.singlewatch", "watcher_trigger.go:trg.watch", "watcher_trigger.go:trg.process", "watcher_trigger.go:trg.Watch", "watcher_trigger.go:trg.Rewatch", "watcher_trigger.go:trg.Unwatch"]}
{"id": "C122", "title": "BSDs, Solaris and illumos: a directory that appears below a recursive watch is followed up, whatever other calls are made meanwhile", "statement": "A channel is registered recursively on a directory, and the OS watches this directory, or one below it, for Create. A directory appears in it, and the kernel reports that its contents have changed. Other channels may call Watch and Stop at any time. Then, once nothing is on its way to the tree any more, the creation of the new directory has reached the goroutine that watches new directories, so that the new directory gets watched for the channel as well.", "quantifier": "every state that the whole program can reach in which a channel is registered recursively on the directory or above it and nothing is on its way; every schedule of any number of goroutines calling Watch and Stop, of the dispatch goroutines, the watcher and the kernel", "why_tests_cant": "The time between the creation of a directory and the reading of the directory it is in is very short, and a test would have to place a call of another channel in just this time; a directory missed in this way only shows later, by events inside it that are not signalled.", "anchors": ["tree_nonrecursive.go:nonrecursiveTree.dispatch", "tree_nonrecursive.go:nonrecursiveTree.internal", "watcher_trigger.go:trg.dir", "watcher_trigger.go:trg.singlewatch", "watcher_trigger.go:trg.process"]}
{"id": "C123", "title": "Windows: a call of the watcher that returns an error leaves the watches as they were", "statement": "If Watch, Rewatch or Unwatch of the Windows watcher returns an error, the directories watched before are watched as before: they have the same entries, sets and handles, and the same reads are outstanding or completed with each handle.", "quantifier": "every state that calls following the contract can reach without the races and failures of C60 to C62; every call and argument; every place at which opening a directory or posting a packet may fail", "why_tests_cant": "The errors come from system calls that do not fail on a test machine: a packet that the completion port does not take, a directory that can be opened once and not a second time. The effect is a second read with one buffer, which shows only if two changes are written to it at the same time.", "anchors": ["watcher_readdcw.go:readdcw.unwatch", "watcher_readdcw.go:readdcw.rewatch", "watcher_readdcw.go:readdcw.watch", "watcher_readdcw.go:watched.updateGrip", "watcher_readdcw.go:readdcw.loop"]}
{"id": "C124", "title": "Windows: Unwatch of a directory that is gone releases it without a report of the kernel", "statement": "If Unwatch of the Windows watcher succeeds for a directory that does not exist any more, then as soon as the goroutine of the watcher has handled what is in its queue, the directory is not in the table of the watcher, no read is outstanding for it, and the handles it had are closed. No report of the kernel is needed for this.", "quantifier": "every state that calls following the contract can reach without the races and failures of C60 to C62; from the Unwatch on every execution in which no call is for the same directory: any calls for other directories, legal or not, any failures of system calls, any reports or none", "why_tests_cant": "A directory that is removed on a test machine completes its reads by itself, so that a watcher that posts no packet, or too few, passes the test. Whether the counter of the entry reaches 0 depends on which packets of which handles, posted or completed, are handled in which order.", "anchors": ["watcher_readdcw.go:readdcw.unwatch", "watcher_readdcw.go:readdcw.loop", "watcher_readdcw.go:readdcw.loopstate", "watcher_readdcw.go:watched.closeHandle"]}
{"id": "C125", "title": "Windows: what is done for one directory leaves the others alone", "statement": "A call of the Windows watcher for one directory, whether it succeeds or fails, leaves every other watched directory as it was: its place in the table, what it is watched for, its handles, what the kernel reads for it and what has been reported for it but not yet handled. The same holds of the goroutine of the watcher while it handles a report of another directory.", "quantifier": "every execution, with any calls (legal or not), any races, any failures of system calls and any reports; every pair of different directories", "why_tests_cant": "A test with one directory cannot see it, and a test with two sees only the order of calls it makes. Entries that calls and the goroutine take down and open anew share one table and one queue, and an entry that a race has taken out of the table may still be worked on while a new one for the same directory is in place.", "anchors": ["watcher_readdcw.go:readdcw.watch", "watcher_readdcw.go:readdcw.rewatch", "watcher_readdcw.go:readdcw.unwatch", "watcher_readdcw.go:readdcw.loop", "watcher_readdcw.go:readdcw.loopstate", "watcher_readdcw.go:watched.recreate", "watcher_readdcw.go:watched.closeHandle"]}
{"id": "C126", "title": "kqueue and FEN: what is done for one path leaves the other watched paths alone", "statement": "A call of the watcher for one path, or a notification about it, leaves what is asked for every other path, and its native watch, as they were; also of files in the directory that is watched, unwatched or scanned. The exceptions are paths below a directory that was renamed. A call for a file leaves what its directory asks for it.", "quantifier": "every state of the watcher (reachable or not), every call and notification, every behaviour of the system during it, any failures; every other path", "why_tests_cant": "A file may be asked for by itself and because of its directory, and the two are kept in one entry with one native watch. A test sees the order of calls it makes in a directory it made, and no failing system call.", "anchors": ["watcher_trigger.go:trg.Watch", "watcher_trigger.go:trg.Unwatch", "watcher_trigger.go:trg.Rewatch", "watcher_trigger.go:trg.singlewatch", "watcher_trigger.go:trg.singleunwatch", "watcher_trigger.go:trg.process", "watcher_trigger.go:trg.dir"]}
{"id": "C127", "title": "Linux and macOS: a call of the watcher for one path leaves the other watched paths alone", "statement": "A call of the watcher for one path, whether it succeeds or fails, leaves the watches of all other paths as they were: on Linux, for paths that lead to another file, the entry in the table and the kernel's watch with its mask, so that what the kernel reports for them is translated as before; on macOS the set, whether the watch is recursive, and what it remembers of earlier events.", "quantifier": "Linux: every history of calls, failures, file system changes and orders of the table; macOS: every table and call, with or without a failure to start the stream", "why_tests_cant": "Descriptors and entries of paths that were removed and made again stay in the table of the Linux watcher, and later calls search it in a random order. A test sees one order and one history.", "anchors": ["watcher_inotify.go:inotify.watch", "watcher_inotify.go:inotify.Unwatch", "watcher_inotify.go:inotify.transform", "watcher_fsevents.go:fsevents.watch", "watcher_fsevents.go:fsevents.unwatch", "watcher_fsevents.go:fsevents.Rewatch", "watcher_fsevents.go:fsevents.RecursiveRewatch"]}
{"id": "C128", "title": "Watch asks the OS only about its own path, what is below it, or the watch above that covers it", "statement": "The calls to the OS watcher that a Watch makes are, without native recursion, for the path of the Watch and, if it is recursive, for paths below it; with native recursion either all for one path at or above the path of the Watch, or all for this path and paths below it. The calls made because a directory appeared or went are for this directory and paths below it. So the OS watches of all other paths stay as they were at every moment, also when calls and directory listings fail.", "quantifier": "every history of calls, reported directories and failures; every path, channel and event set; every outcome of the OS calls and of the directory listings; every moment while the call runs", "why_tests_cant": "A Watch walks over trees left by earlier calls, successful and failed, of all channels. A test sees the calls made in one tree with one pattern of failures.", "anchors": ["tree_nonrecursive.go:nonrecursiveTree.watch", "tree_nonrecursive.go:nonrecursiveTree.watchrec", "tree_nonrecursive.go:nonrecursiveTree.internal", "tree_recursive.go:recursiveTree.Watch", "node.go:node.AddDir", "node.go:node.Walk"]}
{"id": "C129", "title": "Stop asks the OS only about watches that cover a path of its channel", "statement": "The calls to the OS watcher that Stop(c) makes are for watches that c takes part in: with native recursion for paths at or above a path for which c is registered; without it for paths for which c is registered and, if recursively, paths below. The OS watches of all other paths stay as they were at every moment of the Stop, whatever the OS answers. In particular Stop of a channel that has nothing registered makes no call.", "quantifier": "every history of calls of all channels; every channel; every outcome of the OS calls of the Stop; every moment while it runs", "why_tests_cant": "Stop walks over all watches of the process. A test sees which calls are made in one tree with one set of registrations; the property is about the watches of every other channel in every tree.", "anchors": ["tree_recursive.go:recursiveTree.Stop", "tree_recursive.go:watchDel", "tree_recursive.go:watchIsRecursive", "node.go:node.Walk", "tree_nonrecursive.go:nonrecursiveTree.Stop", "tree_nonrecursive.go:nonrecursiveTree.watchDelMin", "tree_nonrecursive.go:nonrecursiveTree.walkWatchpoint"]}
{"id": "C13", "title": "When the last channel is stopped no OS watch remains (non-recursive tree)", "statement": "After any history, if every channel that was ever passed to Watch has been stopped since, then the OS holds no watch at all and the bookkeeping holds no event set.", "quantifier": "every history of operations", "why_tests_cant": "Leak freedom is a statement about all histories.", "anchors": ["notify.go:Stop", "tree_nonrecursive.go:nonrecursiveTree.Stop", "tree_nonrecursive.go:nonrecursiveTree.watchDelMin", "tree_nonrecursive.go:nonrecursiveTree.walkWatchpoint"]}
{"id": "C130", "title": "Stop never asks the OS for more events", "statement": "Every call to the OS watcher that Stop makes removes a watch, or asks for a part of the events that the watch had and leaves it on its path: Stop sets no watch, moves none and widens none.", "quantifier": "every history of calls of all channels, successful and failed; every channel, registered or not; every outcome of the OS calls of the Stop", "why_tests_cant": "Stop recomputes the event sets of all watches in the tree from what other calls left in it. A test sees the calls of one Stop in one tree.", "anchors": ["tree_recursive.go:recursiveTree.Stop", "tree_recursive.go:watchDel", "tree_nonrecursive.go:nonrecursiveTree.Stop", "tree_nonrecursive.go:nonrecursiveTree.watchDelMin", "watchpoint.go:watchpoint.Del"]}
{"id": "C131", "title": "Watch takes no events from OS watches that other channels use", "statement": "Every call to the OS watcher that Watch makes, or that is made because a directory appeared, sets a watch or adds events to one and leaves it on its path; with native recursion Watch also replaces watches below its path by one of its path that has their events. This holds also for a Watch that fails.", "quantifier": "every history of calls, reported directories and failures; every path, channel and event set; every outcome of the OS calls and of the directory listings", "why_tests_cant": "The event sets passed to the OS are computed from sets left in the tree by earlier calls of all channels. A test sees those of one tree and one Watch.", "anchors": ["tree_nonrecursive.go:nonrecursiveTree.watch", "tree_nonrecursive.go:nonrecursiveTree.watchrec", "tree_nonrecursive.go:nonrecursiveTree.recFunc", "tree_nonrecursive.go:nonrecursiveTree.internal", "tree_recursive.go:recursiveTree.Watch", "tree_recursive.go:watchAdd", "tree_recursive.go:watchAddInactive", "watchpoint.go:watchpoint.Add"]}
{"id": "C132", "title": "A Watch that the OS watch covers makes no call, others one call for the union", "statement": "A non-recursive Watch of a path, and with native recursion any Watch of a path at or below an OS watch, makes no call and succeeds if the OS watches the events there already, whichever channel asked for them. Otherwise it makes exactly one call, for this OS watch, which asks for the events watched and the new ones together, and Watch succeeds if and only if the call does. With native recursion a Watch of a path with no OS watch at, above or below it also makes exactly one call, for this path and these events, recursive if and only if the Watch is, and Watch succeeds if and only if the call does.", "quantifier": "every history of calls of all channels; every path, channel and event set; every outcome of the call", "why_tests_cant": "The event set the OS has is the result of all Watch and Stop calls of all channels so far. A test fixes one history and compares the calls of one Watch.", "anchors": ["tree_nonrecursive.go:nonrecursiveTree.watch", "tree_recursive.go:recursiveTree.Watch", "tree_recursive.go:watchAdd", "tree_recursive.go:watchAddInactive", "watchpoint.go:watchpoint.Add"]}
{"id": "C14", "title": "A registration is backed by an OS watch as long as it lives (non-recursive tree)", "statement": "From a successful Watch(path, c, events) until Stop(c) or removal of the path, the OS watch on path includes all the events, no matter which other channels are watched or stopped in between.", "quantifier": "every history between the Watch and the Stop, every other channel and path", "why_tests_cant": "The interplay of other channels' Watch and Stop calls is unbounded.", "anchors": ["tree_nonrecursive.go:nonrecursiveTree.Stop", "tree_nonrecursive.go:nonrecursiveTree.watchDelMin", "watchpoint.go:watchpoint.Del"]}
{"id": "C15", "title": "A successful recursive Watch covers every existing subdirectory (non-recursive tree)", "statement": "When Watch(path/..., c, events) returns nil, every directory in the listed tree below path is watched by the OS for all the events plus creation of entries.", "quantifier": "every directory tree, every prior state, every event set", "why_tests_cant": "Directory trees and prior registrations are unbounded.", "anchors": ["tree_nonrecursive.go:nonrecursiveTree.watchrec", "tree_nonrecursive.go:nonrecursiveTree.recFunc", "node.go:node.AddDir"]}
{"id": "C16", "title": "Recursive coverage survives the activity of other channels (non-recursive tree)", "statement": "Once a directory below a recursive watchpoint of c is covered for an event set, it stays covered through every Watch and Stop of other channels and every directory creation, until Stop(c) or removal of a directory on the way to it.", "quantifier": "every later history not containing Stop(c) or removal of that chain", "why_tests_cant": "Stop recomputes event sets top-down through the whole tree; the failing cases need particular nestings of channels.", "anchors": ["tree_nonrecursive.go:nonrecursiveTree.watchDelMin", "tree_nonrecursive.go:nonrecursiveTree.walkWatchpoint", "tree_nonrecursive.go:nonrecursiveTree.Stop"]}
{"id": "C17", "title": "A new directory below recursive watchpoints is watched for everything they need (non-recursive tree)", "statement": "When a directory is created below recursive watchpoints, the OS watch set on it and on every directory listed below it includes the events of every recursive watchpoint above it.", "quantifier": "every state, every nesting of recursive watchpoints with different event sets, every directory listing", "why_tests_cant": "The event set is picked by a numeric comparison between sets on the path; whether that picks the union depends on the nesting.", "anchors": ["tree_nonrecursive.go:nonrecursiveTree.internal", "tree_nonrecursive.go:nonrecursiveTree.recFunc"]}
{"id": "C18", "title": "No directory is missed, however creation interleaves with the recursive scan", "statement": "If directories keep being created below a recursively watched directory while it is scanned and while creation events are handled, then once all pending events are handled and no scan is running, every directory is watched.", "quantifier": "every interleaving of directory creations, scan steps and event handling steps, every directory tree", "why_tests_cant": "It is a statement about all interleavings of the kernel and the scanning goroutine.", "anchors": ["node.go:node.AddDir", "tree_nonrecursive.go:nonrecursiveTree.internal", "tree_nonrecursive.go:nonrecursiveTree.dispatch"]}
{"id": "C19", "title": "Stop removes every OS watch for which c was the last listener (non-recursive tree)", "statement": "After Stop(c), the OS watches nothing that no remaining channel needs: on each path the watched set is the union of what remaining channels registered there and of what remaining recursive watchpoints above it need.", "quantifier": "every history of operations", "why_tests_cant": "Needs all nestings of recursive and non-recursive registrations of several channels.", "anchors": ["notify.go:Stop", "tree_nonrecursive.go:nonrecursiveTree.watchDelMin"]}
{"id": "C20", "title": "Handling a removed directory drops exactly that subtree (non-recursive tree)", "statement": "When the removal of a directory below a recursive watchpoint is handled, all OS watches and registrations at and below it are dropped, and every other OS watch and registration is unchanged.", "quantifier": "every state, every path", "why_tests_cant": "Depends on the shape of the tree around the removed path, including pruning of emptied ancestors.", "anchors": ["tree_nonrecursive.go:nonrecursiveTree.internal", "node.go:node.Del"]}
{"id": "C21", "title": "Event-set accounting is exact", "statement": "For every sequence of additions and removals on a watchpoint, the total event set is the union of the channels' sets, each reported difference is exactly (total before, total after), an empty difference is reported exactly when the total did not change, and removing a channel's whole set leaves the other channels' sets unchanged.", "quantifier": "every sequence of additions and removals of any event sets by any channels, every map iteration order", "why_tests_cant": "The existing table has sixteen steps; the algebra is over all sequences.", "anchors": ["watchpoint.go:watchpoint.Add", "watchpoint.go:watchpoint.Del", "watchpoint.go:watchpoint.dryAdd", "watchpoint.go:watchpoint.Total", "watchpoint.go:eventDiff"]}
{"id": "C22", "title": "The path tree behaves like a map from paths to watchpoints", "statement": "Adding a path makes exactly that path and its ancestors present and changes no existing watchpoint; looking up a path finds it iff present; deleting a path removes exactly the paths at and below it, plus ancestors left with neither watchpoints nor children, and never an ancestor or sibling that still has a watchpoint.", "quantifier": "every tree, every path", "why_tests_cant": "Tree shapes and paths are unbounded.", "anchors": ["node.go:node.Add", "node.go:node.Get", "node.go:node.Del", "node.go:node.WalkPath", "node.go:node.Walk"]}
{"id": "C23", "title": "Path splitting is correct for every clean path", "statement": "For every clean absolute path, splitting gives the parent directory and the last name, one path is below another iff its components extend the other's (so /ab is never taken to be below /a), and walking the separators visits exactly the components.", "quantifier": "every pair of absolute paths", "why_tests_cant": "Strings are unbounded; off-by-one slips show only for particular shapes.", "anchors": ["util.go:split", "util.go:base", "util.go:indexrel", "util.go:indexSep", "util.go:lastIndexSep"]}
{"id": "C24", "title": "Symlink resolution always terminates and returns a symlink-free path", "statement": "Resolving a path performs at most 128 filesystem probes on every filesystem, including circular links, and a successfully resolved path has no symlink among its components.", "quantifier": "every filesystem (any map from paths to link targets), every path", "why_tests_cant": "Filesystems with links are unbounded, including cycles.", "anchors": ["util.go:canonical", "util.go:cleanpath"]}
{"id": "C25", "title": "Recursive tree: OS watches mirror the registrations while only Watch is called", "statement": "On the recursive tree, after any sequence of successful Watch calls, the OS holds exactly one watch at each topmost registered path and none below it, with an event set that is the union of everything registered at and below that path, and every watcher call meets the watcher contract.", "quantifier": "every sequence of successful Watch calls on any paths, channels and event sets", "why_tests_cant": "Promotion of a new parent over existing children depends on the whole history.", "anchors": ["tree_recursive.go:recursiveTree.Watch", "tree_recursive.go:watchAdd", "tree_recursive.go:watchAddInactive", "tree_recursive.go:watchCopy"]}
{"id": "C26", "title": "Recursive tree: stopping one channel keeps the other channels' OS watches", "statement": "On the recursive tree, after Stop(d) every path registered by another channel is still covered by an OS watch that includes its events.", "quantifier": "every history of Watch and Stop calls, every pair of channels", "why_tests_cant": "Needs particular nestings of two channels, one of which is then stopped.", "anchors": ["tree_recursive.go:watchDel", "tree_recursive.go:recursiveTree.Stop"]}
{"id": "C27", "title": "Recursive tree: a recursive Watch is backed by a recursive OS watch", "statement": "On the recursive tree, when Watch(path/..., c, events) returns nil the OS watch that covers path is a recursive one.", "quantifier": "every history of Watch calls before it", "why_tests_cant": "Depends on what was registered before on the path and above it.", "anchors": ["tree_recursive.go:recursiveTree.Watch", "watcher.go:recursiveWatcher"]}
{"id": "C28", "title": "Recursive tree: a failed Watch leaves no trace", "statement": "On the recursive tree, if Watch returns an error because the OS call failed, a later identical Watch that returns nil is backed by an OS watch.", "quantifier": "every state, every failing call", "why_tests_cant": "Failure injection over all states.", "anchors": ["tree_recursive.go:recursiveTree.Watch"]}
{"id": "C29", "title": "Recursive tree: a Watch on a parent succeeds whenever the OS accepts it", "statement": "On the recursive tree, Watch on a directory above existing watchpoints asks the OS only to move or drop watches that the OS really has, after any history of Watch and Stop calls.", "quantifier": "every history of Watch and Stop calls", "why_tests_cant": "Depends on stopped channels between the watches.", "anchors": ["tree_recursive.go:recursiveTree.Watch", "tree_recursive.go:recursiveTree.Stop"]}
{"id": "C30", "title": "Watch, Stop and event delivery cannot deadlock each other", "statement": "In every reachable state of any number of dispatch goroutines, API calls and the internal goroutine, either everything is idle or some step can be taken, even if no user ever reads from the channels and all internal buffers are full.", "quantifier": "every interleaving, every number of goroutines, every buffer fill level", "why_tests_cant": "Deadlocks depend on schedules that tests rarely produce.", "anchors": ["tree_nonrecursive.go:nonrecursiveTree.dispatch", "tree_nonrecursive.go:nonrecursiveTree.internal", "watchpoint.go:watchpoint.Dispatch"]}
{"id": "C31", "title": "Events reach a channel in the order in which the OS reported them", "statement": "If the OS reports event A before event B and both are sent to c, then c receives A before B.", "quantifier": "every schedule of the dispatch goroutines", "why_tests_cant": "It is a statement about all schedules.", "anchors": ["tree_nonrecursive.go:nonrecursiveTree.dispatch", "tree_recursive.go:recursiveTree.dispatch"]}
{"id": "C32", "title": "inotify: the kernel mask requests exactly what is needed", "statement": "For every event set accepted by Watch, the mask handed to the kernel contains only valid inotify event bits, and a raw kernel event bit is in the mask iff some requested event is produced by it.", "quantifier": "every 32-bit event set", "why_tests_cant": "2^32 event sets, and the property relates encoding to decoding.", "anchors": ["watcher_inotify.go:encode", "watcher_inotify.go:decode", "watcher_inotify.go:inotify.watch"]}
{"id": "C33", "title": "inotify: kernel events are translated to exactly the requested events", "statement": "For every kernel event on a watched path, the events produced are contained in the requested set; if the kernel event bit was requested, at least one event is produced; the platform-independent event and the inotify-specific event are each produced iff requested; queue-overflow and ignored notifications and notifications for unknown descriptors produce nothing.", "quantifier": "every mask, every kernel event, every table of watched descriptors", "why_tests_cant": "All masks times all kernel events; dropped events are invisible to tests.", "anchors": ["watcher_inotify.go:decode", "watcher_inotify.go:inotify.transform", "watcher_inotify.go:inotify.send"]}
{"id": "C34", "title": "inotify: a buffer of kernel records is parsed completely and correctly", "statement": "Parsing a buffer that consists of any sequence of kernel records (with any padding of the names) yields exactly those records with their unpadded names in order, never reads outside the buffer, and the buffer is large enough for the longest record.", "quantifier": "every sequence of records, every name and padding", "why_tests_cant": "Byte sequences are unbounded; an off-by-one shows only for particular paddings.", "anchors": ["watcher_inotify.go:inotify.read", "watcher_inotify.go:eventBufferSize"]}
{"id": "C35", "title": "inotify: Unwatch removes the kernel watch of that path and no other", "statement": "After Unwatch(path) succeeds, the kernel holds no watch made for path, every other path keeps its watch and mask, and events of path are no longer translated.", "quantifier": "every history of Watch, Rewatch, Unwatch and file deletion/re-creation, every map iteration order", "why_tests_cant": "Depends on history and on map iteration order.", "anchors": ["watcher_inotify.go:inotify.Unwatch", "watcher_inotify.go:inotify.watch", "watcher_inotify.go:removeInotifyWatch"]}
{"id": "C36", "title": "Linux end to end: a requested change in a watched directory reaches the channel", "statement": "On Linux, for every history, if c is registered on directory p for event E and the kernel reports, for the watch on p, a change of kind E to an entry n, then exactly the event (E, p/n) is handed to dispatch and c is sent it.", "quantifier": "every history, directory, entry name, channel and event", "why_tests_cant": "Composes the whole pipeline for all inputs.", "anchors": ["watcher_inotify.go:inotify.transform", "watcher_inotify.go:decode", "tree_nonrecursive.go:nonrecursiveTree.dispatch"]}
{"id": "C37", "title": "FSEvents: a coalesced flag set is split into its single flags", "statement": "Splitting any 32-bit flag set gives single-bit flags, without repetition, in increasing order, whose union is the set; the split always terminates.", "quantifier": "every 32-bit flag set", "why_tests_cant": "2^32 inputs.", "anchors": ["watcher_fsevents.go:splitflags"]}
{"id": "C38", "title": "FSEvents: events are reported only for paths inside the watch", "statement": "An event is forwarded only if its path is the watched path or lies below it by whole components, for a non-recursive watch only at depth one, only for requested flags, one event per flag, and nothing before the history-done marker.", "quantifier": "every batch of raw events, every watch path, every event set", "why_tests_cant": "Strings and batches are unbounded.", "anchors": ["watcher_fsevents.go:watch.Dispatch"]}
{"id": "C39", "title": "FSEvents: repeated creations and removals of a path are reported alternately", "statement": "Once a pure creation or pure removal of a path was reported, the creation and removal flags reported for that path alternate, over every later sequence of coalesced flag sets.", "quantifier": "every sequence of raw flag sets for a path", "why_tests_cant": "It is a property of all histories of the per-path state.", "anchors": ["watcher_fsevents.go:watch.strip"]}
{"id": "C40", "title": "kqueue and FEN: the native mask is valid and translation reports only requested events", "statement": "For every event set accepted on those platforms, the native mask contains only native flags, and the events produced for a native notification are contained in what was requested for the path or its directory, independently of table iteration order.", "quantifier": "every event set, every native notification, every iteration order", "why_tests_cant": "All masks times all notifications.", "anchors": ["watcher_kqueue.go:encode", "watcher_fen.go:encode", "watcher_trigger.go:decode"]}
{"id": "C41", "title": "kqueue and FEN: bookkeeping of files watched directly and through their directory", "statement": "After any history of Watch, Rewatch and Unwatch of paths in an unchanging filesystem, a file is natively watched iff it or its parent directory is requested, its direct event set is what was requested for it and its indirect event set is what was requested for its parent directory.", "quantifier": "every history, every filesystem tree", "why_tests_cant": "Histories mix direct and indirect registrations in unbounded ways.", "anchors": ["watcher_trigger.go:trg.singlewatch", "watcher_trigger.go:trg.singleunwatch", "watcher_trigger.go:trg.watch", "watcher_trigger.go:trg.unwatch", "watcher_trigger.go:trg.Rewatch"]}
{"id": "C42", "title": "A registration of one channel does not hide events from another", "statement": "If channel c would be sent an event, it is still sent an event of that kind after any other channel registers additional events on the same path.", "quantifier": "every platform, every pair of channels and event sets, every native notification", "why_tests_cant": "Needs all combinations of event sets of two channels.", "anchors": ["watcher_trigger.go:decode", "watcher_trigger.go:trg.process", "watchpoint_other.go:matches", "watcher_inotify.go:decode"]}
{"id": "C43", "title": "Watching the filesystem root works like watching any other directory", "statement": "A channel registered on / (recursively or not), or on a top-level file, receives the events the OS reports there, and Stop removes the watch.", "quantifier": "every event path", "why_tests_cant": "The failing cases are all in one corner that no test reaches.", "anchors": ["util.go:split", "util.go:indexrel", "node.go:node.WalkPath", "node.go:node.AddDir", "tree_recursive.go:recursiveTree.Stop"]}
{"id": "C44", "title": "A recursive watch covers the directory tree as it changes", "statement": "As long as directory listings succeed and every directory creation and removal is reported and handled, every existing directory below the path of a recursive Watch is watched by the OS for all events the channel asked for recursively plus Create, whatever other channels watch or stop meanwhile; and a directory creation that is not handed to the internal handler needs no handling.", "quantifier": "every history of Watch, recursive Watch, Stop, directory creation and removal, every directory tree, every channel, every directory", "why_tests_cant": "Coverage is a global invariant over unbounded directory trees and unbounded interleavings of registrations with directory changes.", "anchors": ["tree_nonrecursive.go:nonrecursiveTree.watchrec", "tree_nonrecursive.go:nonrecursiveTree.internal", "tree_nonrecursive.go:nonrecursiveTree.dispatch", "tree_nonrecursive.go:nonrecursiveTree.Stop", "node.go:node.AddDir"]}
{"id": "C45", "title": "A registration below another watch is backed by a recursive OS watch", "statement": "On a watcher with native recursion, when a Watch on a directory returns nil and the only OS watch covering the directory is on a proper ancestor, that OS watch is recursive, so that changes inside the directory are reported.", "quantifier": "every history of Watch and Stop, every path, every event set", "why_tests_cant": "Whether the OS watch of the ancestor is made recursive depends on which events every other channel happens to have there.", "anchors": ["tree_recursive.go:recursiveTree.Watch", "tree_recursive.go:watchAddInactive", "tree_recursive.go:watchIsRecursive"]}
{"id": "C46", "title": "Concurrent calls and deliveries behave like sequential ones", "statement": "Whatever Watch and Stop calls, event deliveries and internal handling of directory events run concurrently, the registrations at any moment are those that some sequential history of the same requests leads to, each request taking effect between its call and its return, and each event is sent to exactly the channels, as often, as one delivery in the state at the moment its lock is released.", "quantifier": "every interleaving of any number of goroutines, both trees", "why_tests_cant": "It is a statement about all schedules of all concurrent histories.", "anchors": ["tree_nonrecursive.go:nonrecursiveTree.Watch", "tree_nonrecursive.go:nonrecursiveTree.Stop", "tree_nonrecursive.go:nonrecursiveTree.dispatch", "tree_nonrecursive.go:nonrecursiveTree.internal", "tree_recursive.go:recursiveTree.Watch", "tree_recursive.go:recursiveTree.dispatch"]}
{"id": "C47", "title": "Only the union of the events passed to Watch matters", "statement": "Watch with any non-empty list of events behaves exactly like Watch with any other list that has the same bits (order, repetition and grouping do not matter), Watch with one event registers that event, and Watch with a nil channel panics without any effect.", "quantifier": "every tree state, path, channel, list of events and behaviour of the OS, both trees", "why_tests_cant": "All lists of events and all tree states.", "anchors": ["util.go:joinevents", "tree_nonrecursive.go:nonrecursiveTree.Watch", "tree_recursive.go:recursiveTree.Watch"]}
{"id": "C48", "title": "FSEvents: a removal is not reported together with a write", "statement": "When a removal of a path is reported without a creation, no modification and no metadata change is reported for the same raw event, although FSEvents retains those flags from earlier changes.", "quantifier": "every state of the watch, every raw event", "why_tests_cant": "All 2^32 flag sets in all states of the per-path memory.", "anchors": ["watcher_fsevents.go:watch.strip", "watcher_fsevents.go:watch.Dispatch"]}
{"id": "C49", "title": "FSEvents: the watcher does what the recursive tree relies on", "statement": "After every sequence of interface calls that keep the contract (watch what is not watched, change or remove what is watched, pass the old event set), each path is watched with exactly the event set and recursiveness the successful calls stand for; a failed call changes nothing.", "quantifier": "every sequence of calls, every pattern of failing stream starts", "why_tests_cant": "Call sequences and failure patterns are unbounded.", "anchors": ["watcher_fsevents.go:fsevents.watch", "watcher_fsevents.go:fsevents.unwatch", "watcher_fsevents.go:fsevents.Rewatch", "watcher_fsevents.go:fsevents.RecursiveRewatch"]}
{"id": "C50", "title": "macOS end to end: what FSEvents reports in scope reaches the channel", "statement": "If a channel asked for an event on a path in scope of its registration and FSEvents reports it after the history marker, exactly one FSEvents watch forwards it and the tree sends it to the channel as often as its registrations ask for.", "quantifier": "every history of Watch and Stop, every path and flag set", "why_tests_cant": "Needs all histories of the tree together with all states of the watcher.", "anchors": ["tree_recursive.go:recursiveTree.Watch", "tree_recursive.go:recursiveTree.dispatch", "watcher_fsevents.go:watch.Dispatch", "watcher_fsevents.go:fsevents.RecursiveRewatch"]}
{"id": "C51", "title": "Symlink resolution does not change the file", "statement": "If resolving a path succeeds, the resulting path denotes the file the operating system reaches by the given (lexically cleaned) path.", "quantifier": "every filesystem with directories, files and links, every path", "why_tests_cant": "Link structures are unbounded; the failing ones need particular names.", "anchors": ["util.go:canonical", "util.go:cleanpath"]}
{"id": "C52", "title": "kqueue and FEN: no event without content is reported", "statement": "Whatever the kernel reports for a watched path, every event the watcher sends contains at least one event bit. (An event without bits would be sent to every channel of the watchpoint, whatever it asked for.)", "quantifier": "every state of the watcher, every kernel notification", "why_tests_cant": "All combinations of requested sets and native flags.", "anchors": ["watcher_trigger.go:trg.process", "watcher_trigger.go:trg.dir", "watcher_trigger.go:decode", "watchpoint.go:watchpoint.Dispatch"]}
{"id": "C53", "title": "kqueue and FEN: every new entry of a directory watched for Create is reported exactly once", "statement": "If a directory is watched for Create, each entry that appears in it between two readings of the directory is reported as created exactly once, and entries that were there before are not reported.", "quantifier": "every sequence of change notifications of a directory, every content of the directory each time", "why_tests_cant": "Sequences of directory contents are unbounded.", "anchors": ["watcher_trigger.go:trg.dir", "watcher_trigger.go:trg.singlewatch", "watcher_kqueue.go:kq.NewWatched"]}
{"id": "C54", "title": "kqueue: every descriptor is closed exactly once", "statement": "No file descriptor opened by the watcher is closed twice, the descriptors of watched paths are open and distinct, and a descriptor that belongs to no watched path any more has been closed.", "quantifier": "every history of Watch, Rewatch, Unwatch and kernel notifications, every answer of the operating system", "why_tests_cant": "A double close only shows when another goroutine gets the same number in between.", "anchors": ["watcher_trigger.go:trg.singlewatch", "watcher_trigger.go:trg.singleunwatch", "watcher_trigger.go:trg.process", "watcher_trigger.go:trg.dir", "watcher_kqueue.go:kq.Del", "watcher_kqueue.go:kq.NewWatched"]}
{"id": "C55", "title": "A directory that cannot be read does not keep the others from being watched", "statement": "When a new directory below a recursively watched one is scanned and some directory in it cannot be read (it vanished, or access is denied), every other directory found is watched nevertheless, and no existing watch is lost.", "quantifier": "every reachable tree state, every new directory tree, every subset of unreadable directories", "why_tests_cant": "Needs a directory to vanish between two system calls of the scan, at any place of any tree.", "anchors": ["node.go:node.AddDir", "tree_nonrecursive.go:nonrecursiveTree.internal"]}
{"id": "C56", "title": "A directory removed and created again is watched again", "statement": "If a directory below a recursively watched one is removed and created again, then once both events are handled it and everything below it is watched.", "quantifier": "every reachable tree state, every directory, every order in which the two events are handled", "why_tests_cant": "The order in which the dispatch goroutines hand over their events is up to the scheduler.", "anchors": ["tree_nonrecursive.go:nonrecursiveTree.dispatch", "tree_nonrecursive.go:nonrecursiveTree.internal"]}
{"id": "C57", "title": "Three dots ask for the directory before them, recursively", "statement": "A path given to Watch, absolute or relative to the working directory, asks for exactly itself and not recursively; the same path followed by a separator and three dots asks for the same directory recursively; three dots alone stand for the working directory, recursively.", "quantifier": "every file system, every working directory, every path without symlinks", "why_tests_cant": "Paths and file systems are unbounded; names that themselves end in dots are easily forgotten.", "anchors": ["util.go:cleanpath", "util.go:canonical"]}
{"id": "C58", "title": "On Windows the kernel is asked for exactly what the set is about", "statement": "A watch for a set of events accepted by the ReadDirectoryChangesW watcher registers with the kernel for exactly the kinds of change the set is about: those whose raw constant it contains and those its portable events are about (Create, Remove: names of files and directories; Rename: names of files and directories; Write: attributes, size, last write, creation time, security). No handle is registered with an empty or unknown filter.", "quantifier": "every event set accepted by Watch, every kind of change", "why_tests_cant": "There are 2^13 accepted sets; the mapping goes through two handles and an internal marker bit.", "anchors": ["watcher_readdcw.go:grip.readDirChanges", "watcher_readdcw.go:encode", "watcher_readdcw.go:watched.recreate", "watcher_readdcw.go:newGrip"]}
{"id": "C59", "title": "On Windows an action is delivered to a channel exactly if the channel asked for it", "statement": "For every action the kernel reports on a handle of a watch, a channel of the watchpoint is sent the portable event for the action iff its set contains it, and the raw action iff its set contains the corresponding FileNotifyChange constant; once each, the raw action first.", "quantifier": "every watchpoint, every channel in it, every action, both handles, every state of the watch", "why_tests_cant": "Depends on the union of the sets of all channels of the watchpoint; 2^13 sets per channel.", "anchors": ["watcher_readdcw.go:decode", "watcher_readdcw.go:gensys", "watchpoint_readdcw.go:eventmask", "watchpoint_readdcw.go:matches"]}
{"id": "C60", "title": "On Windows the kernel watches what was asked for last", "statement": "When every reported completion has been handled, the handles open for a path are those for the set and the recursiveness of the last successful Watch or Rewatch of the path; after Unwatch there are none.", "quantifier": "every execution of the ReadDirectoryChangesW watcher: all sequences of calls, all interleavings with the completion loop", "why_tests_cant": "Handles are re-created asynchronously by the completion loop; the interleavings are unbounded.", "anchors": ["watcher_readdcw.go:readdcw.rewatch", "watcher_readdcw.go:readdcw.loopstate", "watcher_readdcw.go:watched.recreate"]}
{"id": "C61", "title": "On Windows the memory of a read is used once and kept while in use", "statement": "At any time at most one read is outstanding with the OVERLAPPED structure and buffer of a handle, and as long as one is outstanding or its completion is queued the structure is reachable from the watcher.", "quantifier": "every execution, every handle", "why_tests_cant": "A violation is memory corruption by the kernel, visible only by chance.", "anchors": ["watcher_readdcw.go:readdcw.loop", "watcher_readdcw.go:readdcw.loopstate", "watcher_readdcw.go:grip.readDirChanges"]}
{"id": "C62", "title": "On Windows calls that follow the contract succeed", "statement": "If the kernel refuses nothing, then a Watch of an unwatched path, and a Rewatch and Unwatch of a watched path with its current set, succeed; none of them panics.", "quantifier": "every execution in which the calls follow the contract of the watcher interface", "why_tests_cant": "Depends on where the completion loop is when the call is made.", "anchors": ["watcher_readdcw.go:readdcw.watch", "watcher_readdcw.go:readdcw.rewatch", "watcher_readdcw.go:readdcw.unwatch"]}
{"id": "C63", "title": "On Windows a failed Watch leaves nothing open", "statement": "Every open handle belongs to a watch in the table; in particular a Watch that fails leaves no handle open.", "quantifier": "every execution, every pattern of failures of the kernel", "why_tests_cant": "Needs the kernel to refuse a call at a chosen moment.", "anchors": ["watcher_readdcw.go:readdcw.watch", "watcher_readdcw.go:newGrip", "watcher_readdcw.go:watched.updateGrip"]}
{"id": "C64", "title": "On Windows a buffer of change records is read completely and correctly", "statement": "When the kernel fills a buffer with records of changes, the watcher gets exactly these changes with their actions and names, in order, and reads nothing outside of the buffer, whatever the buffer contained before.", "quantifier": "every non-empty sequence of records the kernel may write, any lengths of names and any padding, any rest of the buffer", "why_tests_cant": "The number, lengths and padding of the records are chosen by the kernel; wrong offsets show only for some combinations.", "anchors": ["watcher_readdcw.go:readdcw.loopevent"]}
{"id": "C65", "title": "Windows end to end: a requested change reaches the channel", "statement": "If a channel has asked by Watch for a portable event on a directory and has not been stopped, then the kernel is registered for every kind of change the event is about, a change it reports makes the watcher send the event, and the channel is sent it as often as its registrations ask for; and no sequence of Watch and Stop calls makes the program panic.", "quantifier": "every sequence of Watch and Stop calls, every path in scope, every action, every interleaving with the completion loop", "why_tests_cant": "Needs particular interleavings of calls with the goroutine that serves the completion port.", "anchors": ["tree_recursive.go:recursiveTree.Watch", "tree_recursive.go:recursiveTree.Stop", "watcher_readdcw.go:readdcw.watch", "watcher_readdcw.go:readdcw.rewatch", "watcher_readdcw.go:readdcw.unwatch"]}
{"id": "C66", "title": "kqueue and FEN hold open only what is requested, whatever is notified", "statement": "On kqueue and FEN, while the files do not change and no system call fails, handling a notification about a watched file or directory does not change what is watched: before and after it a path has an open descriptor and a native registration exactly if the path itself or its directory is requested, with the sets requested; when everything is unwatched nothing is left open.", "quantifier": "for all histories of Watch, Rewatch and Unwatch calls and notifications, all sets of files, both platforms", "why_tests_cant": "Notifications arrive between calls in unbounded combinations, and a descriptor that stays open is not visible in any event.", "anchors": ["watcher_trigger.go:trg.process", "watcher_trigger.go:trg.dir", "watcher_trigger.go:trg.singlewatch", "watcher_trigger.go:trg.singleunwatch"]}
{"id": "C67", "title": "kqueue and FEN: a requested change of an existing file or directory reaches the channel", "statement": "On kqueue and FEN, while no call fails: if a channel asked for an event on a path or on its directory (or recursively on a directory above it), the kernel is registered on the path such that it reports each native change that means that event; when it reports one, the watcher sends that event for that path exactly once and the tree hands it to the channel. A change of the contents of a directory watched for Create gives one Create for each entry that was not there before, and no other.", "quantifier": "for all histories of tree operations, all sets of files, all events and native flags, both platforms", "why_tests_cant": "Combines the tree's history, the bookkeeping of direct and indirect registrations and the translation of sets of flags; tests run on one platform and try single watches.", "anchors": ["tree_nonrecursive.go:nonrecursiveTree.watch", "watcher_trigger.go:trg.process", "watcher_trigger.go:trg.dir", "watcher_trigger.go:trg.file", "watcher_kqueue.go:kq.Watch", "watcher_fen.go:fen.Watch"]}
{"id": "C68", "title": "inotify: the goroutines neither lose nor repeat a change, under any schedule", "statement": "On Linux the records of the kernel pass through a reading goroutine and two sending goroutines, while Watch, Rewatch and Unwatch change the table between their system call and their return. Whatever the schedule: as long as an event stays requested for a watched path (its set may be changed otherwise meanwhile), the events of that kind that reach the dispatcher for each entry are exactly as many as the kernel reported; events never requested meanwhile do not arrive; and the goroutines can always go on until everything has been handed over.", "quantifier": "for all numbers of goroutines, schedules, calls in between, records and entries", "why_tests_cant": "The interleavings of the goroutines with calls are chosen by the scheduler; a lost or repeated event shows only in rare ones.", "anchors": ["watcher_inotify.go:inotify.loop", "watcher_inotify.go:inotify.send", "watcher_inotify.go:inotify.transform", "watcher_inotify.go:inotify.watch", "watcher_inotify.go:inotify.Unwatch"]}
{"id": "C69", "title": "kqueue and FEN: a path that is renamed or removed is forgotten, with everything below a renamed directory", "statement": "When a watched path is renamed or removed, the watcher forgets it: it leaves the table, its native watch ends, and no other path is affected. When a watched directory is renamed, also everything that was watched below its old name is forgotten, and the renaming is reported exactly once for the directory and once for each watched path below.", "quantifier": "for all tables, paths, requested sets and range orders of the table", "why_tests_cant": "Which entries are left behind depends on the whole table and on the order in which Go ranges over it while deleting; leftovers show only much later.", "anchors": ["watcher_trigger.go:trg.process", "watcher_trigger.go:trg.dir", "watcher_trigger.go:trg.singleunwatch", "watcher_kqueue.go:kq.Del", "watcher_fen.go:fen.Del"]}
{"id": "C70", "title": "Linux: a Watch that returns without error is in force", "statement": "On Linux, when Watch of an existing directory returns without error, changes of the requested kinds in that directory reach the channel from then on, as long as it is the same directory, whatever happened before to this or any other watched path: removal, re-creation, renaming, hard links, failed calls.", "quantifier": "for all histories of calls and of file system changes, all directories, sets and kinds of change", "why_tests_cant": "Which inode a watch descriptor belongs to depends on the whole history of the file system; no test covers re-creation of paths at every point.", "anchors": ["watcher_inotify.go:inotify.watch", "watcher_inotify.go:inotify.Unwatch", "tree_nonrecursive.go:nonrecursiveTree.watch", "watchpoint.go:watchpoint.Add"]}
{"id": "C71", "title": "Windows: watching a symbolic link watches its target", "statement": "On Windows, Watch of a path that is a symbolic link watches the file or directory the link stands for; Watch of any other path watches that path.", "quantifier": "for all paths and link targets, and all answers of the OS", "why_tests_cant": "The resolution is string surgery that is only tested on paths with forward slashes; links on Windows need privileges that test machines lack.", "anchors": ["util.go:canonical", "util.go:cleanpath"]}
{"id": "C72", "title": "Changes of directories are followed up exactly below recursive watches", "statement": "An event whose path or directory is watched is handed to the goroutine that follows directory changes if and only if it is the creation or removal of a directory and the path itself or some directory above it is watched recursively.", "quantifier": "every history of Watch, Stop and directory changes, every event", "why_tests_cant": "Depends on the shape of the whole tree on the way to the path; tests look at a few layouts.", "anchors": ["tree_nonrecursive.go:nonrecursiveTree.dispatch", "watchpoint.go:watchpoint.IsRecursive"]}
{"id": "C73", "title": "Linux: a directory that appears below a recursive Watch is watched by the kernel", "statement": "On Linux, when a directory appears below the path of a recursive Watch and its creation is handled, the kernel watches it and the directories below it, and what the channel asked for is reported and sent to the channel, whatever was at that name before.", "quantifier": "every history of calls and of directories that come and go, every directory tree, every channel, every event kind", "why_tests_cant": "Needs the interplay of kernel watches, which follow inodes, with the tree, which goes by names, over unbounded histories.", "anchors": ["tree_nonrecursive.go:nonrecursiveTree.internal", "tree_nonrecursive.go:nonrecursiveTree.recFunc", "tree_nonrecursive.go:nonrecursiveTree.dispatch", "watcher_inotify.go:inotify.watch"]}
{"id": "C74", "title": "Linux: the watcher closes exactly the descriptors it opened", "statement": "On Linux, whichever system calls fail, the watcher closes only descriptors that it opened and that are still open. After a Watch that fails because the watcher could not be set up, no descriptor of the watcher is left open and a later Watch sets it up from the beginning; after Close none is left open either.", "quantifier": "every history of attempts to set the watcher up, every combination of failing system calls, every numbering of descriptors", "why_tests_cant": "The failing combinations need a process out of descriptors at a precise moment; the damage of closing a foreign descriptor appears elsewhere in the program.", "anchors": ["watcher_inotify.go:inotify.lazyinit", "watcher_inotify.go:inotify.epollinit", "watcher_inotify.go:inotify.epollclose", "watcher_inotify.go:inotify.loop"]}
{"id": "C75", "title": "Windows: drives and shares", "statement": "On Windows, watching a directory on any drive or share, its root directory included, works like watching a directory elsewhere: events are delivered exactly as the registrations say, Watch does not panic, it does not make later Watch calls fail, and Stop ends the OS watch.", "quantifier": "every history of Watch and Stop on any drives and shares, every path, event set and channel", "why_tests_cant": "Needs Windows with several drives and shares; watching the root of a drive returns nil and the damage appears in later calls.", "anchors": ["node.go:root.addroot", "node.go:root.root", "node.go:root.Add", "node.go:root.WalkPath", "util.go:indexrel", "util.go:split", "tree_recursive.go:recursiveTree.Watch", "tree_recursive.go:recursiveTree.dispatch"]}
{"id": "C76", "title": "macOS: FSEvents callbacks reach their watch, and nothing is left behind", "statement": "On macOS a callback of FSEvents is handled by the watch for which its stream was made and by no other; every watched path has exactly one running stream; once a watch was removed nothing more is forwarded for it; and a watch that could not be set up or was removed leaves nothing in the registry of callbacks.", "quantifier": "every history of Watch and Unwatch calls with any failures, every interleaving with callbacks", "why_tests_cant": "Callbacks come from a dispatch queue at arbitrary times; a wrong or leaked entry is an integer passed through C and shows up only under rare timing or after many failures.", "anchors": ["watcher_fsevents_cgo.go:gostream", "watcher_fsevents_cgo.go:streamFuncRegistry.add", "watcher_fsevents_cgo.go:streamFuncRegistry.delete", "watcher_fsevents_cgo.go:newStream", "watcher_fsevents_cgo.go:stream.Start", "watcher_fsevents_cgo.go:stream.Stop", "watcher_fsevents.go:fsevents.watch", "watcher_fsevents.go:fsevents.unwatch", "watcher_fsevents.go:fsevents.Close"]}
{"id": "C77", "title": "The text of an event", "statement": "On every platform the text of an event set (Event.String) consists of the names of exactly the constants contained in the set, each once, separated by bars; a single constant prints as its name; two different sets made of named constants have different texts; and one set has one text.", "quantifier": "every platform, every 32-bit set, every order in which Go ranges over the two maps", "why_tests_cant": "The constants are platform specific and partly made by shifting values that are not powers of two, so an overlap is visible on one platform only; the order of a map range is random.", "anchors": ["event.go:Event.String", "event.go:estr", "event_inotify.go:osestr", "event_kqueue.go:osestr", "event_fen.go:osestr", "event_fsevents.go:osestr", "event_readdcw.go:osestr"]}
{"id": "C78", "title": "FSEvents: calls that are documented to fail do fail", "statement": "On macOS a call of the watcher that is documented to fail does fail and changes no watch: watching a path that is watched, removing or changing one that is not, changing one with an old event set that it does not have, moving a watch to a path that is watched.", "quantifier": "every table of watches, every call, every outcome of starting a stream", "why_tests_cant": "Tests exercise calls the tree makes; the tree keeps to the contract, so these errors are reached only when tree and watcher disagree.", "anchors": ["watcher_fsevents.go:fsevents.watch", "watcher_fsevents.go:fsevents.unwatch", "watcher_fsevents.go:fsevents.Rewatch", "watcher_fsevents.go:fsevents.RecursiveRewatch"]}
{"id": "C79", "title": "Solaris: file objects shared with the kernel", "statement": "On Solaris and illumos the watcher passes the kernel the address of a block of C memory for each association. Such a block stays allocated and keeps its path as long as the kernel or the table refers to it, is freed once, and is read only while it is allocated, so that an event has the name of the file that changed; and blocks no longer referred to are freed.", "quantifier": "every history of associations, dissociations, changes and deliveries, every choice of addresses by malloc", "why_tests_cant": "Use after free and leaks show up only with a particular allocator and interleaving; the tests run on none of these systems in CI.", "anchors": ["watcher_fen_cgo.go:cfen.portAssociate", "watcher_fen_cgo.go:cfen.portDissociate", "watcher_fen_cgo.go:cfen.portGet", "watcher_fen_cgo.go:cfo2fo"]}
{"id": "C80", "title": "Solaris: one change, one notification, until Unwatch", "statement": "On Solaris and illumos one change of a watched file is notified once, and after Unwatch the file is not notified any more, also if a notification is on its way while Unwatch runs.", "quantifier": "every history of associations, dissociations, changes and deliveries", "why_tests_cant": "It takes a file watched both directly and through its directory, or a call of Unwatch in the window between port_get and the lock.", "anchors": ["watcher_fen.go:fen.Watch", "watcher_fen.go:fen.Unwatch", "watcher_fen.go:fen.Wait", "watcher_fen_cgo.go:cfen.portAssociate", "watcher_fen_cgo.go:cfen.portDissociate", "watcher_trigger.go:trg.singlewatch", "watcher_trigger.go:trg.unwatch", "watcher_trigger.go:trg.process"]}
{"id": "C81", "title": "kqueue: a notification is about the file it is reported for", "statement": "On the BSDs every notification is reported for the path whose file changed, and its removal ends the watch of this path and of no other; every entry of the tables has an open descriptor and every open descriptor an entry.", "quantifier": "every interleaving of Watch, Unwatch, arrival and handling of notifications, every number returned by open(2)", "why_tests_cant": "The window lies between kevent(2) returning and the lock being taken; in it a descriptor number has to be freed and used again.", "anchors": ["watcher_kqueue.go:kq.Wait", "watcher_kqueue.go:kq.Watched", "watcher_kqueue.go:kq.NewWatched", "watcher_kqueue.go:kq.Record", "watcher_kqueue.go:kq.Del", "watcher_trigger.go:trg.monitor", "watcher_trigger.go:trg.process"]}
{"id": "C82", "title": "The trees do not grow without bound", "statement": "The trees keep a node only for paths that are registered, or scanned for a recursive registration, and for the directories above them; the memory of others is released by Stop, by a failed Watch and when a directory is removed.", "quantifier": "every history of Watch, Stop and handled creations and removals, any calls failing", "why_tests_cant": "Growth shows only in programs that run long and watch ever new paths; nothing observable changes.", "anchors": ["node.go:node.Add", "node.go:node.Del", "node.go:node.AddDir", "tree_nonrecursive.go:nonrecursiveTree.Stop", "tree_nonrecursive.go:nonrecursiveTree.internal", "tree_nonrecursive.go:nonrecursiveTree.Watch", "tree_recursive.go:recursiveTree.Stop", "tree_recursive.go:recursiveTree.Watch"]}
{"id": "C83", "title": "Watch reports that nothing can be watched", "statement": "On Linux, the BSDs and systems without a watcher: if Watch returns nil the OS watches the path for the events, even if calls of the OS fail at any time; if the OS refuses, Watch returns an error.", "quantifier": "every history of Watch, Stop and handled creations and removals in which any calls of the OS fail", "why_tests_cant": "Tests run where the calls succeed; the histories and places of failure are unbounded.", "anchors": ["tree_nonrecursive.go:nonrecursiveTree.watchrec", "tree_nonrecursive.go:nonrecursiveTree.recFunc", "tree_nonrecursive.go:nonrecursiveTree.watch", "tree_nonrecursive.go:nonrecursiveTree.Stop", "watcher_stub.go:watcherStub.Watch", "watcher_notimplemented.go:newWatcher"]}
{"id": "C84", "title": "A program starts although the watcher cannot be set up", "statement": "If the system refuses what the watcher needs when the program starts, the program starts all the same, every call of the watcher fails, what was opened is closed and no descriptor of the program is used.", "quantifier": "every combination of refused calls and any state of descriptor 0, on the BSDs and Solaris", "why_tests_cant": "The refusals happen before main and only when the system is out of resources.", "anchors": ["watcher_trigger.go:newWatcher", "watcher_trigger.go:trg.Close", "watcher_kqueue.go:kq.Init", "watcher_kqueue.go:kq.Stop", "watcher_kqueue.go:kq.Close", "watcher_fen.go:fen.Init", "watcher_fen.go:fen.Stop", "tree.go:newTree"]}
{"id": "C85", "title": "Stop of a channel that is not registered does nothing", "statement": "Stop(c) does nothing if nothing is registered for c: no other channel loses or gains an event, the watcher is given no call that breaks its contract, and there is no panic. This holds for a second Stop(c), for a channel that was never registered and for a nil channel.", "quantifier": "every history before the Stop, every channel including nil, every answer of the OS", "why_tests_cant": "Tests stop the channels that they watched with; the histories are unbounded.", "anchors": ["notify.go:Stop", "tree_nonrecursive.go:nonrecursiveTree.Stop", "tree_nonrecursive.go:nonrecursiveTree.watchDelMin", "tree_recursive.go:recursiveTree.Stop", "watchpoint.go:watchpoint.Del", "watcher_readdcw.go:readdcw.rewatch"]}
{"id": "C86", "title": "Close of a watcher returns, and after it nothing is reported", "statement": "Close of a watcher returns, and from then on the watcher reports no event and sends nothing on the channel, which the tree closes next.", "quantifier": "every schedule of the goroutines of the watcher, every number of pending notifications, on every system", "why_tests_cant": "Tests close a watcher when nothing happens; the failing schedules need a change of a file at the moment of Close.", "anchors": ["watcher.go:watcher.Close", "watcher_inotify.go:inotify.Close", "watcher_inotify.go:inotify.loop", "watcher_inotify.go:inotify.send", "watcher_readdcw.go:readdcw.Close", "watcher_readdcw.go:readdcw.loop", "watcher_trigger.go:trg.Close", "watcher_trigger.go:trg.monitor", "watcher_fsevents.go:fsevents.Close"]}
{"id": "C87", "title": "An event says what is documented: one event, an absolute clean path, and Sys", "statement": "Each event a channel receives is one event that the package names, even if the OS reported several at once; its path is absolute and clean and lies at the path given to Watch; Sys returns the documented value: on Linux the kernel's inotify record, with FSEvents the FSEvent, with kqueue a *notify.Kevent that is never nil, on Windows nil.", "quantifier": "every notification the OS can make, every registration and state, on Linux every schedule of the goroutines", "why_tests_cant": "Tests check few of the combinations of requested and reported flags, and none of them looks at Sys.", "anchors": ["event.go:EventInfo", "event_inotify.go:event.Sys", "event_fsevents.go:event.Sys", "event_trigger.go:event.Sys", "event_readdcw.go:event.Sys", "watcher_inotify.go:inotify.read", "watcher_inotify.go:decode", "watcher_trigger.go:trg.dir", "watcher_trigger.go:trg.process", "watcher_fsevents.go:watch.Dispatch", "watcher_readdcw.go:readdcw.send"]}
{"id": "C88", "title": "Watch and Stop never panic", "statement": "A call of Watch with a channel that is not nil returns nil or an error, and Stop returns: neither panics, whatever events are given, whichever OS calls fail now or failed before.", "quantifier": "every path, event set, channel, outcome of OS calls and directory listings, and state of the tree; for native recursion every history of calls", "why_tests_cant": "Tests pass ordinary event sets and hardly make OS calls fail; the panics found need two or three calls after a failed one, or an empty event set.", "anchors": ["tree_recursive.go:recursiveTree.Watch", "tree_recursive.go:recursiveTree.Stop", "tree_recursive.go:watchCopy", "tree_nonrecursive.go:nonrecursiveTree.Watch", "tree_nonrecursive.go:nonrecursiveTree.Stop", "tree_nonrecursive.go:nonrecursiveTree.internal", "watchpoint.go:watchpoint.Add"]}
{"id": "C89", "title": "No gap: a registered channel stays backed by OS watches at every moment while other calls run", "statement": "From the return of a successful Watch until Stop of its channel (or removal of what is watched), what was asked for is watched by the OS at every moment: also in the middle of other Watch and Stop calls, which extend, narrow, move or merge the same OS watches.", "quantifier": "every history of calls and directory events, every moment between two OS calls, every event set; with native recursion every outcome of the OS calls; on Linux every schedule", "why_tests_cant": "A gap lasts microseconds between two OS calls; a test would have to make a change in exactly that gap and still tell a lost event from a slow one.", "anchors": ["tree_nonrecursive.go:nonrecursiveTree.Watch", "tree_nonrecursive.go:nonrecursiveTree.Stop", "tree_nonrecursive.go:nonrecursiveTree.internal", "tree_recursive.go:recursiveTree.Watch", "tree_recursive.go:recursiveTree.Stop", "watcher_inotify.go:inotify.watch", "watcher_inotify.go:inotify.Rewatch", "watcher_trigger.go:trg.Rewatch", "watcher_fsevents.go:fsevents.RecursiveRewatch", "watcher_readdcw.go:readdcw.rewatch"]}
{"id": "C90", "title": "Linux, whole program: every change the kernel reports is signalled exactly as often as it was asked for, under every schedule", "statement": "On Linux, let channel c be registered for an event on path, at a moment when no operation is under way. Assume that watched paths keep their inodes, that there are no hard links, that OS calls whose failure the code ignores succeed, and that no non-recursive Watch with c has failed. Until there is a Watch or Stop with c, or the removal of path or of an entry concerned is handled: at every moment the kernel watches path for the event, and each record the kernel queues about an entry of path is signalled to c at least once per registration of c that covers it, and exactly that often if the entry is not watched itself; never lost and never doubled, whatever other goroutines watch and stop meanwhile.", "quantifier": "every execution of the program together with the kernel: any number of goroutines calling Watch and Stop, every interleaving of them with dispatch goroutines, the internal goroutine, the watcher's reader and senders and the kernel, every event set, every set of registrations", "why_tests_cant": "A lost or doubled event needs a record to be read or looked up at one particular point inside somebody else's call; tests see few schedules, and cannot tell a lost event from a change that never happened.", "anchors": ["notify.go:Watch", "notify.go:Stop", "tree.go:newTree", "tree_nonrecursive.go:nonrecursiveTree.dispatch", "tree_nonrecursive.go:nonrecursiveTree.Watch", "tree_nonrecursive.go:nonrecursiveTree.Stop", "tree_nonrecursive.go:nonrecursiveTree.internal", "watcher_inotify.go:inotify.loop", "watcher_inotify.go:inotify.send", "watcher_inotify.go:inotify.transform", "watcher_inotify.go:inotify.watch", "watcher_inotify.go:inotify.Unwatch"]}
{"id": "C91", "title": "Linux, whole program: after the last Stop the kernel holds no watch", "statement": "On Linux, assume that watched paths keep their inodes, that there are no hard links, and that OS calls whose failure the code ignores succeed. At any moment of any execution at which no Watch, Stop or internal update is under way, if every channel that was ever passed to Watch was stopped since, then the kernel holds no inotify watch of this program and the watcher's table is empty.", "quantifier": "every execution of the program together with the kernel, every schedule", "why_tests_cant": "Leaked watches show only after the per-user limit is reached; no test counts the kernel's watches after each possible schedule.", "anchors": ["notify.go:Stop", "tree_nonrecursive.go:nonrecursiveTree.Stop", "tree_nonrecursive.go:nonrecursiveTree.internal", "watcher_inotify.go:inotify.Unwatch", "watcher_inotify.go:inotify.watch"]}
{"id": "C92", "title": "No directory is missed while other channels watch and stop", "statement": "Let a channel watch a directory recursively (non-recursive tree), with no other recursive watch on it, above it or below it, no directory below it being removed, and no OS call that the code does not check failing. While directories keep being created below it, other channels are stopped, any channel watches any path non-recursively, with success or without, and paths elsewhere are watched recursively. Once no creation event is pending or being handled, every directory at or below it has an OS watch with at least the requested events and Create.", "quantifier": "every interleaving of directory creations, scans, event handling, Watch and Stop calls, every directory tree, every number of channels, every event set, creation events pending from before", "why_tests_cant": "The directories seen by each scan and the state each Watch and Stop finds depend on timing; a test sees a handful of interleavings, and a missing watch shows only when something later happens in that directory.", "anchors": ["node.go:node.AddDir", "tree_nonrecursive.go:nonrecursiveTree.internal", "tree_nonrecursive.go:nonrecursiveTree.dispatch", "tree_nonrecursive.go:nonrecursiveTree.watchrec", "tree_nonrecursive.go:nonrecursiveTree.watch", "tree_nonrecursive.go:nonrecursiveTree.Stop", "tree_nonrecursive.go:nonrecursiveTree.watchDelMin"]}
{"id": "C93", "title": "Linux, whole program: below a recursive watch every change the kernel reports is signalled, under every schedule", "statement": "On Linux, let channel c be registered for an event recursively on p, and let every directory from p down to q have been found by the scan of Watch or of a later creation event. Assume that watched paths keep their inodes, that there are no hard links, that OS calls whose failure the code ignores succeed, and that no non-recursive Watch with c has failed. Until there is a Watch or Stop with c, or the removal of one of these directories is handled: at every moment the kernel watches q for the event, and each record the kernel queues about q or an entry of q is signalled to c at least once per registration of c that covers it, exactly that often if no other watched path gives events for the same file, whatever other channels watch (also recursively, above or below) and stop meanwhile.", "quantifier": "every execution of the program together with the kernel, from the start; every directory below the watch; every entry name; every set of registrations of other channels", "why_tests_cant": "The OS watches of a subdirectory are shared with all other recursive watches; one Stop or Watch of another channel that shrinks the set of a subdirectory loses events only in that subdirectory and only in some schedules.", "anchors": ["notify.go:Watch", "notify.go:Stop", "tree_nonrecursive.go:nonrecursiveTree.dispatch", "tree_nonrecursive.go:nonrecursiveTree.watchrec", "tree_nonrecursive.go:nonrecursiveTree.recFunc", "tree_nonrecursive.go:nonrecursiveTree.watchDelMin", "tree_nonrecursive.go:nonrecursiveTree.internal", "node.go:node.AddDir", "watcher_inotify.go:inotify.watch", "watcher_inotify.go:inotify.transform", "watcher_inotify.go:inotify.send"]}
{"id": "C94", "title": "Linux, whole program: changes of a watched file are signalled", "statement": "On Linux, let channel c be registered for an event on a file or directory p that is not directly below the root directory, under the assumptions of C93. Until there is a Watch or Stop with c or the removal of p is handled: at every moment the kernel watches p for the event, and each record the kernel queues about p itself is signalled to c at least once per registration of c that covers it, exactly that often if the directory of p is not watched.", "quantifier": "every execution of the program together with the kernel, from the start; every path of at least two components, every event set, every set of registrations", "why_tests_cant": "A record without a name goes through a different branch of the decoding and the lookup; whether it is lost depends on what else happens between the kernel's queue and the channel.", "anchors": ["notify.go:Watch", "tree_nonrecursive.go:nonrecursiveTree.dispatch", "tree_nonrecursive.go:nonrecursiveTree.watch", "watcher_inotify.go:inotify.watch", "watcher_inotify.go:inotify.transform", "watcher_inotify.go:inotify.send", "watcher_inotify.go:decode"]}
{"id": "C95", "title": "Linux, whole program: no directory that appears below a recursive watch is missed, whenever it appears", "statement": "On Linux, let channel c call Watch(p/...) for a directory p, after any use of the package in which no recursive Watch was on p, above it or below it, and let directories appear at any time, before, during and after that call: anywhere below p, by mkdir or by moving a tree of directories to below p, while the package's goroutines, other Watch calls (recursive ones only elsewhere, non-recursive ones anywhere; those of c do not fail) and Stop calls of other channels run in any interleaving. Assume that no directory at or below p is removed or replaced, that directories there can be read and their OS watches set, that the kernel's queue does not overflow when a directory appears, and that there are no hard links. Then at every moment when all records and events have been handled and no call is running, the kernel watches every directory that is there at or below p for everything c asked for, and from then on changes in them are signalled to c as in C93.", "quantifier": "every execution of the program together with the kernel and the directories, from the start; every tree of directories and every order and time of their appearance; every directory; every set of registrations of other channels", "why_tests_cant": "A directory that appears between the moment its parent is read and the moment its parent is watched, or while its event waits in one of five places, is lost only in schedules that a test cannot force; there are infinitely many trees and orders.", "anchors": ["notify.go:Watch", "tree_nonrecursive.go:nonrecursiveTree.watchrec", "tree_nonrecursive.go:nonrecursiveTree.recFunc", "tree_nonrecursive.go:nonrecursiveTree.internal", "tree_nonrecursive.go:nonrecursiveTree.dispatch", "node.go:node.AddDir", "watcher_inotify.go:inotify.watch", "watcher_inotify.go:inotify.loop", "watcher_inotify.go:inotify.send", "watcher_inotify.go:inotify.transform"]}
{"id": "C96", "title": "macOS, whole program: what a stream reports about a path is signalled exactly as often as it was asked for, under every schedule", "statement": "On macOS, after any use of the package in which no Watch fails and every Watch and Stop is harmless in the sense of C26, at a moment when nothing is on its way, let channel c be registered for one event (one FSEvents flag) of a path x of at least two components. Then FSEvents has a running stream at or above x whose watch asks for the event. If that watch is recursive, or x is its path or directly in it, and the stream's history was marked as done, then until there is a Watch or Stop with c or a Watch of a directory above the watch, whatever other Watch and Stop calls run at the same time: the stream runs at every moment, and whenever nothing is on its way c has been signalled, once for each of its registrations that covers x, for exactly those reports about x that show the event. A report shows an event if it has the flag, except that a creation is not shown again before a removal is reported, nor a removal before a creation, and that changes of contents or metadata are not shown together with a removal. (Reports about x that announce lost events are excluded.)", "quantifier": "every execution of the program together with FSEvents, from the start: every schedule of users' goroutines, tree, dispatch and callbacks, every content and size of the batches; every path, every flag, every set of registrations", "why_tests_cant": "Between FSEvents and the channel a report is handled with values of the event set and the recursive flag that were loaded before, while calls change both; a lost or repeated signal needs a schedule that a test cannot force, and tests of this package accept any superset of what they wait for.", "anchors": ["notify.go:Watch", "tree_recursive.go:recursiveTree.Watch", "tree_recursive.go:recursiveTree.Stop", "tree_recursive.go:recursiveTree.dispatch", "watcher_fsevents.go:watch.Dispatch", "watcher_fsevents.go:watch.strip", "watcher_fsevents.go:splitflags", "watcher_fsevents.go:fsevents.watch", "watcher_fsevents.go:fsevents.unwatch", "watcher_fsevents.go:fsevents.Rewatch", "watcher_fsevents.go:fsevents.RecursiveRewatch", "watcher_fsevents_cgo.go:gostream"]}
{"id": "C97", "title": "Native recursion: when every channel is stopped, no OS watch is left", "statement": "On systems with native recursive watching (macOS, Windows), for every sequence of Watch and Stop calls and any watcher that removes a watch if and only if it has it and changes only watches it has (it may refuse anything else): each path the OS watches has a registration at it or below it, no watched path is below another, and once each channel that was passed to Watch has been stopped since, the OS watches nothing. On macOS this means, whenever no operation is under way, that no stream runs, the watcher's table is empty and no callback function remains registered.", "quantifier": "all histories of Watch and Stop, all paths, channels, event sets, orders of map iteration, and all choices of which calls of the watcher are refused; on macOS also all schedules of the program", "why_tests_cant": "A leaked OS watch has no visible effect at the API: its events are dropped by the tree. It shows only as use of resources over a long time, and depends on the order in which nested registrations came and went.", "anchors": ["tree_recursive.go:recursiveTree.Watch", "tree_recursive.go:recursiveTree.Stop", "tree_recursive.go:watchDel", "tree_recursive.go:watchCopy", "tree_recursive.go:watchTotal", "watcher_fsevents.go:fsevents.unwatch", "watcher_fsevents_cgo.go:stream.Stop"]}
{"id": "C98", "title": "macOS, whole program: a change is not signalled twice because two streams report it", "statement": "On macOS, in any use of the package in which no call fails and every Watch and Stop is harmless in the sense of C26: at every moment at most one running stream is at or above a given path, so that one change of it which each stream reports at most once is signalled to a channel at most once for each of the channel's registrations that covers the path.", "quantifier": "every execution of the program together with FSEvents from the start, every schedule, every path; also the moments in the middle of a call", "why_tests_cant": "The time in which two streams run is that between two calls into CoreServices in one Watch; a test would have to make the change in just that time, and would have to reject surplus events, which the tests of this package do not.", "anchors": ["tree_recursive.go:recursiveTree.Watch", "tree_recursive.go:recursiveTree.dispatch", "watcher_fsevents.go:fsevents.watch", "watcher_fsevents.go:fsevents.unwatch", "watcher_fsevents.go:fsevents.RecursiveWatch", "watcher_fsevents.go:watch.Dispatch", "watcher_fsevents_cgo.go:gostream"]}
{"id": "C99", "title": "Windows, whole program: what the handles of a directory report is signalled exactly as often as asked for", "statement": "On Windows, in any use of the package in which every Watch and Stop is harmless in the sense of C26 and the watcher meets none of the races and failures of C60-C62: whenever nothing is on its way and a channel is registered for Create, Remove, Write or Rename of a path, the watcher has an entry for one directory at or above the path. Until a Watch or Stop with that channel, or a Watch of a path above the directory, the entry stays and every handle of it is read with a filter that has the event, also while other channels change what is watched and handles are closed and opened again; and when nothing is on its way again the kernel watches the directory for it, and the event has been signalled to the channel exactly once for each record about the path from the handles of the directory and each registration of the channel that covers the path, if no other directory's handle reported about it.", "quantifier": "every execution of the program together with the kernel from the start: any number of goroutines calling Watch and Stop, every schedule of them, of the goroutine of the tree, of the loop of the watcher and of the completions, every path, every number of records per read", "why_tests_cant": "A Watch of the same directory by another channel closes the handles and the loop opens them again later, while packets of the old handles wait in the completion port; which filter they are translated with and to whom they are sent depends on the schedule of five parties, of which a test drives one.", "anchors": ["tree_recursive.go:recursiveTree.Watch", "tree_recursive.go:recursiveTree.Stop", "tree_recursive.go:recursiveTree.dispatch", "watcher_readdcw.go:readdcw.watch", "watcher_readdcw.go:readdcw.rewatch", "watcher_readdcw.go:readdcw.unwatch", "watcher_readdcw.go:readdcw.RecursiveRewatch", "watcher_readdcw.go:readdcw.loop", "watcher_readdcw.go:readdcw.loopevent", "watcher_readdcw.go:readdcw.loopstate", "watcher_readdcw.go:readdcw.send", "watcher_readdcw.go:gensys"]}
