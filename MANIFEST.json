{
 "claims": [
  {
   "property": "C01",
   "status": "proved",
   "theorems": [
    "Verif.NonRec.C01_delivery_exact"
   ],
   "note": "every history of Watch/Stop/creation/removal, any oracle, any map order; for each channel of which no non-recursive Watch failed (see C10)"
  },
  {
   "property": "C04",
   "status": "proved",
   "theorems": [
    "Verif.NonRec.C04_stop_silences",
    "Verif.Rec.C04_stop_silences"
   ],
   "note": "both trees"
  },
  {
   "property": "C06",
   "status": "proved",
   "theorems": [
    "Verif.NonRec.C06_stop_frame",
    "Verif.Rec.C06_stop_frame"
   ],
   "note": "both trees"
  },
  {
   "property": "C07",
   "status": "partial",
   "theorems": [
    "Verif.NonRec.C07_watch_expands",
    "Verif.NonRec.C07_repeat_noop",
    "Verif.Rec.C07_watch_expands",
    "Verif.Rec.C07_repeat_partial",
    "Verif.Rec.C07_repeat_refuted"
   ],
   "note": "proved on the non-recursive tree; on the recursive tree repeating a Watch is a no-op after harmless histories and not in general (witness)"
  },
  {
   "property": "C08",
   "status": "proved",
   "theorems": [
    "Verif.NonRec.C08_empty_list",
    "Verif.Rec.C08_empty_list"
   ],
   "note": "both trees"
  },
  {
   "property": "C11",
   "status": "proved",
   "theorems": [
    "Verif.NonRec.C11_os_mirror"
   ],
   "note": "calls whose failure the code ignores are assumed to succeed"
  },
  {
   "property": "C12",
   "status": "proved",
   "theorems": [
    "Verif.NonRec.C12_contract"
   ],
   "note": "Calls whose failure the code ignores are assumed to succeed."
  },
  {
   "property": "C13",
   "status": "proved",
   "theorems": [
    "Verif.NonRec.C13_all_stopped"
   ],
   "note": "Calls whose failure the code ignores are assumed to succeed."
  },
  {
   "property": "C14",
   "status": "proved",
   "theorems": [
    "Verif.NonRec.C14_backed"
   ],
   "note": "Calls whose failure the code ignores are assumed to succeed."
  },
  {
   "property": "C20",
   "status": "proved",
   "theorems": [
    "Verif.NonRec.C20_removed"
   ],
   "note": "Calls whose failure the code ignores are assumed to succeed."
  },
  {
   "property": "C03",
   "status": "partial",
   "theorems": [
    "Verif.NonRec.C03_only_requested",
    "Verif.Rec.C03_only_requested",
    "Verif.Rec.C03_refuted_windows"
   ],
   "note": "proved on every tree state of both trees for all events except the raw FileAction events of Windows, for which it is false (witness)"
  },
  {
   "property": "C10",
   "status": "partial",
   "theorems": [
    "Verif.NonRec.C10_failed_watch_partial",
    "Verif.NonRec.C10_refuted_plain",
    "Verif.NonRec.C10_refuted_rec"
   ],
   "note": "false as stated: the two _refuted theorems have the witnesses; the partial theorem says exactly what a failed non-recursive Watch leaves"
  },
  {
   "property": "C15",
   "status": "partial",
   "theorems": [
    "Verif.NonRec.C15_covers_partial",
    "Verif.NonRec.C15_refuted"
   ],
   "note": "false as stated after a failed recursive Watch on the same path (witness); C44 has the statement for histories without failed listings"
  },
  {
   "property": "C16",
   "status": "partial",
   "theorems": [
    "Verif.NonRec.C16_survives_partial",
    "Verif.NonRec.C16_refuted"
   ],
   "note": "false as stated after failed recursive Watches (witness); proved for histories without failed listings"
  },
  {
   "property": "C17",
   "status": "partial",
   "theorems": [
    "Verif.NonRec.C17_new_dir_partial",
    "Verif.NonRec.C17_refuted",
    "Verif.NonRec.C17_refuted_pending"
   ],
   "note": "false after a failed recursive Watch (C17_refuted), and without any failure if a scan overtakes pending events below nested recursive watches (C17_refuted_pending); proved for histories in which each creation is handled before the next step"
  },
  {
   "property": "C19",
   "status": "partial",
   "theorems": [
    "Verif.NonRec.C19_minimal_partial",
    "Verif.NonRec.C19_refuted"
   ],
   "note": "false as stated (witness); the partial theorem bounds what Stop leaves"
  },
  {
   "property": "C43",
   "status": "partial",
   "theorems": [
    "Verif.NonRec.C43_refuted",
    "Verif.Rec.C43_refuted",
    "Verif.NonRec.C43_deaf_refuted",
    "Verif.NonRec.C43_collide_refuted",
    "Verif.Rec.C43_blocks_refuted",
    "Verif.Rec.C43_stays_refuted"
   ],
   "note": "refuted on both trees: no event on a top-level path is ever delivered, whatever is registered (C43_refuted); a channel registered on / only never receives anything (C43_deaf_refuted); a recursive Watch of / misses directories whose names differ in the first letter only (C43_collide_refuted); on macOS, once / is watched every Watch that asks for another event fails (C43_blocks_refuted), and Stop leaves the OS watch (C43_stays_refuted)"
  },
  {
   "property": "C44",
   "status": "proved",
   "theorems": [
    "Verif.NonRec.C44_coverage",
    "Verif.NonRec.C44_asked_registered",
    "Verif.NonRec.C44_handed_over"
   ],
   "note": ""
  },
  {
   "property": "C21",
   "status": "proved",
   "theorems": [
    "Verif.WP.C21_total",
    "Verif.WP.C21_diff",
    "Verif.WP.C21_remove",
    "Verif.WP.C21_empty",
    "Verif.WP.C21_dryAdd"
   ],
   "note": ""
  },
  {
   "property": "C22",
   "status": "proved",
   "theorems": [
    "Verif.Node.C22_add",
    "Verif.Node.C22_del",
    "Verif.Node.C22_walkPath",
    "Verif.Node.C22_walk"
   ],
   "note": "lookup is Node.find; Walk is shown for trees without inactive children (empty key)"
  },
  {
   "property": "C02",
   "status": "partial",
   "theorems": [
    "Verif.Rec.C02_delivery_exact",
    "Verif.Rec.C03_refuted_windows"
   ],
   "note": "proved for all events except the raw FileAction events of Windows, for which it is false (witness)"
  },
  {
   "property": "C25",
   "status": "proved",
   "theorems": [
    "Verif.Rec.C25_watch_only_mirror"
   ],
   "note": ""
  },
  {
   "property": "C26",
   "status": "partial",
   "theorems": [
    "Verif.Rec.C26_mirror_partial",
    "Verif.Rec.C26_stop_keeps_iff",
    "Verif.Rec.C26_refuted"
   ],
   "note": "false as stated (witness); the exact condition under which a Stop keeps the other channels covered is proved"
  },
  {
   "property": "C27",
   "status": "partial",
   "theorems": [
    "Verif.Rec.C27_recursive_partial",
    "Verif.Rec.C27_refuted"
   ],
   "note": "false as stated (witness); proved except when the events were already covered by a non-recursive OS watch"
  },
  {
   "property": "C29",
   "status": "partial",
   "theorems": [
    "Verif.Rec.C26_mirror_partial",
    "Verif.Rec.C29_refuted"
   ],
   "note": "false as stated (witness); proved for harmless histories"
  },
  {
   "property": "C28",
   "status": "partial",
   "theorems": [
    "Verif.Rec.C28_retry_partial",
    "Verif.Rec.C28_refuted_adopt",
    "Verif.Rec.C28_refuted_recursive"
   ],
   "note": "false as stated (two witnesses); proved when the failed Watch was to extend an OS watch above, or was a non-recursive one with none above or below"
  },
  {
   "property": "C45",
   "status": "partial",
   "theorems": [
    "Verif.Rec.C45_nested_partial",
    "Verif.Rec.C45_refuted"
   ],
   "note": "false as stated (witness); proved unless the events were already covered and no OS call was made"
  },
  {
   "property": "C23",
   "status": "partial",
   "theorems": [
    "Verif.PathStr.C23_below",
    "Verif.PathStr.C23_split",
    "Verif.PathStr.C23_steps",
    "Verif.PathStr.C23_tree",
    "Verif.PathStr.C23_rootGet",
    "Verif.PathStr.C23_root_refuted"
   ],
   "note": "proved for every path other than / itself, for which it is false (witness; see C43); C23_tree ties the string loops of node.go to the component functions used everywhere else"
  },
  {
   "property": "C09",
   "status": "proved",
   "theorems": [
    "Verif.C09_deliver",
    "Verif.C09_room"
   ],
   "note": "for every tree state and every state of the channels; the recursive tree sends to the same list (Verif.Rec.sends = Verif.NonRec.sends, used by C01); that a send attempt is always possible is part of C30"
  },
  {
   "property": "C05",
   "status": "proved",
   "theorems": [
    "Verif.Sched.C05_nonrec",
    "Verif.Sched.C05_rec"
   ],
   "note": "transition system with any number of goroutines, any schedule, both policies of the lock"
  },
  {
   "property": "C30",
   "status": "proved",
   "theorems": [
    "Verif.Sched.C30_nonrec",
    "Verif.Sched.C30_rec",
    "Verif.Sched.C30_returns_nonrec",
    "Verif.Sched.C30_returns_rec"
   ],
   "note": "progress, termination without new input, and draining; Close: C86"
  },
  {
   "property": "C31",
   "status": "partial",
   "theorems": [
    "Verif.Sched.C31_refuted",
    "Verif.Sched.C31_sequential_partial",
    "Verif.Sched.C31_sequential_rec_partial",
    "Verif.Sched.C31_swap",
    "Verif.Sched.C31_rec_refuted",
    "Verif.Inotify.C68_order_refuted"
   ],
   "note": "false as stated (witness schedules for both trees; in every state at rest any two events that a channel is sent can be exchanged, C31_swap; on Linux the watcher itself may change the order too); proved for events whose goroutines do not overlap"
  },
  {
   "property": "C46",
   "status": "proved",
   "theorems": [
    "Verif.Sched.C46_linearizable",
    "Verif.Sched.C46_linearizable_rec",
    "Verif.Sched.C46_delivery",
    "Verif.Sched.C46_delivery_rec"
   ],
   "note": ""
  },
  {
   "property": "C32",
   "status": "proved",
   "theorems": [
    "Verif.Inotify.C32_mask"
   ],
   "note": ""
  },
  {
   "property": "C33",
   "status": "proved",
   "theorems": [
    "Verif.Inotify.C33_exact",
    "Verif.Inotify.C33_sound",
    "Verif.Inotify.C33_some",
    "Verif.Inotify.C33_nothing",
    "Verif.Inotify.C33_batch"
   ],
   "note": "exactness is for kernel events with one event bit, with or without IN_ISDIR, as inotify reports them; soundness and completeness for every raw mask"
  },
  {
   "property": "C34",
   "status": "proved",
   "theorems": [
    "Verif.Inotify.C34_parse",
    "Verif.Inotify.C34_fits"
   ],
   "note": "little-endian machine"
  },
  {
   "property": "C35",
   "status": "partial",
   "theorems": [
    "Verif.Inotify.C35_unwatch_partial",
    "Verif.Inotify.C35_others",
    "Verif.Inotify.C35_refuted"
   ],
   "note": "false as stated: after deletion and re-creation of a watched file the table has two entries for the path and Unwatch may only drop the stale one (witness); other paths are never affected; proved when watched paths keep their inodes"
  },
  {
   "property": "C36",
   "status": "partial",
   "theorems": [
    "Verif.Inotify.C36_linux_partial",
    "Verif.Inotify.C36_refuted"
   ],
   "note": "False of the code for a directory reachable under two paths (`C36_refuted`). Proved for histories where watched paths keep their inodes, there are no hard links, no non-recursive Watch of the channel failed, and the calls whose failure is ignored succeed"
  },
  {
   "property": "C47",
   "status": "proved",
   "theorems": [
    "Verif.C47_nonrec",
    "Verif.C47_rec"
   ],
   "note": ""
  },
  {
   "property": "C37",
   "status": "proved",
   "theorems": [
    "Verif.Fsevents.C37_split"
   ],
   "note": "For every 32-bit set; splitflags is a total function, so the loop terminates."
  },
  {
   "property": "C38",
   "status": "proved",
   "theorems": [
    "Verif.Fsevents.C38_sound",
    "Verif.Fsevents.C38_exact",
    "Verif.Fsevents.C38_root"
   ],
   "note": "C38_exact also says what is forwarded for an event in scope. C38_root: a watch of the root directory forwards nothing below it."
  },
  {
   "property": "C39",
   "status": "proved",
   "theorems": [
    "Verif.Fsevents.C39_alternate",
    "Verif.Fsevents.C39_toggle",
    "Verif.Fsevents.C39_needs_pure"
   ],
   "note": "For watches that ask for both flags and paths without trailing separator. C39_needs_pure shows that the alternation need not hold before the first pure report."
  },
  {
   "property": "C48",
   "status": "proved",
   "theorems": [
    "Verif.Fsevents.C48_remove_alone"
   ],
   "note": "For watches that ask for creations (otherwise a creation could be present but not forwarded)."
  },
  {
   "property": "C49",
   "status": "partial",
   "theorems": [
    "Verif.Fsevents.C49_serve",
    "Verif.Fsevents.C49_contract_partial",
    "Verif.Fsevents.C49_refuted"
   ],
   "note": "False for a move of a watch to another path whose new stream does not start: the old watch is gone (C49_refuted). Proved for all other call sequences."
  },
  {
   "property": "C50",
   "status": "partial",
   "theorems": [
    "Verif.Fsevents.C50_macos_partial",
    "Verif.Fsevents.C50_refuted"
   ],
   "note": "False of the code further below a non-recursive OS watch (`C50_refuted`, see C45). Proved for harmless histories in the sense of C26 and no failed move of a watch otherwise."
  },
  {
   "property": "C24",
   "status": "partial",
   "theorems": [
    "Verif.Canon.C24_probes",
    "Verif.Canon.C24_form",
    "Verif.Canon.C24_depth",
    "Verif.Canon.C24_linkfree_partial",
    "Verif.Canon.C24_refuted"
   ],
   "note": "Proved for every OS behaviour: at most 128 Lstat calls (each followed by at most one Readlink), and a successful result is / or a sequence of proper names. 'No symlink in the result' is false when an entry of the root directory is a relative link (C24_refuted: the loop restarts one character too late); proved for all other filesystems that do not change during the call. A link-free path comes out unchanged, or is refused if it has more than 128 components (C24_depth)."
  },
  {
   "property": "C51",
   "status": "partial",
   "theorems": [
    "Verif.Canon.C51_same_partial",
    "Verif.Canon.C51_refuted"
   ],
   "note": "False when an entry of the root directory is a relative link (C51_refuted: /a -> b, /b -> cc turns /a/f into /bcc/f); proved for all other filesystems."
  },
  {
   "property": "C40",
   "status": "partial",
   "theorems": [
    "Verif.Trg.C40_mask_kqueue",
    "Verif.Trg.C40_mask_fen",
    "Verif.Trg.C40_decode_kqueue",
    "Verif.Trg.C40_decode_fen",
    "Verif.Trg.C40_reports_partial",
    "Verif.Trg.C40_refuted"
   ],
   "note": "Masks and translation are proved for every event set, every native flags and every order of the table. 'Contained in what was requested for the path or its directory' is false for files further below a renamed directory (C40_refuted); proved with respect to the sets of the path of the notification (C40_reports_partial)."
  },
  {
   "property": "C41",
   "status": "partial",
   "theorems": [
    "Verif.Trg.C41_book_partial",
    "Verif.Trg.C41_ok_partial",
    "Verif.Trg.C41_refuted",
    "Verif.Trg.C41_rewatch_refuted"
   ],
   "note": "Proved for every history in a filesystem without errors, with entries that are skipped. False if an entry of the directory cannot be opened (C41_refuted); Rewatch reports success although it failed (C41_rewatch_refuted)."
  },
  {
   "property": "C42",
   "status": "partial",
   "theorems": [
    "Verif.Inotify.C42_inotify",
    "Verif.Fsevents.C42_fsevents",
    "Verif.Fsevents.C42_watchpoint",
    "Verif.Dcw.C42_windows",
    "Verif.Trg.C42_kqueue_partial",
    "Verif.Trg.C42_gets_iff",
    "Verif.Trg.C42_kqueue_refuted",
    "Verif.Trg.C42_native_refuted"
   ],
   "note": "Proved on inotify, on Windows and, for batches without failure flags, on FSEvents. False on kqueue: several flags of a notification become one event, which a channel only gets if it asked for all of them (C42_kqueue_refuted, C42_native_refuted); proved there if the further events are not meant by the notification. FEN works like kqueue."
  },
  {
   "property": "C52",
   "status": "partial",
   "theorems": [
    "Verif.Trg.C52_kqueue_partial",
    "Verif.Trg.C52_refuted",
    "Verif.Trg.C52_goes_everywhere"
   ],
   "note": "Proved on kqueue if the kernel reports only flags of the native mask. False on FEN (C52_refuted)."
  },
  {
   "property": "C53",
   "status": "partial",
   "theorems": [
    "Verif.Trg.C53_scan",
    "Verif.Trg.C53_once_partial",
    "Verif.Trg.C53_again_refuted",
    "Verif.Trg.C53_skipped_refuted"
   ],
   "note": "Proved for any sequence of readings without errors, for entries that are not removed and created again in between. False for entries that are created again if Remove is not requested (C53_again_refuted) and for entries the watcher skips (C53_skipped_refuted)."
  },
  {
   "property": "C54",
   "status": "partial",
   "theorems": [
    "Verif.Trg.C54_once_partial",
    "Verif.Trg.C54_closed_partial",
    "Verif.Trg.C54_twice",
    "Verif.Trg.C54_refuted",
    "Verif.Trg.C54_leak_refuted"
   ],
   "note": "Proved for histories in which no watched directory is removed or renamed; the second part also needs that registrations succeed. False otherwise: removal of a directory closes its descriptor twice (C54_refuted), and a failed registration leaves the descriptor open (C54_leak_refuted)."
  },
  {
   "property": "C18",
   "status": "proved",
   "theorems": [
    "Verif.NonRec.C18_no_directory_missed"
   ],
   "note": "For every interleaving of creations with the scan of the recursive Watch, with the scans of the internal goroutine and with event handling, in any order. OS calls and listings succeed and nothing is removed (see C55, C56); no other Watch or Stop call is made meanwhile (see C17_refuted_pending for nested recursive watches); there is no recursive watch above the path."
  },
  {
   "property": "C55",
   "status": "partial",
   "theorems": [
    "Verif.NonRec.C55_nothing_lost_partial",
    "Verif.NonRec.C55_refuted"
   ],
   "note": "False: the scan ends at the first directory that cannot be read (C55_refuted). Proved: nothing that was watched or registered is lost."
  },
  {
   "property": "C56",
   "status": "partial",
   "theorems": [
    "Verif.NonRec.C56_in_order_partial",
    "Verif.NonRec.C56_refuted"
   ],
   "note": "False if the removal is handled last (C56_refuted); proved if the events are handled in the order in which they happened."
  },
  {
   "property": "C57",
   "status": "partial",
   "theorems": [
    "Verif.Canon.C57_dots_partial",
    "Verif.Canon.C57_alone",
    "Verif.Canon.C57_refuted"
   ],
   "note": "False for names that themselves end in three dots: the dots are cut off the name (C57_refuted). Proved for all other paths without links of at most 128 components, absolute or relative."
  },
  {
   "property": "C58",
   "status": "partial",
   "theorems": [
    "Verif.Dcw.C58_native_partial",
    "Verif.Dcw.C58_accepted",
    "Verif.Dcw.C58_refuted"
   ],
   "note": "False of the code: Rename alone does not ask for names of directories, Write does not ask for FILE_NOTIFY_CHANGE_LAST_WRITE (C58_refuted). C58_native_partial gives the exact set of changes registered for every accepted set, equal to what is wanted apart from these two; C58_accepted: no handle is registered with an empty or unknown filter (for sets with more than the names of directories)."
  },
  {
   "property": "C59",
   "status": "proved",
   "theorems": [
    "Verif.Dcw.C59_delivery"
   ],
   "note": "For all watchpoints, channels, actions, both handles and all states."
  },
  {
   "property": "C60",
   "status": "partial",
   "theorems": [
    "Verif.Dcw.C60_held_partial",
    "Verif.Dcw.C60_refuted",
    "Verif.Dcw.C60_dirname_refuted",
    "Verif.Dcw.C60_early_refuted",
    "Verif.Dcw.C60_unwatch_refuted"
   ],
   "note": "False of the code in four ways, each with a witness: Unwatch and Watch with another set keeps the old set; Rewatch to names of directories only kills the watch; a completion that arrives before the grip is linked kills the watch; Unwatch keeps the kernel watching until the next event. C60_held_partial proves it for all executions without these (a path is watched again only when its entry is gone, Rewatch not while the loop is between reading again and looking at the state of the entry, nothing fails but opening the directory in Watch)."
  },
  {
   "property": "C61",
   "status": "partial",
   "theorems": [
    "Verif.Dcw.C61_memory_partial",
    "Verif.Dcw.C61_refuted",
    "Verif.Dcw.C61_drop_refuted"
   ],
   "note": "False of the code: two reads may be outstanding with one OVERLAPPED (C61_refuted), and the structure is dropped while the last completion is still queued (C61_drop_refuted). C61_memory_partial proves the first part for the executions of C60_held_partial, the second for those of them without Unwatch and failed Watch."
  },
  {
   "property": "C62",
   "status": "partial",
   "theorems": [
    "Verif.Dcw.C62_calls_partial",
    "Verif.Dcw.C62_panic_refuted",
    "Verif.Dcw.C62_refuted"
   ],
   "note": "False of the code: Unwatch, Watch, Rewatch panics; a second Rewatch shortly after the first fails. C62_calls_partial proves for the executions of C60_held_partial that nothing panics, and that calls succeed when everything reported is handled."
  },
  {
   "property": "C63",
   "status": "partial",
   "theorems": [
    "Verif.Dcw.C63_noleak_partial",
    "Verif.Dcw.C63_refuted"
   ],
   "note": "False of the code: when the first read is refused, Watch fails and its handle stays open for ever. C63_noleak_partial proves it for the executions of C60_held_partial, where opening the directory may fail in Watch."
  },
  {
   "property": "C64",
   "status": "proved",
   "theorems": [
    "Verif.Dcw.C64_parse",
    "Verif.Dcw.C64_long"
   ],
   "note": "For buffers of the size the code uses and `syscall.MAX_LONG_PATH` of at least 2042 (it is 32768); with a smaller constant a long name would make the program panic (`C64_long`). Decoding of the names: C104. Overflow of the buffer (no bytes reported) is not an event."
  },
  {
   "property": "C65",
   "status": "partial",
   "theorems": [
    "Verif.Dcw.C65_windows_partial",
    "Verif.Dcw.C65_refuted"
   ],
   "note": "False of the code: Watch for Create, Stop, Watch for Write, Watch for Rename on one directory, with no event in between, makes the program panic (C65_refuted). C65_windows_partial composes C02, C26, C58, C60 and the translation for the executions in which these hold: harmless histories, no failed move of a watch, none of the races of C60; not for raw events, the two kinds of change of C58_refuted, and paths further below a non-recursive OS watch."
  },
  {
   "property": "C66",
   "status": "partial",
   "theorems": [
    "Verif.Trg.C66_any_partial",
    "Verif.Trg.C66_notes_partial",
    "Verif.Trg.C66_refuted"
   ],
   "note": "False of the code: a change in a subdirectory of a watched directory makes the watcher open every entry of that subdirectory with an empty set, and they stay open after Unwatch (C66_refuted). C66_any_partial proves, for all histories with any notifications that are not about removals, that requested paths are watched exactly as requested and that nothing else is in the table except such entries with empty sets; C66_notes_partial proves the property itself if the only directories notified are themselves requested."
  },
  {
   "property": "C67",
   "status": "partial",
   "theorems": [
    "Verif.Trg.C67_kqueue_partial",
    "Verif.Trg.C67_recursive_partial",
    "Verif.Trg.C67_create_partial",
    "Verif.Trg.C67_refuted"
   ],
   "note": "False of the code for raw events other than removal and renaming of a directory itself (C67_refuted), and where one flag stands for two requested events (C42). Proved for all other events, for histories with any notifications that are not about removals, channels without failed non-recursive Watch."
  },
  {
   "property": "C68",
   "status": "proved",
   "theorems": [
    "Verif.Inotify.C68_once",
    "Verif.Inotify.C68_calls",
    "Verif.Inotify.C68_change",
    "Verif.Inotify.C68_only",
    "Verif.Inotify.C68_progress",
    "Verif.Inotify.C68_linux_partial"
   ],
   "note": "For all schedules. The order of events is not kept (C68_order_refuted, see C31). C68_linux_partial composes it with the tree under the conditions of C36."
  },
  {
   "property": "C69",
   "status": "partial",
   "theorems": [
    "Verif.Trg.C69_rename_partial",
    "Verif.Trg.C69_remove_partial",
    "Verif.Trg.C69_refuted"
   ],
   "note": "False on FEN when the renaming (or removal) was not requested: the entries stay in the table (C69_refuted). Proved if the notified event was requested for the path, and the native unwatching of the entries below succeeds."
  },
  {
   "property": "C70",
   "status": "partial",
   "theorems": [
    "Verif.Inotify.C70_since_partial",
    "Verif.Inotify.C70_watch_partial",
    "Verif.Inotify.C70_refuted"
   ],
   "note": "False of a Watch that asks for nothing new: if the directory was replaced since it was first watched, Watch returns nil and nothing is watched (C70_refuted). Proved for a non-recursive Watch that asks for more than was asked before (C70_watch_partial), and from then on as long as the path leads to the same inode and this inode is not watched under another name (C70_since_partial); no non-recursive Watch of the channel failed, and the calls whose failure is ignored succeed."
  },
  {
   "property": "C71",
   "status": "partial",
   "theorems": [
    "Verif.CanonWin.C71_plain_partial",
    "Verif.CanonWin.C71_absolute_refuted",
    "Verif.CanonWin.C71_relative_refuted"
   ],
   "note": "False of every link: canonical looks for / and puts / before an absolute target, so that the Watch fails (C71_absolute_refuted); a relative target is put after the drive letter (C71_relative_refuted). Proved for paths that are no links themselves. Links with forward slashes in their targets are not covered."
  },
  {
   "property": "C72",
   "status": "proved",
   "theorems": [
    "Verif.NonRec.C72_handed",
    "Verif.NonRec.C72_reported"
   ],
   "note": ""
  },
  {
   "property": "C73",
   "status": "partial",
   "theorems": [
    "Verif.Inotify.C73_new_partial",
    "Verif.Inotify.C73_covered_partial",
    "Verif.Inotify.C73_silent_refuted",
    "Verif.Inotify.C73_rename_refuted"
   ],
   "note": "False if a directory was at the name before and its removal was not reported because the channel did not ask for Remove (C73_silent_refuted), or it was renamed, which is never followed up (C73_rename_refuted): the tree takes the new directory for the old one and makes no call. Proved for histories in which every removal is reported and handled and directories are not renamed (C73_new_partial), and from then on as long as the path leads to the same inode (C73_covered_partial)."
  },
  {
   "property": "C74",
   "status": "partial",
   "theorems": [
    "Verif.InotifyInit.C74_descriptors_partial",
    "Verif.InotifyInit.C74_result",
    "Verif.InotifyInit.C74_stdin_refuted"
   ],
   "note": "False with the version of golang.org/x/sys named in go.mod, whose Pipe stores zeros when it fails: a Watch for which no descriptor is left for the pipe closes descriptor 0, twice (C74_stdin_refuted). Proved for versions of Pipe that store nothing on failure (C74_descriptors_partial). Missing: nothing else."
  },
  {
   "property": "C75",
   "status": "partial",
   "theorems": [
    "Verif.Vol.C75_below_partial",
    "Verif.Vol.C75_top_refuted",
    "Verif.Vol.C75_deaf_refuted",
    "Verif.Vol.C75_blocks_refuted",
    "Verif.Vol.C75_stays_refuted",
    "Verif.Vol.C75_share_refuted"
   ],
   "note": "False of root directories: events directly below them are sent to nobody (C75_top_refuted), a channel registered only for root directories is sent nothing (C75_deaf_refuted), after a Watch of C:\\ every Watch on the drive that asks for another event fails (C75_blocks_refuted), Stop leaves the OS watch (C75_stays_refuted), and Watch of the root of a share panics (C75_share_refuted). Proved for Watch calls below the root directories and events at least two levels down: the tree is in a state it also reaches without volumes, so C02, C04, C06, C07, C25-C29 hold (C75_below_partial)."
  },
  {
   "property": "C76",
   "status": "partial",
   "theorems": [
    "Verif.Streams.C76_route",
    "Verif.Streams.C76_clean_partial",
    "Verif.Streams.C76_late_refuted",
    "Verif.Streams.C76_leak_refuted"
   ],
   "note": "Callbacks and running streams: proved (C76_route). False: a callback that has taken its function forwards events after Unwatch returned (C76_late_refuted); a stream that does not start stays in the registry for ever (C76_leak_refuted). The registry is proved clean if every stream starts (C76_clean_partial)."
  },
  {
   "property": "C77",
   "status": "partial",
   "theorems": [
    "Verif.EventString.C77_names",
    "Verif.EventString.C77_determines",
    "Verif.EventString.C77_single",
    "Verif.EventString.C77_complete",
    "Verif.EventString.C77_exact",
    "Verif.EventString.C77_exported",
    "Verif.EventString.C77_order_refuted"
   ],
   "note": "Names, single constants and that the text determines the set: proved. That a set has one text is false for sets of two or more constants, since the names come in the order of a map range (C77_order_refuted)."
  },
  {
   "property": "C78",
   "status": "partial",
   "theorems": [
    "Verif.Fsevents.C78_refuses_partial",
    "Verif.Fsevents.C78_refuted"
   ],
   "note": "False of RecursiveRewatch, which does not check the old set if it moves the watch or keeps the set (C78_refuted); proved of all other calls that must fail."
  },
  {
   "property": "C79",
   "status": "partial",
   "theorems": [
    "Verif.FenMem.C79_blocks",
    "Verif.FenMem.C79_name_partial",
    "Verif.FenMem.C79_noleak_partial",
    "Verif.FenMem.C79_freed_refuted",
    "Verif.FenMem.C79_leak_refuted"
   ],
   "note": "What the kernel, its queue and the table refer to is allocated and has the right path, and is freed once: C79_blocks, all histories. Reading is false of the code: between port_get and cfo2fo the block can be freed (C79_freed_refuted); proved when no dissociation falls there (C79_name_partial). Freeing is false: every new association of a path leaks the previous block (C79_leak_refuted); proved without new associations (C79_noleak_partial)."
  },
  {
   "property": "C80",
   "status": "partial",
   "theorems": [
    "Verif.FenMem.C80_once_partial",
    "Verif.FenMem.C80_ends_partial",
    "Verif.FenMem.C80_refuted",
    "Verif.Trg.C80_inflight_refuted"
   ],
   "note": "False: a file watched directly and through its directory has two associations, one of which Unwatch leaves (C80_refuted); and Unwatch of a directory fails half way if a notification of one of its files is on its way (C80_inflight_refuted). Proved if no path is associated while it is associated (C80_once_partial, C80_ends_partial)."
  },
  {
   "property": "C81",
   "status": "partial",
   "theorems": [
    "Verif.KqFds.C81_tables",
    "Verif.KqFds.C81_handled",
    "Verif.KqFds.C81_files_partial",
    "Verif.KqFds.C81_refuted"
   ],
   "note": "The tables and what handling does: proved, all histories. The file: false if a number is used again between Wait and process, in which case the removal of one file is reported for another and ends its watch (C81_refuted); proved otherwise (C81_files_partial)."
  },
  {
   "property": "C82",
   "status": "partial",
   "theorems": [
    "Verif.NonRec.C82_kept",
    "Verif.NonRec.C82_stop_keeps",
    "Verif.NonRec.C82_removed",
    "Verif.NonRec.C82_new",
    "Verif.NonRec.C82_bound_partial",
    "Verif.NonRec.C82_refuted",
    "Verif.Rec.C82_exact",
    "Verif.Rec.C82_refuted"
   ],
   "note": "False of both trees: Stop and failed Watches release nothing, so a program that watches one path at a time keeps a node for every path (C82_refuted). Exact set of nodes of the recursive tree after every history (C82_exact); on the other tree nodes go away only when removals are handled (C82_kept), and then all below (C82_removed). Which nodes a step adds: C82_new; the exact set without recursive watches: C82_bound_partial."
  },
  {
   "property": "C83",
   "status": "partial",
   "theorems": [
    "Verif.NonRec.C83_in_force_partial",
    "Verif.NonRec.C83_unsupported_partial",
    "Verif.NonRec.C83_refuted",
    "Verif.NonRec.C83_after_refuted"
   ],
   "note": "False of recursive Watches: they ignore the outcome of every call and return nil though nothing is watched (C83_refuted), and a later Watch of the path returns nil without a call (C83_after_refuted). Proved for non-recursive Watches of paths for which, and above which, there was no recursive Watch, with any calls failing at any time. Assumes that a call that fails leaves the watches as they were."
  },
  {
   "property": "C84",
   "status": "partial",
   "theorems": [
    "Verif.KqInit.C84_iff",
    "Verif.KqInit.C84_runs",
    "Verif.KqInit.C84_starts_partial",
    "Verif.KqInit.C84_kevent_refuted",
    "Verif.KqInit.C84_stdin_refuted",
    "Verif.KqInit.C84_fen"
   ],
   "note": "False on the BSDs: after a refusal newWatcher calls Close, which waits for a goroutine that was not started; so the program never starts if the queue does not take the pipe (C84_kevent_refuted), or if the queue or the pipe is refused and descriptor 0 can be written to, in which case it also writes to it (C84_stdin_refuted). C84_iff has the exact condition. True on Solaris (C84_fen). What Watch returns with the stub: C83."
  },
  {
   "property": "C85",
   "status": "partial",
   "theorems": [
    "Verif.NonRec.C85_nil_sends",
    "Verif.NonRec.C85_nil_os_partial",
    "Verif.NonRec.C85_again",
    "Verif.NonRec.C85_unregistered",
    "Verif.NonRec.C85_contract_refuted",
    "Verif.Rec.C85_unregistered_partial",
    "Verif.Rec.C85_honest_partial",
    "Verif.Dcw.C85_windows_refuted",
    "Verif.NonRec.C85_failed_refuted",
    "Verif.Rec.C85_failed_refuted",
    "Verif.NonRec.C129_widens_refuted",
    "Verif.NonRec.C85_norec_partial"
   ],
   "note": "False for nil: Stop(nil) deletes the stored total of each node and calls Rewatch with an empty old set (C85_contract_refuted); on Windows the watcher panics on it (C85_windows_refuted). On systems without native recursion Stop(nil) changes no delivery and no user's set (C85_nil_sends, C85_nil_os_partial), a second Stop makes no call (C85_again) and Stop of an unregistered channel changes no registration (C85_unregistered). With native recursion proved for a channel that is not registered after a harmless history (C85_unregistered_partial), and that it makes no call after every history with an honest OS in which every Watch succeeded (C85_honest_partial). After a Watch of another channel that failed, Stop of a channel that was never used makes calls: it removes the OS watch left over, or calls Unwatch for a path without a watch (C85_failed_refuted, in both trees). Without native recursion it can also ask the OS for more events with no failure before (C129_widens_refuted); it makes no call if no recursive Watch was made (C85_norec_partial)."
  },
  {
   "property": "C86",
   "status": "partial",
   "theorems": [
    "Verif.Close.Ino.C86_silent",
    "Verif.Close.Ino.C86_progress",
    "Verif.Close.Ino.C86_returns",
    "Verif.Close.Dcw.C86_silent",
    "Verif.Close.Dcw.C86_progress",
    "Verif.Close.Dcw.C86_returns",
    "Verif.Close.Trg.C86_silent",
    "Verif.Close.Trg.C86_returns_partial",
    "Verif.Close.Trg.C86_hangs_refuted",
    "Verif.Close.Trg.C86_reached_refuted",
    "Verif.Streams.C86_close_partial",
    "Verif.Streams.C86_late_refuted"
   ],
   "note": "Proved for inotify and Windows, all schedules. False with kqueue and FEN: Close waits for the monitor with the lock that the monitor needs to handle a notification, and never returns (C86_hangs_refuted, C86_reached_refuted); that nothing is reported once it has returned is proved (C86_silent), and that it returns if nothing is notified (C86_returns_partial). False of FSEvents: a callback that has its function reports after Close (C86_late_refuted); proved that none begins (C86_close_partial). Assumes that the wake-up call succeeds and that Watch is not called at the same time."
  },
  {
   "property": "C87",
   "status": "partial",
   "theorems": [
    "Verif.Inotify.C87_linux_partial",
    "Verif.Inotify.C87_len_refuted",
    "Verif.Fsevents.C87_macos",
    "Verif.Dcw.C87_windows",
    "Verif.Dcw.C87_windows_refuted",
    "Verif.Trg.C87_trg_partial",
    "Verif.Trg.C87_kqueue_refuted",
    "Verif.Trg.C87_single_partial",
    "Verif.Trg.C87_single_refuted",
    "Verif.Trg.C87_path_partial",
    "Verif.Canon.C87_base_refuted"
   ],
   "note": "Proved on Linux for every execution except that Len of the record is always zero (C87_len_refuted), with FSEvents, and on Windows for event and path. False: with kqueue Sys is nil for what lies below a renamed directory and never a *notify.Kevent (C87_kqueue_refuted), coalesced flags are not split (C87_single_refuted; proved for one flag at a time in C87_single_partial), on Windows Sys is never nil (C87_windows_refuted; C87_windows says what it is), and the path given to Watch is not the base of the paths reported if it is a link (C87_base_refuted). Assumes that the kernel reports one event bit per inotify record, proper names in directories, and clean paths from FSEvents."
  },
  {
   "property": "C88",
   "status": "partial",
   "theorems": [
    "Verif.NonRec.C88_nonrec",
    "Verif.NonRec.C88_nonrec_zero",
    "Verif.Rec.C88_rec_partial",
    "Verif.Rec.C88_zero_refuted",
    "Verif.Rec.C88_adopt_refuted",
    "Verif.Rec.C88_retry_refuted"
   ],
   "note": "Proved without native recursion, in any state. With native recursion it is false: a Watch for the empty event set panics (C88_zero_refuted, for every path), and so does a Watch above a path on which an earlier Watch failed (C88_adopt_refuted, C88_retry_refuted: a write to a nil map). C88_rec_partial: no panic for a non-empty event set after any history in which every Watch that failed was for a path with no earlier Watch at or below it; Stop never panics in any state. Of panics it covers the panic statements and writes to nil maps of the trees; path handling is C75."
  },
  {
   "property": "C89",
   "status": "partial",
   "theorems": [
    "Verif.NonRec.C89_nonrec",
    "Verif.NonRec.C89_nonrec_between",
    "Verif.Rec.C89_rec_between",
    "Verif.Rec.C89_rec_partial",
    "Verif.Inotify.C89_linux",
    "Verif.Trg.C89_trigger_refuted",
    "Verif.Fsevents.C89_fsevents_refuted",
    "Verif.Dcw.C89_windows_refuted",
    "Verif.Mac.C89_mac_partial"
   ],
   "note": "Proved for the calls the trees make: without native recursion for every history (C89_nonrec, calls whose failure the code ignores assumed to succeed); with it, whatever the OS reports before and after a call it reports all the time (C89_rec_between, any outcome), and what the channels asked for after a harmless history (C89_rec_partial). On Linux also for the kernel (C89_linux), in every schedule. The other watchers have a gap inside one call of theirs: kqueue and FEN remove and add (C89_trigger_refuted), FSEvents stops the old stream when a watch moves to a directory above and drops what the new one reports before HistoryDone (C89_fsevents_refuted), Windows closes the handles and lets the loop open them again (C89_windows_refuted). Not proved: C89_rec_partial for histories that are not harmless, for which C26 fails already."
  },
  {
   "property": "C90",
   "status": "proved",
   "theorems": [
    "Verif.Linux.C90_linux",
    "Verif.Linux.C90_parts"
   ],
   "note": "Proved for all executions of the transition system `Linux` (tree, calls, dispatch, watcher and kernel together), under these assumptions: no hard links and watched paths keep their inodes (C35 and C70 say what happens otherwise), calls whose failure the code ignores succeed, no non-recursive Watch of the channel has failed (C10). Exactly: if path/name is not watched itself; at least: always. Counted from one moment at which nothing is on its way to another. Events of the watched path itself: C94; of the entries of / : C43."
  },
  {
   "property": "C91",
   "status": "proved",
   "theorems": [
    "Verif.Linux.C91_nothing_left"
   ],
   "note": "For all executions of `Linux`, with no hard links, watched paths that keep their inodes, and calls whose failure the code ignores succeeding. Without the second assumption it is false: C35_refuted."
  },
  {
   "property": "C92",
   "status": "proved",
   "theorems": [
    "Verif.NonRec.C92_no_directory_missed_meanwhile"
   ],
   "note": "Transition system `XStep`, which extends that of C18. With a second recursive watch above or below and events pending it is false: C17_refuted_pending."
  },
  {
   "property": "C93",
   "status": "proved",
   "theorems": [
    "Verif.Linux.C93_linux_recursive",
    "Verif.Linux.C93_found"
   ],
   "note": "For all executions of `Linux`. That the directories were found is a premise about the internal sets of the tree; `C93_found` gives it for the scan of the first recursive Watch of the path, C95 for directories that appear during and after it."
  },
  {
   "property": "C94",
   "status": "proved",
   "theorems": [
    "Verif.Linux.C94_linux_itself"
   ],
   "note": "For all executions of `Linux`. Paths directly below the root directory are excluded because of C43."
  },
  {
   "property": "C95",
   "status": "proved",
   "theorems": [
    "Verif.Linux.C95_linux_no_directory_missed"
   ],
   "note": "For all executions of `LinuxDirs`, which adds the directories and the steps of the scans to `Linux`. What a scan will find is guessed when it begins, and the steps of the execution confirm the guess. Removal of directories is left out: C56 and C70 say what goes wrong then."
  },
  {
   "property": "C96",
   "status": "proved",
   "theorems": [
    "Verif.Mac.C96_mac_signalled",
    "Verif.Mac.shows_plain",
    "Verif.Mac.shows_write",
    "Verif.Mac.C96_parts"
   ],
   "note": "For all executions of `Mac`. C45 shows that a watch need not be recursive where it should, hence the condition on it; C89 that a Watch above loses reports. `shows_plain` and `shows_write`: for events other than creation, removal and change, and for changes without removal, the number does not depend on what was reported before. `C96_parts`: an execution is one of `Sched` with the same signals and one of `Streams`."
  },
  {
   "property": "C97",
   "status": "partial",
   "theorems": [
    "Verif.Rec.C97_needed_partial",
    "Verif.Rec.C97_nothing_left_partial",
    "Verif.Rec.C97_refuted",
    "Verif.Mac.C97_mac_nothing_left_partial"
   ],
   "note": "False of the code: `C97_refuted` has a Watch that returned an error and whose predecessor's OS watch stays for ever. Proved for all histories in which every Watch returned nil (Stop may be harmful in the sense of C26, and calls may be refused), and for all executions of the whole program on macOS without failures and harmful operations. Missing: histories in which a Watch returned an error."
  },
  {
   "property": "C98",
   "status": "partial",
   "theorems": [
    "Verif.Mac.C98_one_stream_partial",
    "Verif.Mac.C98_two_streams_partial",
    "Verif.Mac.C98_refuted"
   ],
   "note": "False of the code: a Watch above two watched paths starts its stream before it stops theirs, and a change reported by both in between is signalled twice (`C98_refuted`). Proved: when no Watch or Stop is under way there is one stream for each path at most, and at any moment never more than two. Missing: the moments in the middle of a Watch; C96 has the number of signals for the reports of one stream."
  },
  {
   "property": "C99",
   "status": "partial",
   "theorems": [
    "Verif.Win.C99_windows_signalled_partial",
    "Verif.Win.C99_refuted",
    "Verif.Win.C99_parts"
   ],
   "note": "False of the code with the races of C60: Watch for Create, Stop and Watch for Rename on one directory, with no event in between, and renames that the handles report are not signalled (C99_refuted). Proved in full for executions without the races and failures of C60-C62 (`Dcw.CStep`) and operations harmless as in C26; if other handles report about the path, too, the number is between that for the records of the directory and that for all records. `C99_parts`: tree and watcher of the whole program are executions of the separate models. Missing: those races, raw events."
  },
  {
   "property": "C100",
   "status": "partial",
   "theorems": [
    "Verif.Win.C100_once_partial",
    "Verif.Win.C100_refuted"
   ],
   "note": "False of the code: Watch(/a/..., c1), Stop(c1), Watch(/a/b, c2), and a file created in /a/b is signalled to c2 twice, because Stop leaves the handles of /a open (`C100_refuted`). Proved: if everything unwatched is gone from the watcher's table, one directory only reports and the event is signalled once per record and registration. Missing: directories that are unwatched and still report."
  },
  {
   "property": "C101",
   "status": "partial",
   "theorems": [
    "Verif.Bsd.C101_bsd_partial",
    "Verif.Bsd.C101_again_partial",
    "Verif.Bsd.C101_refuted",
    "Verif.Bsd.C101_parts"
   ],
   "note": "False of the code: if another channel's Watch extends the watch of the file or its directory while a notification is pending, the watcher closes and reopens the descriptor and the change is lost (`C101_refuted`). Proved in full as long as other channels' operations make no call of the watcher for the file or its directory, for files without removals and renamings, whose changes tell no other event that is asked for (C42)."
  },
  {
   "property": "C102",
   "status": "partial",
   "theorems": [
    "Verif.Bsd.C102_left_partial",
    "Verif.Bsd.C102_refuted"
   ],
   "note": "False of the code: files in subdirectories of a watched directory are opened when something changes there, and stay open (`C102_refuted`, see C66). Proved: nothing else is left, and for these files the kernel was asked to report nothing."
  },
  {
   "property": "C103",
   "status": "partial",
   "theorems": [
    "Verif.Inotify.C103_last_name_partial",
    "Verif.Inotify.C103_refuted"
   ],
   "note": "False of the code: the watcher keeps one path per kernel watch, so after a second name of the same inode is watched the channels of the first are told nothing (`C103_refuted`), and its Unwatch fails. Proved: for every inode, exactly which name and set are in force after any calls, under which paths its events are reported, and which Unwatch calls succeed."
  },
  {
   "property": "C104",
   "status": "partial",
   "theorems": [
    "Verif.Utf16.C104_text",
    "Verif.Utf16.C104_watched",
    "Verif.Utf16.C104_any_partial",
    "Verif.Utf16.C104_refuted",
    "Verif.Utf16.C104_watched_refuted"
   ],
   "note": "Proved for all names and paths that are Unicode text, and since Go 1.21 for all names. False up to Go 1.20 for names with unpaired surrogates (`C104_refuted`), and for watched paths that are no UTF-8: their entry stays in the table after Unwatch (`C104_watched_refuted`)."
  },
  {
   "property": "C105",
   "status": "partial",
   "theorems": [
    "Verif.Dcw.C105_silent_partial",
    "Verif.Dcw.C105_any_partial",
    "Verif.Dcw.C105_tight",
    "Verif.Dcw.C105_refuted"
   ],
   "note": "False in general: after the race of C61 there are more reads than handles, and five reports (`C105_refuted`). Proved for the executions of C60 to C62 (calls that follow the contract, nothing fails but opening a directory, the directory exists). The bound is reached (`C105_tight`). Without an event the handles stay open for ever (`C60_unwatch_refuted`)."
  },
  {
   "property": "C106",
   "status": "partial",
   "theorems": [
    "Verif.Win.C106_windows_rest_partial",
    "Verif.Win.C106_total_partial",
    "Verif.Win.C106_refuted"
   ],
   "note": "That no handle is open is false: `Stop` leaves them until the directory changes (`C106_refuted`). The rest is proved for executions with operations harmless as in C26 and without the races and failures of C60-C62. Missing: these."
  },
  {
   "property": "C107",
   "status": "partial",
   "theorems": [
    "Verif.Fen.C107_fen_partial",
    "Verif.Fen.C107_again_partial",
    "Verif.Fen.C107_parts",
    "Verif.Fen.C107_refuted",
    "Verif.Fen.C107_lost_refuted"
   ],
   "note": "False of the code in two ways: after m changes of its directory one change of a file is signalled m+1 times, for every m (`C107_refuted`), and a change is lost while a notification of another kind is on its way (`C107_lost_refuted`). Proved: if the changes mean one requested event, there is at least one notification after each change and none without one, and the signals are those of whole notifications; while the files stay, no call fails, and others do not make the tree call the watcher for the file or its directory. Missing: such calls, failures, changes of the set of files."
  },
  {
   "property": "C108",
   "status": "partial",
   "theorems": [
    "Verif.Fen.C108_left_partial",
    "Verif.Fen.C108_refuted"
   ],
   "note": "False of the code: an association is left (`C108_refuted`). Proved: the table is empty, or has entries with empty sets only, while the files stay and no call fails. Missing: failures, changes of the set of files."
  },
  {
   "property": "C109",
   "status": "partial",
   "theorems": [
    "Verif.Linux.C109_linux",
    "Verif.Bsd.C109_bsd",
    "Verif.Win.C109_windows",
    "Verif.Mac.C109_mac",
    "Verif.Fen.C109_solaris_partial",
    "Verif.Fen.C109_watch_partial",
    "Verif.Fen.C109_solaris_refuted"
   ],
   "note": "Proved in full for Linux (records that a watch was ended may come), BSD, Windows and FSEvents. False on Solaris: Stop of one channel signals another a Write that it had got before (`C109_solaris_refuted`). Proved there: if no file that changed is watched, and for executions in which the watcher is only asked to watch more. Accesses that the library itself makes to directories and files count as changes."
  },
  {
   "property": "C110",
   "status": "partial",
   "theorems": [
    "Verif.Mac.C110_mac",
    "Verif.Linux.C110_linux",
    "Verif.Bsd.C110_bsd",
    "Verif.Fen.C110_solaris",
    "Verif.Fen.C110_solaris_partial",
    "Verif.Win.C110_windows_partial",
    "Verif.Win.C110_windows_refuted",
    "Verif.Win.C110_loopstate"
   ],
   "note": "Proved for FSEvents with the recursive tree: progress, no infinite execution without calls and reports, and draining; the outcomes of the watcher are guessed when an operation begins, so progress is up to a wrong guess, while draining chooses the right one. A Watch may panic instead of returning (C31). Proved likewise, without panics, for Linux and for BSD. False on Windows: the loop may spin for ever when the second handle of a directory cannot be opened again after a change of the set; proved: this is the only way in which it goes on for ever, progress, draining, and that loopstate does not panic. Proved for Solaris given a bound on the depth of directories (PATH_MAX); there Unwatch and Rewatch make the kernel notify, which may make the tree call them again, but only deeper in the tree. Without the bound (_partial): progress, no panic, draining of everything but the kernel's queue, and that an endless execution retrieves notifications and calls Unwatch or Rewatch again and again."
  },
  {
   "property": "C111",
   "status": "partial",
   "theorems": [
    "Verif.Fsevents.C111_prev",
    "Verif.Fsevents.C111_prev_refuted",
    "Verif.Inotify.C111_table_partial",
    "Verif.Inotify.C111_table_refuted",
    "Verif.Streams.C111_objects_refuted"
   ],
   "note": "False of FSEvents: a watch keeps a name for every file that was ever created or removed below it (C111_prev has exactly which), and each stream leaks its Core Foundation objects. False of inotify: a file that is replaced while it is watched and then watched for more leaves an entry for ever; proved as long as watched paths lead to the same inodes. For kqueue and FEN see C66, C79 and C102, for Windows C106."
  },
  {
   "property": "C112",
   "status": "partial",
   "theorems": [
    "Verif.Linux.C112_linux_created_partial",
    "Verif.Linux.C112_linux_created_refuted"
   ],
   "note": "False of the code: `mkdir /d/s; mkdir /d/s/t` gives no Create for /d/s/t if the second directory is made before the watch of the first is set up; the scan that follows the event of /d/s finds /d/s/t and watches it, but sends no event (`C112_linux_created_refuted`, an execution of the whole program). Proved: between two moments at which all events have been handled, every directory that appears in a directory that was there at the first moment is signalled. Other entries than directories are not in the model of the file system here; for them the same follows from C95."
  },
  {
   "property": "C113",
   "status": "partial",
   "theorems": [
    "Verif.Inotify.C113_linux_partial",
    "Verif.Inotify.C113_linux_refuted",
    "Verif.KqFds.C113_kqueue_partial",
    "Verif.KqFds.C113_kqueue_refuted",
    "Verif.Dcw.C113_windows_partial",
    "Verif.Dcw.C113_windows_refuted"
   ],
   "note": "False of the code: a watched directory that is renamed goes on being reported under its old name on Linux (`C113_linux_refuted`), and so does a watched file on BSD if Rename was not asked for (`C113_kqueue_refuted`), and a directory on Windows (`C113_windows_refuted`). Proved for as long as watched paths lead to the same files. The path is compared with the files at the moment when the event is made, not when the change happened (on Windows, when the kernel reports the change). Solaris is not covered; FSEvents gets paths from the system."
  },
  {
   "property": "C114",
   "status": "partial",
   "theorems": [
    "Verif.Sched.C114_plain",
    "Verif.Sched.C114_rec",
    "Verif.Linux.C114_linux",
    "Verif.Mac.C114_macos",
    "Verif.Bsd.C114_bsd",
    "Verif.Fen.C114_fen",
    "Verif.Win.C114_windows_partial",
    "Verif.Sched.C114_windows_refuted"
   ],
   "note": "Proved in full for Linux, macOS, BSD and Solaris: both parts, all executions from the start of the program, whatever fails. On Windows part 2 is proved for all events and part 1 for Create, Remove, Write and Rename; for FileAction events part 1 is false: a channel that watches /a is signalled changes of /a/b/f if another one watches /a/... (`C114_windows_refuted`), and proved is that the channel watches something for the path or above it. A Watch that fails counts as asked for (C10). On BSD and Solaris Create and Remove of an entry may follow any write to the directory: these two are guesses of the package, not of the kernel. C114_plain and C114_rec are about any watcher."
  },
  {
   "property": "C115",
   "status": "partial",
   "theorems": [
    "Verif.Sched.C115_refuted_plain",
    "Verif.Sched.C115_refuted_rec",
    "Verif.Sched.C115_count_partial",
    "Verif.Sched.C115_moves_partial"
   ],
   "note": "The bound is refuted for both trees: while one call of Stop or Watch holds the lock, every event that arrives adds a goroutine, so that there is an execution with more than n of them for every n. Proved: the events reported are exactly those not sent yet, those in the channel, those whose goroutine is alive and those whose goroutine ended; and while no Watch, no Stop and no internal work is under way and `rec` has room, every goroutine of the dispatch can go on. That they also end is C110."
  },
  {
   "property": "C116",
   "status": "partial",
   "theorems": [
    "Verif.Linux.C116_linux_refuted",
    "Verif.Linux.C116_linux_silent",
    "Verif.Win.C116_windows_refuted",
    "Verif.Win.C116_windows_silent",
    "Verif.Fsevents.C116_fsevents_refuted",
    "Verif.Fsevents.C116_fsevents_unasked",
    "Verif.Fsevents.C116_fsevents_partial"
   ],
   "note": "False on Linux and Windows in every execution: such records cause no signal at all and no directory is scanned again (`C116_linux_silent`, `C116_windows_silent`). False of FSEvents for watches that did not ask for one of the three flags (`C116_fsevents_unasked`: the notification is dropped with all its other flags), and, though asked for, if the path reported lies above the watched one (`C116_fsevents_refuted`). Proved: an FSEvents watch that asked for the flag tells it for every path that it watches. kqueue and FEN have no such notification."
  },
  {
   "property": "C117",
   "status": "partial",
   "theorems": [
    "Verif.NonRec.C117_again_refuted",
    "Verif.NonRec.C117_more_refuted",
    "Verif.NonRec.C117_other_refuted",
    "Verif.Linux.C117_linux_refuted",
    "Verif.NonRec.C117_covers_partial",
    "Verif.NonRec.C117_asked_partial"
   ],
   "note": "False of the code: a repeated Watch reads no directory (`C117_again_refuted`, `C117_linux_refuted`), one that asks for more visits only directories that are known (`C117_more_refuted`), and Stop before it does not help while another channel watches the directory, even not recursively (`C117_other_refuted`). Proved: if every channel with a Watch at the path or above has been stopped since, the Watch covers everything that it finds; and if those below have been stopped as well, it asks the OS for each directory anew, whatever failed before. Assumes for the first that calls whose failure the code ignores succeed."
  },
  {
   "property": "C118",
   "status": "partial",
   "theorems": [
    "Verif.Sched.C118_stopped_nonrec",
    "Verif.Sched.C118_stopped_rec",
    "Verif.Sched.C118_failed_refuted_nonrec",
    "Verif.Sched.C118_failed_refuted_rec",
    "Verif.Sched.C118_failed_partial"
   ],
   "note": "Closing after Stop: proved for both trees. Closing because every Watch returned an error: false of the code on both trees (a refused extension leaves the channel registered for what the OS watches already, and it is sent events); proved on the non-recursive tree if all these Watch calls were recursive."
  },
  {
   "property": "C119",
   "status": "partial",
   "theorems": [
    "Verif.Dcw.C119_reads_partial",
    "Verif.Dcw.C119_reads_refuted",
    "Verif.Dcw.C119_closes_partial",
    "Verif.Dcw.C119_closes_refuted"
   ],
   "note": "False of the code as stated. Reads: the loop loads the handle and then calls ReadDirectoryChangesW without the lock; if a caller changes the set for the directory in between, so that the handle is closed, and another directory is watched whose handle gets the same number, the loop reads from the other directory for the first (`C119_reads_refuted`). Closing: if CreateIoCompletionPort fails for a handle that the loop opens after a rewatch, `register` closes the handle and `updateGrip` closes it again (`C119_closes_refuted`). Proved: every outstanding read is on a handle of the directory that the path of its grip leads to, if the system never gives a number twice; no handle is closed twice if CreateIoCompletionPort succeeds for handles that the loop opens (watch may fail anywhere). Simplified: names lead to the same directories all the time (renames are C113); handles that are never closed are C63; CloseHandle and the CompareAndSwap after it are one step; Close is not in this model."
  },
  {
   "property": "C120",
   "status": "partial",
   "theorems": [
    "Verif.NonRec.C120_alone_partial",
    "Verif.Rec.C120_alone_partial",
    "Verif.Rec.C120_trees_partial",
    "Verif.NonRec.C120_since_stop",
    "Verif.Rec.C120_since_stop",
    "Verif.NonRec.C120_refuted",
    "Verif.Rec.C120_refuted"
   ],
   "note": "False of the code if a Watch with the channel returns an error: what the channel keeps depends on what others have registered at the path, on both trees (`C120_refuted`). Proved for both trees and all events if no plain Watch with the channel (recursive tree: no Watch with it) returned an error; calls with other channels may fail. `C120_trees_partial`: both trees send the same. `C120_since_stop`: what happened before the channel's last Stop does not matter, not even failed calls with it. The theorems are about the sequence of operations on the tree; that concurrent executions are such sequences is C46. What the OS reports to the tree may depend on other channels (C42)."
  },
  {
   "property": "C121",
   "status": "partial",
   "theorems": [
    "Verif.Bsd.C121_bsd_partial",
    "Verif.Fen.C121_fen_partial",
    "Verif.Trg.C121_trg_partial",
    "Verif.Bsd.C121_refuted",
    "Verif.Bsd.C121_above_refuted",
    "Verif.Fen.C121_fen_refuted"
   ],
   "note": "False of the code (`C121_bsd` is the full statement): if another channel calls Watch with the new file before the watcher reads the directory, the file is in the watcher's table and its creation is signalled to nobody (`C121_refuted`); if another channel ends a watch of the directory above, the notification is discarded (`C121_above_refuted`); both are executions of the whole program on the BSDs. Proved for the whole program on the BSDs (`C121_bsd_partial`) if the tree does not call the watcher for the directory or the file, nor ends or changes a watch of the directory above; removals and renamings are excluded. For the watcher alone (`C121_trg_partial`), with kqueue and FEN: any calls for paths other than the directory and the file, any notifications and any answers of the OS, as long as the directory and those above it are not removed or renamed. On Solaris and illumos the whole-program theorem (`C121_fen_partial`) asks in addition that what happens to the directory meanwhile are changes of its contents: a change of its attributes ends the association, and a file that appears before the watcher makes another one is signalled to nobody, although nobody calls anything (`C121_fen_refuted`)."
  },
  {
   "property": "C122",
   "status": "partial",
   "theorems": [
    "Verif.Bsd.C122_bsd_partial",
    "Verif.Bsd.C122_refuted",
    "Verif.Bsd.C122_unwatched",
    "Verif.Fen.C122_fen_partial",
    "Verif.Fen.C122_fen_refuted"
   ],
   "note": "False of the code (`C122_bsd`, `C122_fen` are the full statements): if another channel calls Watch with the new directory before the watcher reads the directory it is in, the watcher has it in its table and reports no Create (`C122_refuted`); the channel is registered recursively above it and the new directory is not watched for its events (`C122_unwatched`). Both are about one execution of the whole program on the BSDs; `C122_fen_refuted` is the same on Solaris and illumos. Proved (`C122_bsd_partial`, `C122_fen_partial`) if, from the moment on, the tree does not call the watcher for the directory or the new one, nor ends or changes a watch of the directory above: the creation is with the internal goroutine or was followed up. On Solaris and illumos each change of the directory in this time is also taken to be one of its contents. Removals and renamings are excluded. What following up does is C17 and C44."
  },
  {
   "property": "C123",
   "status": "partial",
   "theorems": [
    "Verif.Dcw.C123_partial",
    "Verif.Dcw.C123_refuted",
    "Verif.Dcw.C123_two_reads"
   ],
   "note": "False of Unwatch for a directory that is gone: it posts a packet for each handle, and if the second cannot be posted it returns an error while the first is in the queue (`C123_refuted`); the loop takes it for a completed read and reads again, so that two reads are outstanding with one OVERLAPPED structure (`C123_two_reads`). Proved of everything else: a Watch that fails because a directory cannot be opened (also if only the second handle cannot), every Rewatch, and an Unwatch whose first packet cannot be posted change nothing; otherwise there is one packet more and nothing else. A Watch whose first read is refused is C63."
  },
  {
   "property": "C124",
   "status": "proved",
   "theorems": [
    "Verif.Dcw.C124_released"
   ],
   "note": "For all states of C60 to C62 and all executions from the Unwatch on in which no call is for the same directory (a Watch of it meanwhile is C60); other directories may be watched, changed and ended in any way, with any failures. That the loop comes to rest is C106."
  },
  {
   "property": "C125",
   "status": "proved",
   "theorems": [
    "Verif.Dcw.C125_isolated",
    "Verif.Dcw.C125_loop"
   ],
   "note": "For all executions, also those with the races and failures of C60 to C62. The model gives every handle a new number; what follows when the system uses a number again is C119."
  },
  {
   "property": "C126",
   "status": "partial",
   "theorems": [
    "Verif.Trg.C126_far",
    "Verif.Trg.C126_requests",
    "Verif.Trg.C126_viaDir",
    "Verif.Trg.C126_native_partial",
    "Verif.Trg.C126_run_partial",
    "Verif.Trg.C126_refuted"
   ],
   "note": "False of native watches: Unwatch of a directory ends the native watch of a file in it that is watched by itself and makes it again, and if that fails the file is not watched any more (C126_refuted). Proved for all states and failures: paths elsewhere keep entry and native watch (C126_far), what is asked for any other path stays (C126_requests, C126_viaDir); and the native watch stays if the system does register the path again (C126_native_partial, with executions C126_run_partial)."
  },
  {
   "property": "C127",
   "status": "proved",
   "theorems": [
    "Verif.Inotify.C127_linux",
    "Verif.Inotify.C127_events",
    "Verif.Fsevents.C127_macos",
    "Verif.Inotify.C127_links_refuted"
   ],
   "note": "Proved as stated. That it needs the paths on Linux to lead to different files is C127_links_refuted: two names of one file share a descriptor (C103)."
  },
  {
   "property": "C128",
   "status": "proved",
   "theorems": [
    "Verif.NonRec.C128_watch",
    "Verif.NonRec.C128_internal",
    "Verif.NonRec.C128_os",
    "Verif.Rec.C128_native",
    "Verif.Rec.C128_native_os"
   ],
   "note": "Proved as stated."
  },
  {
   "property": "C129",
   "status": "partial",
   "theorems": [
    "Verif.NonRec.C129_stop_partial",
    "Verif.NonRec.C129_os_partial",
    "Verif.NonRec.C129_widens_refuted",
    "Verif.Rec.C129_stop_partial",
    "Verif.Rec.C129_os_partial",
    "Verif.Rec.C85_honest_partial",
    "Verif.Rec.C129_refuted"
   ],
   "note": "False without native recursion below recursively watched directories: Stop of a channel that was never used can ask the OS to watch more events on the directory of another recursive watch, with no failure in the history (C129_widens_refuted). Proved for every history that the calls are for paths on which the channel is registered or that a recursive Watch of some channel reaches (NonRec.C129_stop_partial, NonRec.C129_os_partial). With native recursion false after a Watch that failed: Stop of a channel that was never used calls Unwatch (Rec.C129_refuted); proved for every history in which every Watch succeeded and the OS watcher answered truthfully about the watches it has (`Honest`), whatever the OS answers during the Stop; it covers histories that are not harmless, for which C26 fails."
  },
  {
   "property": "C130",
   "status": "partial",
   "theorems": [
    "Verif.Rec.C130_native",
    "Verif.NonRec.C130_stop_partial",
    "Verif.NonRec.C130_refuted"
   ],
   "note": "Proved with native recursion for every history, also with failures. False without it, with no failure in the history: below a recursively watched directory Stop can call Rewatch with a larger set (C130_refuted, the history of C129_widens_refuted). There it is proved for all paths that no recursive Watch reached (C130_stop_partial). The old and new sets compared are the arguments of the call."
  },
  {
   "property": "C131",
   "status": "partial",
   "theorems": [
    "Verif.NonRec.C131_watch",
    "Verif.NonRec.C131_appears",
    "Verif.Rec.C131_native_partial",
    "Verif.Rec.C131_replace_partial"
   ],
   "note": "Proved without native recursion. With it proved for every call that is not for the path of the Watch and paths below it only, so for the watch above that covers the path. After a harmless history, a harmless Watch that succeeds leaves every OS watch in place with its events, or replaces it by one of its path with these events and its own (C131_replace_partial). Missing: this for harmful histories and for Watches that fail; C89_rec_between and C89_rec_partial are about what the OS reports in the meantime."
  },
  {
   "property": "C132",
   "status": "partial",
   "theorems": [
    "Verif.NonRec.C132_watch",
    "Verif.Rec.C132_native_partial",
    "Verif.Rec.C132_first_partial"
   ],
   "note": "Proved without native recursion for histories in which the calls whose failure the code ignores succeed. With native recursion proved after harmless histories (C132_native_partial; C132_first_partial for the first Watch); missing the others, after which the sets in the tree are not those of the OS (C26). That a recursive Watch covered by an OS watch that is not recursive makes no call is part of the statement; it is why such a Watch misses changes (C27)."
  }
 ]
}