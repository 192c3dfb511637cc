import Verif.Event
import Verif.GoMap
import Verif.Watchpoint
import Verif.Node
import Verif.NodeLemmas
import Verif.Watcher
import Verif.NonRec
import Verif.NonRecWP
import Verif.NonRecInv
import Verif.NonRecHist
import Verif.Dispatch
import Verif.Spec
import Verif.NonRecReg
import Verif.NonRecEx
import Verif.PropsNonRec
import Verif.NonRecCover
import Verif.PropsNonRec2
import Verif.PropsNode
import Verif.Rec
import Verif.RecLemmas
import Verif.RecEff
import Verif.RecOp
import Verif.RecStop
import Verif.RecHist
import Verif.RecEx
import Verif.PropsRec
import Verif.RecView
import Verif.RecBook
import Verif.RecSync
import Verif.RecStopOs
import Verif.SpecRec
import Verif.PropsRecSync
import Verif.PropsRecFail
import Verif.PathStr
import Verif.PropsPath
import Verif.Channel
import Verif.PropsChannel
import Verif.Sched
import Verif.SchedInv
import Verif.PropsSched
import Verif.SchedTrees
import Verif.PropsSched2
import Verif.PropsSched3
import Verif.Inotify
import Verif.SpecInotify
import Verif.PropsInotify
import Verif.PropsInotify2
import Verif.InotifyPipe
import Verif.PropsInotify3
import Verif.PropsInotify4
import Verif.PropsApi
import Verif.Fsevents
import Verif.PropsFsevents
import Verif.PropsFsevents2
import Verif.Canonical
import Verif.CanonicalWin
import Verif.PropsCanonical
import Verif.PropsCleanpath
import Verif.PropsFsevents3
import Verif.SpecTrigger
import Verif.Trigger
import Verif.PropsTrigger
import Verif.PropsTrigger2
import Verif.PropsTrigger3
import Verif.PropsTrigger4
import Verif.PropsTrigger5
import Verif.TrgBook
import Verif.PropsTrigger6
import Verif.PropsTrigger7
import Verif.PropsTrigger8
import Verif.Scan
import Verif.PropsScan
import Verif.PropsNonRec3
import Verif.PropsInotify5
import Verif.Readdcw
import Verif.PropsReaddcw
import Verif.PropsReaddcw2
import Verif.ReaddcwInv
import Verif.ReaddcwInv2
import Verif.ReaddcwInv3
import Verif.PropsReaddcw3
import Verif.ReaddcwBuf
import Verif.PropsReaddcw4
import Verif.PropsReaddcw5
import Verif.InotifyInit
import Verif.Volumes
import Verif.PropsVolumes
import Verif.Streams
import Verif.EventString
import Verif.PropsFsevents4
import Verif.PropsReaddcw6
import Verif.FenMem
import Verif.KqFds
import Verif.PropsTrigger9
import Verif.PropsNodes
import Verif.PropsFail
import Verif.KqInit
import Verif.StopNil
import Verif.PropsStop
import Verif.Close
import Verif.PropsEventInfo
import Verif.PropsPanic
import Verif.PropsGap
import Verif.PropsGap2
import Verif.RecHold
import Verif.Linux
import Verif.PropsLinux
import Verif.ScanOps
import Verif.PropsScan2
import Verif.PropsLinux2
import Verif.LinuxDirs
import Verif.PropsLinux3
import Verif.PropsLinux4
import Verif.PropsLinux5
import Verif.Mac
import Verif.MacInv
import Verif.MacHold
import Verif.PropsMac
import Verif.RecTidy
import Verif.PropsLeak
import Verif.PropsMac2
import Verif.PropsMac3
import Verif.Win
import Verif.WinFeed
import Verif.WinInv
import Verif.PropsWin
import Verif.PropsWin2
import Verif.Bsd
import Verif.BsdFd
import Verif.PlainRun
import Verif.PropsBsd
import Verif.PropsLinks
import Verif.PropsMacGap
import Verif.Utf16
import Verif.PropsUtf16
import Verif.PropsReaddcw7
import Verif.PropsWin3
import Verif.Fen
import Verif.FenRec
import Verif.PropsFen
import Verif.PropsStill
import Verif.PropsLive
import Verif.ReaddcwSane
import Verif.PropsLiveWin
import Verif.PropsLiveWin2
import Verif.PropsLivePlain
import Verif.PropsLiveBsd
import Verif.PropsLiveLinux
import Verif.PropsLiveFen
import Verif.PropsLiveFen2
import Verif.PropsMemory
import Verif.PropsLost
import Verif.PropsPaths
import Verif.PropsSound
import Verif.PropsSound2
import Verif.PropsSound3
import Verif.PropsSound4
import Verif.PropsGor
import Verif.PropsOverflow
import Verif.PropsAgain
import Verif.PropsClosing
import Verif.PropsPathsWin
import Verif.PropsHandles
import Verif.PropsAlone
import Verif.PropsNewFile
import Verif.PropsNewFile2
import Verif.PropsNewFile3
import Verif.PropsNewDir
import Verif.PropsNewDir2
import Verif.PropsReaddcw8
import Verif.PropsReaddcw9
import Verif.PropsReaddcw10
import Verif.PropsTrigger10
import Verif.PropsApart
import Verif.PropsWin4
import Verif.PropsNear
import Verif.PropsStop2
import Verif.PropsOrder
import Verif.PropsNear2
import Verif.PropsNarrow
import Verif.PropsNarrow2
import Verif.PropsOnce
import Verif.PropsReplace
