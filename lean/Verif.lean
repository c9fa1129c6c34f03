import Verif.Basic
import Verif.Codec
import Verif.ScanX
import Verif.Stream
import Verif.Spec
import Verif.Api
import Verif.Portable
import Verif.Depend
import Verif.Const
import Verif.ApiProps
import Verif.Scan
import Verif.RleX
import Verif.PropsX
import Verif.Rle128
import Verif.Props128
import Verif.Scan8
import Verif.Bits
import Verif.ScanXI
import Verif.Fill
import Verif.Masks
import Verif.Parser
import Verif.Symlut
import Verif.PropsSymlut
import Verif.Pick
import Verif.Greedy
import Verif.Short
import Verif.PropsShort
import Verif.ScanW
import Verif.Rle8
import Verif.PropsRle8
import Verif.PropsMtf
import Verif.PropsDetect
import Verif.LowEntropySize
import Verif.LowEntropyTight
import Verif.PropsOcl
import Verif.PropsBitpack
import Verif.Rle8MmtfApi
import Verif.RleShApi
import Verif.Grow
import Verif.PropsSize
import Verif.Blocks
import Verif.PropsBlocks
import Verif.Table
import Verif.PropsGreedySize
import Verif.PropsSingleSize
import Verif.PropsSingleFits
import Verif.Compare
import Verif.PropsCompare
import Verif.Fuzz
import Verif.FuzzLemmas
import Verif.PropsFuzz
import Verif.PropsFuzzFill
import Verif.Cli
import Verif.CliSpec
import Verif.CliLemmas
import Verif.PropsCli
import Verif.Tool
import Verif.PropsTool
import Verif.PropsSafe
import Verif.PropsToolReal
import Verif.Analyze
import Verif.PropsAnalyze
import Verif.Same
import Verif.PropsSame
import Verif.Changes
import Verif.ChangesG
import Verif.PropsChanges
import Verif.ChangesLow
import Verif.ChangesMmtf
import Verif.ChangesSh
import Verif.RleShTight
import Verif.Rand
import Verif.PropsRand
import Verif.Rle8MmtfBuf
import Verif.PropsRoom
import Verif.PropsArchive
import Verif.Single
import Verif.PickBest
import Verif.PropsOthers
import Verif.OthersLow
import Verif.Threads
import Verif.PropsThreads
import Verif.PropsToolAll
import Verif.ShWords
import Verif.PropsShWords
import Verif.MmWords
import Verif.MmMeaning
import Verif.PropsMmWords
import Verif.PropsInfo
import Verif.OclHost
import Verif.OclHold
import Verif.PropsOclHost
import Verif.FuzzRun
import Verif.PropsFuzzRun
import Verif.Timing
import Verif.PropsTiming
import Verif.Overlay
import Verif.PropsStale
import Verif.Align
import Verif.PropsAlign
import Verif.Work
import Verif.PropsWork
import Verif.Large
import Verif.PropsLarge
import Verif.EncWork
import Verif.PropsEncWork
import Verif.Reads
import Verif.ReadsOut
import Verif.ReadsLow
import Verif.PropsReads
import Verif.Stores
import Verif.StoresOut
import Verif.PropsStores
import Verif.PropsAhead
import Verif.Publish
import Verif.PropsPublish
import Verif.InPlace
import Verif.PropsInPlace
import Verif.PropsWithInfo
import Verif.PropsReport
import Verif.PropsFuzzFile
import Verif.Cases
import Verif.PropsCut
import Verif.PropsIsa
import Verif.PropsRefuse
import Verif.PropsDescribe
import Verif.PropsLowExact
import Verif.PropsRecent
import Verif.PropsReadme
import Verif.MmTightSpec
import Verif.MmTight
import Verif.MmTightInv
import Verif.MmTightEnd
import Verif.PropsMmTight
import Verif.WholeSpec
import Verif.Whole
import Verif.PropsWhole
import Verif.PaysSpec
import Verif.PropsPays
import Verif.RankSpec
import Verif.PropsRank
import Verif.PropsLoss
import Verif.PropsReuse
import Verif.CasesMore
import Verif.PropsPipeline
import Verif.PropsRepro
