import Verif.Art.Absent
import Verif.Art.Alone
import Verif.Art.Brief
import Verif.Art.Commit
import Verif.Art.Commit2
import Verif.Art.Commit3
import Verif.Art.ConcDel
import Verif.Art.ConcGet
import Verif.Art.ConcIns
import Verif.Art.ConcLock
import Verif.Art.ConcPut
import Verif.Art.Cont
import Verif.Art.ContOps
import Verif.Art.Count
import Verif.Art.Early
import Verif.Art.Few
import Verif.Art.Fine
import Verif.Art.FineSim
import Verif.Art.FineWrap
import Verif.Art.FineWrapSim
import Verif.Art.Firm
import Verif.Art.Fuel
import Verif.Art.HeapTree
import Verif.Art.Lin
import Verif.Art.LockWord
import Verif.Art.Names
import Verif.Art.NamesProg
import Verif.Art.NoPanic
import Verif.Art.Node
import Verif.Art.NodeLemmas
import Verif.Art.Polite
import Verif.Art.Prog
import Verif.Art.RG
import Verif.Art.RG2
import Verif.Art.Range
import Verif.Art.Seq
import Verif.Art.SeqDel
import Verif.Art.SeqOps
import Verif.Art.Slow
import Verif.Art.Sound
import Verif.Art.Spin
import Verif.Art.SpinRun
import Verif.Art.Stores
import Verif.Art.System
import Verif.Art.Time
import Verif.Art.Tower
import Verif.Art.Tree
import Verif.Art.Tso
import Verif.Art.TsoProg
import Verif.Art.TsoSec
import Verif.Art.TsoSim
import Verif.Art.Walk
import Verif.Art.Walk2
import Verif.Art.Wrap
import Verif.Art.WrapLemmas
import Verif.Art.WrapNear
import Verif.Art.WrapProg
import Verif.Art.WrapSim
import Verif.Common
import Verif.Props.ArtBlock
import Verif.Props.ArtConc
import Verif.Props.ArtEarly
import Verif.Props.ArtFine
import Verif.Props.ArtFineWrap
import Verif.Props.ArtLin
import Verif.Props.ArtLive
import Verif.Props.ArtNames
import Verif.Props.ArtNode
import Verif.Props.ArtPanic
import Verif.Props.ArtRelease
import Verif.Props.ArtSeq
import Verif.Props.ArtShape
import Verif.Props.ArtSpace
import Verif.Props.ArtSpin
import Verif.Props.ArtStarve
import Verif.Props.ArtSteps
import Verif.Props.ArtTime
import Verif.Props.ArtTower
import Verif.Props.ArtTso
import Verif.Props.ArtWrap
import Verif.Props.Bits
import Verif.Props.Marshal
import Verif.Props.Receive
import Verif.Props.SurfAgree
import Verif.Props.SurfAlias
import Verif.Props.SurfDamaged
import Verif.Props.SurfExact
import Verif.Props.SurfGet
import Verif.Props.SurfHit
import Verif.Props.SurfInput
import Verif.Props.SurfIter
import Verif.Props.SurfKeyBuf
import Verif.Props.SurfLayout
import Verif.Props.SurfMono
import Verif.Props.SurfMore
import Verif.Props.SurfOverlap
import Verif.Props.SurfPrefix
import Verif.Props.SurfRange
import Verif.Props.SurfRate
import Verif.Props.SurfReads
import Verif.Props.SurfReadsBack
import Verif.Props.SurfReadsFind
import Verif.Props.SurfReadsIter
import Verif.Props.SurfReadsOverlap
import Verif.Props.SurfReadsPrev
import Verif.Props.SurfReadsScan
import Verif.Props.SurfReadsSeek
import Verif.Props.SurfResume
import Verif.Props.SurfReuse
import Verif.Props.SurfScan
import Verif.Props.SurfSeek
import Verif.Props.SurfShared
import Verif.Props.SurfSize
import Verif.Props.SurfSplit
import Verif.Props.SurfTotal
import Verif.Props.SurfTurn
import Verif.Props.SurfWiden
import Verif.Props.SurfWrap
import Verif.Props.SurfWrapBuild
import Verif.Props.SurfWrapIter
import Verif.Spec.Bits
import Verif.Spec.Map
import Verif.Spec.Writer
import Verif.Surf.Alias
import Verif.Surf.AliasBuilt
import Verif.Surf.Assemble
import Verif.Surf.Astray
import Verif.Surf.Back
import Verif.Surf.Bits
import Verif.Surf.BitsLemmas
import Verif.Surf.Bmi
import Verif.Surf.BuildSpec
import Verif.Surf.Builder
import Verif.Surf.BuiltOk
import Verif.Surf.Cutoff
import Verif.Surf.Damaged
import Verif.Surf.Demand
import Verif.Surf.Dense
import Verif.Surf.DistLemmas
import Verif.Surf.Exact
import Verif.Surf.FindLemmas
import Verif.Surf.GetSpec
import Verif.Surf.Holds
import Verif.Surf.InitLemmas
import Verif.Surf.Iter
import Verif.Surf.IterBits
import Verif.Surf.IterDense
import Verif.Surf.IterRead
import Verif.Surf.IterSparse
import Verif.Surf.IterWhole
import Verif.Surf.KeyBuf
import Verif.Surf.KeyBufIter
import Verif.Surf.KeyBufLemmas
import Verif.Surf.KeyBufNear
import Verif.Surf.Layout
import Verif.Surf.LevelRep
import Verif.Surf.Locate
import Verif.Surf.LocateSparse
import Verif.Surf.Louds
import Verif.Surf.Marshal
import Verif.Surf.MarshalLemmas
import Verif.Surf.MiscLemmas
import Verif.Surf.Over
import Verif.Surf.Overlap
import Verif.Surf.OverlapExact
import Verif.Surf.RankLemmas
import Verif.Surf.Reads
import Verif.Surf.ReadsBuilt
import Verif.Surf.ReadsFind
import Verif.Surf.ReadsGet
import Verif.Surf.ReadsIter
import Verif.Surf.ReadsNear
import Verif.Surf.ReadsOverlap
import Verif.Surf.ReadsPrev
import Verif.Surf.ReadsScan
import Verif.Surf.ReadsSeek
import Verif.Surf.Receive
import Verif.Surf.Reuse
import Verif.Surf.SeekDense
import Verif.Surf.SeekSparse
import Verif.Surf.SeekSpec
import Verif.Surf.Select64
import Verif.Surf.Self
import Verif.Surf.Shape
import Verif.Surf.Shared
import Verif.Surf.Size
import Verif.Surf.SufOrder
import Verif.Surf.SufValue
import Verif.Surf.Suffix
import Verif.Surf.Trie
import Verif.Surf.Vec
import Verif.Surf.View
import Verif.Surf.Way
import Verif.Surf.Whole
import Verif.Surf.Wrap
import Verif.Surf.WrapBuild
import Verif.Surf.WrapBuildAll
import Verif.Surf.WrapBuildLemmas
import Verif.Surf.WrapBuilt
import Verif.Surf.WrapIter
import Verif.Surf.WrapIterBuilt
import Verif.Surf.WrapIterDense
import Verif.Surf.WrapIterSparse
import Verif.Surf.WrapLemmas
