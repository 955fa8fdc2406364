import Verif.Base
import Verif.Strconv
import Verif.StrconvProps
import Verif.F64
import Verif.FloatText
import Verif.Cache.Model
import Verif.Cache.HashModel
import Verif.Cache.Hist
import Verif.Cache.Spec
import Verif.Cache.Lemmas
import Verif.Cache.Frame
import Verif.Cache.Congr
import Verif.Cache.PropsSet
import Verif.Cache.Inv
import Verif.Cache.PropsString
import Verif.Cache.PropsCounter
import Verif.Cache.PropsDb
import Verif.Cache.PropsHash
import Verif.PropsFloat
import Verif.Conc.Machine
import Verif.Conc.Order
import Verif.Conc.CacheProg
import Verif.Conc.Lin
import Verif.Conc.HashProg
import Verif.Conc.Props
import Verif.Resp.Bufio
import Verif.Resp.Model
import Verif.Resp.Lemmas
import Verif.Resp.Props
import Verif.Resp.PropsExact
import Verif.Resp.PropsJoin
import Verif.Client.Cmd
import Verif.Client.PropsCmd
import Verif.Client.Pool
import Verif.Client.PropsPool
import Verif.Lzf.Model
import Verif.Lzf.Spec
import Verif.Lzf.Lemmas
import Verif.Lzf.Comp
import Verif.Lzf.Props
import Verif.Rdb.Packed
import Verif.Rdb.PackedSpec
import Verif.Rdb.PackedLemmas
import Verif.Rdb.PropsPacked
import Verif.Rdb.Model
import Verif.Rdb.Pieces
import Verif.Rdb.Spec
import Verif.Rdb.Lemmas
import Verif.Rdb.Props
import Verif.Rdb.Damage
import Verif.Rdb.PropsLoad
import Verif.Repl.Model
import Verif.Repl.Spec
import Verif.Repl.Props
import Verif.Repl.PropsMachine
import Verif.Repl.PropsEnd
import Verif.Cache.Ref
import Verif.Cache.RefSim
import Verif.Cache.PropsRef
import Verif.Cache.PropsRefExact
import Verif.Cache.PropsExact
import Verif.Cache.PropsExactHash
import Verif.Client.Session
import Verif.Client.PropsSession
import Verif.Client.PropsRemote
import Verif.Client.PropsSame
import Verif.Client.PropsSelect
import Verif.Client.PropsCuts
import Verif.Cache.Rename
import Verif.Cache.Origin
import Verif.Cache.PropsMeta
import Verif.Cache.PropsExact2
import Verif.Conc.Full
import Verif.Conc.FullRules
import Verif.Conc.FullSafe
import Verif.Conc.FullCalls
import Verif.Conc.FullProg
import Verif.Conc.Reorder
import Verif.Conc.Locks
import Verif.Conc.FullLin
import Verif.Conc.Progress
import Verif.Conc.PropsFull
import Verif.Conc.Tame
import Verif.Conc.Isolate
import Verif.Conc.PropsIsolate
import Verif.Conc.Source
import Verif.Conc.PropsSource
import Verif.Client.Many
import Verif.Client.ManyInv
import Verif.Client.ManyLive
import Verif.Client.PropsMany
import Verif.Client.PropsManyExact
import Verif.Resp.Writer
import Verif.Resp.PropsWriter
import Verif.Repl.Disk
import Verif.Repl.Ack
import Verif.Whole.Model
import Verif.Whole.Props
import Verif.FloatShortest
import Verif.FloatGrammar
import Verif.FloatGrammarLemmas
import Verif.PropsLiteral
import Verif.Conc.PropsAlone
import Verif.Conc.Race
import Verif.Conc.RaceProofs
import Verif.Conc.RaceSound
import Verif.Conc.RaceExact
import Verif.Conc.RaceNX
import Verif.Conc.PropsRace
import Verif.Conc.PropsRaceLists
import Verif.Conc.PropsRaceHash
import Verif.Conc.PropsRaceNew
import Verif.Conc.PropsRaceNX
import Verif.Cache.PropsWidths
import Verif.Client.PoolRace
import Verif.Client.PropsPoolRace
import Verif.Lzf.Run
import Verif.Lzf.PropsRun
import Verif.Lzf.PropsExact
import Verif.Rdb.PropsExact
import Verif.Repl.PropsExact
import Verif.Repl.PropsStuck
import Verif.Repl.Race
import Verif.Repl.PropsRace
import Verif.Repl.Files
import Verif.Repl.PropsFiles
import Verif.Rdb.PropsExact2
import Verif.Client.PropsPoolExact
import Verif.Client.PropsCmdExact
import Verif.Repl.PropsHandle
import Verif.Repl.PropsFailed
import Verif.Cache.ListModel
import Verif.Rdb.PropsStep
import Verif.Conc.PropsStale
import Verif.Conc.PropsLost
import Verif.Conc.PropsLostMany
import Verif.Conc.PropsStaleExact
import Verif.Conc.PropsTorn
import Verif.Conc.PropsWriters
import Verif.Conc.PropsMomentWriter
import Verif.Conc.PropsMomentWriters
import Verif.Lzf.PropsSize
import Verif.Lzf.PropsRoom
import Verif.Conc.PropsMoment
import Verif.Rdb.PropsZipmap
import Verif.Rdb.PropsRight
import Verif.Client.PropsKind
import Verif.Client.PropsPoolRoom
import Verif.Client.PropsSeen
import Verif.Rdb.PropsDeadline
import Verif.Repl.PropsAll
import Verif.Whole.PropsAll
import Verif.Repl.PropsWire
import Verif.Client.PropsPoolClose
import Verif.Client.PropsKeep
import Verif.Conc.PropsRealTime
import Verif.Repl.Again
import Verif.Repl.PropsAgain
import Verif.Suite.Model
import Verif.Suite.Lemmas
import Verif.Suite.Props
import Verif.Suite.PropsAll
import Verif.Rdb.PackedRest
import Verif.Rdb.PropsPackedRest
import Verif.Client.Options
import Verif.Client.PropsOptions
import Verif.Cache.EntryModel
import Verif.Cache.PropsEntry
import Verif.Axioms
import Verif.Rdb.PropsModule
import Verif.Suite.PropsOther
import Verif.Rdb.PropsWhole
import Verif.Cache.PropsEntryExact
import Verif.Rdb.PropsEnds
import Verif.Resp.Rest
import Verif.Resp.PropsRest
import Verif.Client.Ctx
import Verif.Client.PropsCtx
import Verif.Client.Handlers
import Verif.Client.PropsHandlers
import Verif.Repl.Stop
import Verif.Repl.PropsStop
import Verif.Cache.PropsCron
import Verif.Repl.PropsPlaces
import Verif.Rdb.PropsFault
import Verif.Repl.PropsFault
import Verif.Rdb.PropsOne
import Verif.Rdb.PropsIntact
