import Verif.Basic
import Verif.Lemmas.AddrCost
import Verif.Lemmas.Base64
import Verif.Lemmas.Byte
import Verif.Lemmas.Chars
import Verif.Lemmas.Cost
import Verif.Lemmas.CostAgain
import Verif.Lemmas.Depth
import Verif.Lemmas.Described
import Verif.Lemmas.Doc
import Verif.Lemmas.Fp
import Verif.Lemmas.FpGap
import Verif.Lemmas.FpInts
import Verif.Lemmas.FpRound
import Verif.Lemmas.FpUnwrap
import Verif.Lemmas.Fpconv
import Verif.Lemmas.FpconvGen
import Verif.Lemmas.FpconvGrisu
import Verif.Lemmas.FpconvJson
import Verif.Lemmas.FpconvText
import Verif.Lemmas.HTable
import Verif.Lemmas.Heap
import Verif.Lemmas.HeapAlloc
import Verif.Lemmas.HeapClear
import Verif.Lemmas.HeapGet
import Verif.Lemmas.HeapLinks
import Verif.Lemmas.HeapRep
import Verif.Lemmas.HeapRun
import Verif.Lemmas.HeapState
import Verif.Lemmas.HeapSteps
import Verif.Lemmas.Hex
import Verif.Lemmas.In
import Verif.Lemmas.Insert
import Verif.Lemmas.IntStr
import Verif.Lemmas.JsonComment
import Verif.Lemmas.JsonCommentStream
import Verif.Lemmas.JsonIn
import Verif.Lemmas.JsonInStream
import Verif.Lemmas.JsonLax
import Verif.Lemmas.JsonLaxDoc
import Verif.Lemmas.JsonLaxRead
import Verif.Lemmas.JsonObject
import Verif.Lemmas.JsonOut
import Verif.Lemmas.KeyCost
import Verif.Lemmas.Load
import Verif.Lemmas.LoadObject
import Verif.Lemmas.Loaded
import Verif.Lemmas.Memory
import Verif.Lemmas.MemoryFormats
import Verif.Lemmas.MemoryJson
import Verif.Lemmas.MemoryObj
import Verif.Lemmas.MemoryRead
import Verif.Lemmas.MsgPackLax
import Verif.Lemmas.MsgPackObject
import Verif.Lemmas.Names
import Verif.Lemmas.NodeApi
import Verif.Lemmas.Norm
import Verif.Lemmas.Out
import Verif.Lemmas.OutFail
import Verif.Lemmas.Own
import Verif.Lemmas.OwnRun
import Verif.Lemmas.OwnSim
import Verif.Lemmas.PJson
import Verif.Lemmas.PJsonCut
import Verif.Lemmas.PJsonDoc
import Verif.Lemmas.PJsonReuse
import Verif.Lemmas.PJsonSafe
import Verif.Lemmas.PJsonTree
import Verif.Lemmas.PMsgPack
import Verif.Lemmas.PMsgPackCut
import Verif.Lemmas.PSrl
import Verif.Lemmas.PSrlCut
import Verif.Lemmas.PSrlDoc
import Verif.Lemmas.Pack
import Verif.Lemmas.Range
import Verif.Lemmas.ReadCost
import Verif.Lemmas.Relate
import Verif.Lemmas.RestoreCost
import Verif.Lemmas.Reuse
import Verif.Lemmas.SavedSize
import Verif.Lemmas.Session
import Verif.Lemmas.Shared
import Verif.Lemmas.SharedRestore
import Verif.Lemmas.SharedSafe
import Verif.Lemmas.SrlEven
import Verif.Lemmas.SrlLax
import Verif.Lemmas.SrlObject
import Verif.Lemmas.Stream
import Verif.Lemmas.StreamDoc
import Verif.Lemmas.StreamJson
import Verif.Lemmas.StreamJsonDoc
import Verif.Lemmas.StreamNext
import Verif.Lemmas.StreamParsers
import Verif.Lemmas.StreamRun
import Verif.Lemmas.TableMove
import Verif.Lemmas.TableMoveRun
import Verif.Lemmas.Time
import Verif.Lemmas.Tree
import Verif.Lemmas.Typed
import Verif.Lemmas.TypedDocs
import Verif.Lemmas.TypedEnum
import Verif.Lemmas.TypedFields
import Verif.Lemmas.TypedFree
import Verif.Lemmas.TypedLazy
import Verif.Lemmas.TypedMain
import Verif.Lemmas.TypedOrder
import Verif.Lemmas.TypedProper
import Verif.Lemmas.TypedSafe
import Verif.Lemmas.TypedStore
import Verif.Lemmas.Union
import Verif.Lemmas.UnionRun
import Verif.Lemmas.Versions
import Verif.Lemmas.Views
import Verif.Lemmas.Vlq
import Verif.Lemmas.Weak
import Verif.Model.AddrCost
import Verif.Model.Apply
import Verif.Model.Base64
import Verif.Model.BitWrap
import Verif.Model.Chars
import Verif.Model.Cost
import Verif.Model.CostAgain
import Verif.Model.Doc
import Verif.Model.Fnv
import Verif.Model.Fp
import Verif.Model.Fpconv
import Verif.Model.HTable
import Verif.Model.Heap
import Verif.Model.HeapLinks
import Verif.Model.Hex
import Verif.Model.In
import Verif.Model.IntStr
import Verif.Model.KeyCost
import Verif.Model.LoadObject
import Verif.Model.LookCost
import Verif.Model.Names
import Verif.Model.NodeApi
import Verif.Model.Out
import Verif.Model.OutFail
import Verif.Model.Own
import Verif.Model.OwnSpec
import Verif.Model.PJson
import Verif.Model.PMsgPack
import Verif.Model.PSrl
import Verif.Model.ReadCost
import Verif.Model.Registration
import Verif.Model.RestoreCost
import Verif.Model.Reuse
import Verif.Model.Session
import Verif.Model.Shared
import Verif.Model.Stream
import Verif.Model.StreamJson
import Verif.Model.StreamNext
import Verif.Model.TableMove
import Verif.Model.TableMoveSpec
import Verif.Model.Tree
import Verif.Model.Typed
import Verif.Model.Union
import Verif.Model.Views
import Verif.Model.Vlq
import Verif.Props.AddrTime
import Verif.Props.AddrTimeSpec
import Verif.Props.Apply
import Verif.Props.Base64
import Verif.Props.BitWrap
import Verif.Props.Chars
import Verif.Props.Convert
import Verif.Props.Decimal
import Verif.Props.Depth
import Verif.Props.DepthSpec
import Verif.Props.Fnv
import Verif.Props.Fp
import Verif.Props.FpUnwrap
import Verif.Props.Fpconv
import Verif.Props.HTable
import Verif.Props.Heap
import Verif.Props.HeapLinks
import Verif.Props.HeapLinksSpec
import Verif.Props.Hex
import Verif.Props.Insert
import Verif.Props.IntStr
import Verif.Props.JsonComment
import Verif.Props.JsonCommentSpec
import Verif.Props.JsonLax
import Verif.Props.JsonLaxSpec
import Verif.Props.JsonObject
import Verif.Props.JsonObjectSpec
import Verif.Props.JsonSpec
import Verif.Props.JsonStream
import Verif.Props.JsonText
import Verif.Props.KeyTime
import Verif.Props.KeyTimeSpec
import Verif.Props.LoadObject
import Verif.Props.LoadObjectSpec
import Verif.Props.Loaded
import Verif.Props.LookTime
import Verif.Props.LookTimeSpec
import Verif.Props.Memory
import Verif.Props.MemorySpec
import Verif.Props.MsgPackLax
import Verif.Props.MsgPackLaxSpec
import Verif.Props.MsgPackObject
import Verif.Props.MsgPackObjectSpec
import Verif.Props.MsgPackObjectStream
import Verif.Props.MsgPackSpec
import Verif.Props.Names
import Verif.Props.NodeApi
import Verif.Props.Out
import Verif.Props.OutFail
import Verif.Props.Own
import Verif.Props.PJson
import Verif.Props.PMsgPack
import Verif.Props.PSrl
import Verif.Props.Pack
import Verif.Props.PackSpec
import Verif.Props.ReadLooks
import Verif.Props.ReadLooksSpec
import Verif.Props.ReadStored
import Verif.Props.ReadTime
import Verif.Props.Registration
import Verif.Props.RestoreTime
import Verif.Props.Reuse
import Verif.Props.Safe
import Verif.Props.Same
import Verif.Props.SavedSize
import Verif.Props.Session
import Verif.Props.SessionSpec
import Verif.Props.Shared
import Verif.Props.SharedSafe
import Verif.Props.SharedSpec
import Verif.Props.SrlLax
import Verif.Props.SrlLaxSpec
import Verif.Props.SrlObject
import Verif.Props.StoredKeys
import Verif.Props.StoredKeysSpec
import Verif.Props.StoredLooks
import Verif.Props.Stream
import Verif.Props.StreamJson
import Verif.Props.StreamNext
import Verif.Props.TableMove
import Verif.Props.Text
import Verif.Props.Time
import Verif.Props.TimeAgain
import Verif.Props.TimeSpec
import Verif.Props.Tree
import Verif.Props.Typed
import Verif.Props.TypedDocs
import Verif.Props.TypedDocsSpec
import Verif.Props.TypedEnum
import Verif.Props.TypedEnumSpec
import Verif.Props.TypedFp
import Verif.Props.TypedProper
import Verif.Props.TypedSpec
import Verif.Props.Union
import Verif.Props.UnionSpec
import Verif.Props.Versions
import Verif.Props.VersionsSpec
import Verif.Props.Views
import Verif.Props.ViewsSpec
import Verif.Props.Vlq
import Verif.Props.Weak
