import Verif.Bytes
import Verif.SizeDef
import Verif.SlottedModel
import Verif.FixedModel
import Verif.Api
import Verif.Words
import Verif.Spec
import Verif.PageSpec
import Verif.Placement
import Verif.SlottedRep
import Verif.SlottedOps
import Verif.SlottedUpdate
import Verif.SlottedMore
import Verif.SlottedTail
import Verif.SlottedCompact
import Verif.FixedRep
import Verif.FixedOps
import Verif.ApiEdit
import Verif.ApiRep
import Verif.ApiSpace
import Verif.PropsPage
import Verif.ApiInit
import Verif.PropsPage2
import Verif.PropsPage3
import Verif.SizeDefSer
import Verif.Dti
import Verif.Container
import Verif.TypeLay
import Verif.TypeFin
import Verif.TypeSpec
import Verif.PropsType
import Verif.Bits
import Verif.ContRep
import Verif.ContMove
import Verif.ContEnc
import Verif.ContUpd
import Verif.ContDatum
import Verif.ContSet
import Verif.ContPath
import Verif.ContGet
import Verif.PropsElem
import Verif.PropsMin
import Verif.Expand
import Verif.BitMove
import Verif.ContShift
import Verif.ContGrow
import Verif.ContExpand
import Verif.ContShrink
import Verif.ContResize
import Verif.ContWalk
import Verif.PropsExpand
import Verif.PropsInPlace
import Verif.TypeSer
import Verif.TypeNorm
import Verif.TypeDeser
import Verif.TypeSame
import Verif.TypeIdent
import Verif.TypeTrunc
import Verif.PropsSer
import Verif.Numeral
import Verif.Compare
import Verif.CmpSpec
import Verif.CmpProof
import Verif.PropsCmp
import Verif.PropsTupCmp
import Verif.PropsNum
import Verif.EncSame
import Verif.Copy
import Verif.PropsCopy
import Verif.HashProof
import Verif.PropsHash
import Verif.PropsNested
import Verif.Accessor
import Verif.WalkProof
import Verif.PropsWalk
import Verif.Heap
import Verif.HeapProof
import Verif.TypeHeap
import Verif.TypeHeapProof
import Verif.PropsHeap
import Verif.Lookup
import Verif.PropsLookup
import Verif.SetFits
import Verif.PropsFits
import Verif.FinSpec
import Verif.FinLimits
import Verif.Defaults
import Verif.PropsFin
import Verif.GrowFits
import Verif.PropsGrow
import Verif.PropsHist
import Verif.Print
import Verif.PrintProof
import Verif.PrintType
import Verif.PropsPrint
import Verif.PropsDatum
import Verif.PropsIdent
import Verif.FinState
import Verif.PropsFinState
import Verif.ContApi
import Verif.PropsCont
import Verif.Rounding
import Verif.PropsRound
import Verif.OnPage
import Verif.OnPageRep
import Verif.PropsOnPage
import Verif.ValSize
import Verif.PropsSize
import Verif.Alias
import Verif.AliasRep
import Verif.AliasSet
import Verif.PropsAlias
import Verif.PropsPointer
import Verif.ContSpot
import Verif.ContElem
import Verif.PropsSpot
import Verif.OnPageAny
import Verif.PropsOnPage2
import Verif.AliasFront
import Verif.PropsAlias2
import Verif.Frame
import Verif.PropsFrame
import Verif.AliasClear
import Verif.AliasPage
import Verif.PropsAliasPage
import Verif.Stale
import Verif.StaleSet
import Verif.StaleGrow
import Verif.PropsStale
import Verif.Slot
import Verif.PropsSlot
import Verif.Untrusted
import Verif.PropsUntrusted
import Verif.Share
import Verif.PropsShare
import Verif.PropsCode
import Verif.FinLeft
import Verif.Valid
import Verif.ValidRead
import Verif.PropsValid
import Verif.ValidPage
import Verif.PropsValidPage
import Verif.ValidCmp
import Verif.PropsValidCmp
import Verif.Twin
import Verif.TwinOps
import Verif.TwinFixed
import Verif.TwinRun
import Verif.PropsTwin
import Verif.PropsSort
import Verif.PropsFeed
import Verif.PropsPageCalc
import Verif.PageRest
import Verif.PropsRest
import Verif.HashAcross
import Verif.PropsAcross
import Verif.PageMove
import Verif.PropsMove
import Verif.Widen
import Verif.WidenFin
import Verif.PropsWiden
import Verif.Fnv
import Verif.PropsFnv
import Verif.FloatAcc
import Verif.PropsKey
import Verif.PropsSorted
import Verif.PropsUndo
import Verif.PropsReset
import Verif.PropsRefill
import Verif.PropsRollback
import Verif.PropsSplit
import Verif.PropsReplay
import Verif.StructSize
import Verif.PropsStruct
import Verif.PropsResize
import Verif.PropsCapacity
import Verif.PropsBulk
