import Verif.Lemmas.AlAccess
import Verif.Lemmas.AlAgree
import Verif.Lemmas.AlAppend
import Verif.Lemmas.AlCalls
import Verif.Lemmas.AlExec
import Verif.Lemmas.AlKeys
import Verif.Lemmas.AlMap
import Verif.Lemmas.AlReading
import Verif.Lemmas.AlRound
import Verif.Lemmas.AlStack
import Verif.Lemmas.AlSync
import Verif.Lemmas.AlTame
import Verif.Lemmas.AlWorld
import Verif.Lemmas.Contour
import Verif.Lemmas.Convert
import Verif.Lemmas.ConvertApart
import Verif.Lemmas.ConvertBack
import Verif.Lemmas.ConvertExec
import Verif.Lemmas.ConvertGet
import Verif.Lemmas.ConvertIdentity
import Verif.Lemmas.ConvertMain
import Verif.Lemmas.ConvertNames
import Verif.Lemmas.ConvertOff
import Verif.Lemmas.ConvertOffOk
import Verif.Lemmas.ConvertOk
import Verif.Lemmas.ConvertPlan
import Verif.Lemmas.ConvertPost
import Verif.Lemmas.ConvertRoute
import Verif.Lemmas.ConvertRuled
import Verif.Lemmas.ConvertSent
import Verif.Lemmas.ConvertVersion
import Verif.Lemmas.Coordinate
import Verif.Lemmas.Coordinates
import Verif.Lemmas.Diff
import Verif.Lemmas.DiffAddr
import Verif.Lemmas.DiffReport
import Verif.Lemmas.Goto
import Verif.Lemmas.GotoPath
import Verif.Lemmas.Hash
import Verif.Lemmas.HashBytes
import Verif.Lemmas.HashInj
import Verif.Lemmas.Heap
import Verif.Lemmas.HeapCopy
import Verif.Lemmas.HeapEnds
import Verif.Lemmas.HeapGoto
import Verif.Lemmas.HeapHeld
import Verif.Lemmas.HeapLazy
import Verif.Lemmas.HeapLazyCopy
import Verif.Lemmas.HeapLazyOps
import Verif.Lemmas.HeapLazyRead
import Verif.Lemmas.HeapNode
import Verif.Lemmas.HeapNodeCopy
import Verif.Lemmas.HeapPlace
import Verif.Lemmas.HeapShows
import Verif.Lemmas.HeapStep
import Verif.Lemmas.MapLeaves
import Verif.Lemmas.Metadata
import Verif.Lemmas.NcBack
import Verif.Lemmas.NcCheck
import Verif.Lemmas.NcCoord
import Verif.Lemmas.NcDict
import Verif.Lemmas.NcDims
import Verif.Lemmas.NcEager
import Verif.Lemmas.NcFill
import Verif.Lemmas.NcItems
import Verif.Lemmas.NcLayout
import Verif.Lemmas.NcLazy
import Verif.Lemmas.NcLook
import Verif.Lemmas.NcMapPath
import Verif.Lemmas.NcMerge
import Verif.Lemmas.NcOther
import Verif.Lemmas.NcParse
import Verif.Lemmas.NcReadable
import Verif.Lemmas.NcResolve
import Verif.Lemmas.NcRound
import Verif.Lemmas.NcSizes
import Verif.Lemmas.NcSort
import Verif.Lemmas.NcValid
import Verif.Lemmas.NcVersion
import Verif.Lemmas.NcWalk
import Verif.Lemmas.NcWrite
import Verif.Lemmas.Open
import Verif.Lemmas.Path
import Verif.Lemmas.PathCache
import Verif.Lemmas.PathParse
import Verif.Lemmas.PathWrite
import Verif.Lemmas.Print
import Verif.Lemmas.PulseCopy
import Verif.Lemmas.PulsePlan
import Verif.Lemmas.PulseReach
import Verif.Lemmas.PulseTimes
import Verif.Lemmas.PulseValue
import Verif.Lemmas.PyInt
import Verif.Lemmas.Resample
import Verif.Lemmas.Strings
import Verif.Lemmas.Tree
import Verif.Lemmas.TreeIter
import Verif.Lemmas.TypeChange
import Verif.Lemmas.Update
import Verif.Lemmas.Usage
import Verif.Lemmas.UsageTree
import Verif.Lemmas.Validate
import Verif.Lemmas.ValidateReads
import Verif.Lemmas.VersionDropped
import Verif.Lemmas.VersionMap
import Verif.Lemmas.VersionNbc
import Verif.Lemmas.XarrayData
import Verif.Lemmas.XarrayPaths
import Verif.Lemmas.XarrayPrune
import Verif.Lemmas.XarraySource
import Verif.Model.Al
import Verif.Model.AlLazy
import Verif.Model.AlStore
import Verif.Model.Command
import Verif.Model.Contour
import Verif.Model.ContourTree
import Verif.Model.Convert
import Verif.Model.ConvertCocos
import Verif.Model.ConvertVersion
import Verif.Model.Coordinate
import Verif.Model.Diff
import Verif.Model.Entry
import Verif.Model.Goto
import Verif.Model.Hash
import Verif.Model.Heap
import Verif.Model.HeapGoto
import Verif.Model.HeapNode
import Verif.Model.Identifier
import Verif.Model.Iterate
import Verif.Model.LowLevel
import Verif.Model.MetaGuard
import Verif.Model.Metadata
import Verif.Model.ModelCache
import Verif.Model.NcArr
import Verif.Model.NcFile
import Verif.Model.NcMeta
import Verif.Model.NcRead
import Verif.Model.NcStore
import Verif.Model.NcVersion
import Verif.Model.NcWrite
import Verif.Model.Numbers
import Verif.Model.Open
import Verif.Model.Operators
import Verif.Model.Path
import Verif.Model.PathCache
import Verif.Model.Primitive
import Verif.Model.Print
import Verif.Model.Provenance
import Verif.Model.Pulse
import Verif.Model.Resample
import Verif.Model.Serialize
import Verif.Model.Strings
import Verif.Model.Timer
import Verif.Model.Tree
import Verif.Model.TypeChange
import Verif.Model.Update
import Verif.Model.Usage
import Verif.Model.Validate
import Verif.Model.Version
import Verif.Model.VersionMap
import Verif.Model.VersionNbc
import Verif.Model.Xarray
import Verif.Props.AlAppend
import Verif.Props.AlLazy
import Verif.Props.AlMap
import Verif.Props.AlReading
import Verif.Props.AlRound
import Verif.Props.AlSlice
import Verif.Props.AlStack
import Verif.Props.AlTime
import Verif.Props.AlView
import Verif.Props.Assign
import Verif.Props.Command
import Verif.Props.Contour
import Verif.Props.ContourTree
import Verif.Props.Convert
import Verif.Props.ConvertBack
import Verif.Props.ConvertCocos
import Verif.Props.ConvertGet
import Verif.Props.ConvertNames
import Verif.Props.ConvertNamesOk
import Verif.Props.ConvertVersion
import Verif.Props.Coordinate
import Verif.Props.Coordinates
import Verif.Props.DataType
import Verif.Props.Diff
import Verif.Props.DiffReport
import Verif.Props.Entry
import Verif.Props.EntryList
import Verif.Props.Goto
import Verif.Props.Hash
import Verif.Props.HashTrace
import Verif.Props.Heap
import Verif.Props.HeapGoto
import Verif.Props.HeapLazy
import Verif.Props.HeapNode
import Verif.Props.HeapPlace
import Verif.Props.Identifier
import Verif.Props.Iterate
import Verif.Props.LowLevel
import Verif.Props.MetaGuard
import Verif.Props.MetaTree
import Verif.Props.Metadata
import Verif.Props.ModelCache
import Verif.Props.NcFile
import Verif.Props.NcLazy
import Verif.Props.NcMeta
import Verif.Props.NcRound
import Verif.Props.NcStore
import Verif.Props.NcVersion
import Verif.Props.NcWrite
import Verif.Props.Numbers
import Verif.Props.Obsolete
import Verif.Props.Open
import Verif.Props.Operators
import Verif.Props.Path
import Verif.Props.Print
import Verif.Props.Provenance
import Verif.Props.Pulse
import Verif.Props.Resample
import Verif.Props.Serialize
import Verif.Props.Strings
import Verif.Props.Timer
import Verif.Props.Tree
import Verif.Props.TypeChange
import Verif.Props.Usage
import Verif.Props.Validate
import Verif.Props.ValidateReads
import Verif.Props.Version
import Verif.Props.VersionMap
import Verif.Props.VersionNbc
import Verif.Props.Xarray
import Verif.Spec.AlAppend
import Verif.Spec.AlCalls
import Verif.Spec.AlLazy
import Verif.Spec.AlMap
import Verif.Spec.AlStack
import Verif.Spec.AlStore
import Verif.Spec.AlTime
import Verif.Spec.AlView
import Verif.Spec.Command
import Verif.Spec.Contour
import Verif.Spec.ContourTree
import Verif.Spec.Convert
import Verif.Spec.ConvertCocos
import Verif.Spec.ConvertNames
import Verif.Spec.ConvertVersion
import Verif.Spec.Coordinate
import Verif.Spec.DataType
import Verif.Spec.Diff
import Verif.Spec.DiffReport
import Verif.Spec.Entry
import Verif.Spec.Goto
import Verif.Spec.Hash
import Verif.Spec.HashTrace
import Verif.Spec.Heap
import Verif.Spec.HeapLazy
import Verif.Spec.HeapNode
import Verif.Spec.HeapPlace
import Verif.Spec.Iterate
import Verif.Spec.LowLevel
import Verif.Spec.MetaTree
import Verif.Spec.Metadata
import Verif.Spec.NcData
import Verif.Spec.NcFile
import Verif.Spec.NcMeta
import Verif.Spec.NcReadable
import Verif.Spec.NcSize
import Verif.Spec.NcStore
import Verif.Spec.NcValid
import Verif.Spec.NcVersion
import Verif.Spec.Numbers
import Verif.Spec.Open
import Verif.Spec.Operators
import Verif.Spec.Path
import Verif.Spec.Print
import Verif.Spec.Provenance
import Verif.Spec.Pulse
import Verif.Spec.PyInt
import Verif.Spec.Resample
import Verif.Spec.Strings
import Verif.Spec.Timer
import Verif.Spec.Tree
import Verif.Spec.Update
import Verif.Spec.Usage
import Verif.Spec.Validate
import Verif.Spec.VersionMap
import Verif.Spec.VersionNbc
import Verif.Spec.Xarray
