import Verif.Basic
import Verif.Conformance
import Verif.Demo
import Verif.Lemmas.AnyStore
import Verif.Lemmas.Atomic
import Verif.Lemmas.Attributes
import Verif.Lemmas.Box
import Verif.Lemmas.Bytes
import Verif.Lemmas.Chunk
import Verif.Lemmas.ChunkKey
import Verif.Lemmas.Clear
import Verif.Lemmas.Confine
import Verif.Lemmas.ConfineExact
import Verif.Lemmas.CrashCalls
import Verif.Lemmas.Faults
import Verif.Lemmas.Fs
import Verif.Lemmas.Harmless
import Verif.Lemmas.Interfere
import Verif.Lemmas.Json
import Verif.Lemmas.JsonCut
import Verif.Lemmas.JsonText
import Verif.Lemmas.LinkCut
import Verif.Lemmas.LinkSpare
import Verif.Lemmas.LinkWalk
import Verif.Lemmas.LinkedCalls
import Verif.Lemmas.Links
import Verif.Lemmas.Listing
import Verif.Lemmas.Loose
import Verif.Lemmas.Moved
import Verif.Lemmas.NdArr
import Verif.Lemmas.NdRead
import Verif.Lemmas.NdWrite
import Verif.Lemmas.Nodes
import Verif.Lemmas.Once
import Verif.Lemmas.Path
import Verif.Lemmas.ReadOnly
import Verif.Lemmas.Region
import Verif.Lemmas.RegionSim
import Verif.Lemmas.RegionStep
import Verif.Lemmas.RegionSys
import Verif.Lemmas.Serial
import Verif.Lemmas.Sessions
import Verif.Lemmas.Solo
import Verif.Lemmas.SoloWalk
import Verif.Lemmas.Store
import Verif.Lemmas.Threads
import Verif.Lemmas.Turns
import Verif.Model.AnyStore
import Verif.Model.Chunk
import Verif.Model.ChunkViews
import Verif.Model.Compression
import Verif.Model.Crash
import Verif.Model.CrashCalls
import Verif.Model.DataType
import Verif.Model.Device
import Verif.Model.DeviceBox
import Verif.Model.DeviceMore
import Verif.Model.Display
import Verif.Model.Elem
import Verif.Model.Faults
import Verif.Model.Fs
import Verif.Model.Grid
import Verif.Model.Interleave
import Verif.Model.Json
import Verif.Model.JsonText
import Verif.Model.Kept
import Verif.Model.Libraries
import Verif.Model.LinkWalk
import Verif.Model.Links
import Verif.Model.Locks
import Verif.Model.LzPure
import Verif.Model.Machine
import Verif.Model.Metadata
import Verif.Model.Ndarray
import Verif.Model.Opens
import Verif.Model.Path
import Verif.Model.Sessions
import Verif.Model.Store
import Verif.Model.Streams
import Verif.Model.Strings
import Verif.Model.Threads
import Verif.Model.Walk
import Verif.Model.WalkFaults
import Verif.Props.Agree
import Verif.Props.Alone
import Verif.Props.AnyStore
import Verif.Props.Atomic
import Verif.Props.Attributes
import Verif.Props.Beside
import Verif.Props.Calls
import Verif.Props.CallsNd
import Verif.Props.Chunk
import Verif.Props.ChunkExact
import Verif.Props.ChunkLinear
import Verif.Props.ChunkMap
import Verif.Props.ChunkRace
import Verif.Props.ChunkViews
import Verif.Props.Compression
import Verif.Props.CompressorUse
import Verif.Props.Confine
import Verif.Props.ConfineExact
import Verif.Props.ConfineUp
import Verif.Props.Crash
import Verif.Props.CrashCalls
import Verif.Props.CrashExact
import Verif.Props.CrashOpens
import Verif.Props.CrashRuns
import Verif.Props.CrashWalk
import Verif.Props.DataType
import Verif.Props.Deep
import Verif.Props.Device
import Verif.Props.DeviceBox
import Verif.Props.DeviceBoxFail
import Verif.Props.DeviceCut
import Verif.Props.DeviceMore
import Verif.Props.Display
import Verif.Props.Documents
import Verif.Props.DocumentsExact
import Verif.Props.EntryKept
import Verif.Props.Errors
import Verif.Props.Exact
import Verif.Props.ExactMore
import Verif.Props.ExactWrite
import Verif.Props.ExistsExact
import Verif.Props.FailedWrite
import Verif.Props.Faults
import Verif.Props.FaultsAlways
import Verif.Props.FaultsEnd
import Verif.Props.FaultyNeighbours
import Verif.Props.Grid
import Verif.Props.Interleave
import Verif.Props.Kept
import Verif.Props.KeyExact
import Verif.Props.Layout
import Verif.Props.LayoutFree
import Verif.Props.Libraries
import Verif.Props.Linear
import Verif.Props.LinkRemoval
import Verif.Props.LinkedData
import Verif.Props.Links
import Verif.Props.ListHistory
import Verif.Props.Listing
import Verif.Props.ListingEnds
import Verif.Props.ListingExact
import Verif.Props.Locality
import Verif.Props.Locations
import Verif.Props.Locks
import Verif.Props.LostBoxes
import Verif.Props.LostNodes
import Verif.Props.LzPure
import Verif.Props.Machine
import Verif.Props.Metadata
import Verif.Props.MetadataExact
import Verif.Props.Mixed
import Verif.Props.Moved
import Verif.Props.NdRead
import Verif.Props.NdWrite
import Verif.Props.NewArray
import Verif.Props.Nodes
import Verif.Props.Open
import Verif.Props.Opens
import Verif.Props.OpensAlways
import Verif.Props.Refine
import Verif.Props.RefineBoxes
import Verif.Props.RemoveAll
import Verif.Props.Resize
import Verif.Props.SeenEmpty
import Verif.Props.Session
import Verif.Props.Shared
import Verif.Props.SharedThreads
import Verif.Props.SideBySide
import Verif.Props.Spelling
import Verif.Props.SpellingList
import Verif.Props.StoreCalls
import Verif.Props.Streams
import Verif.Props.Terminate
import Verif.Props.ThreadBoxes
import Verif.Props.ThreadCalls
import Verif.Props.ThreadCrash
import Verif.Props.ThreadRemove
import Verif.Props.ThreadShared
import Verif.Props.Threads
import Verif.Props.Total
import Verif.Props.TotalNd
import Verif.Props.WalkFaults
import Verif.Props.WalkFaultsAlways
import Verif.Props.WrongType
import Verif.Spec.Box
import Verif.Spec.Documents
import Verif.Spec.Keys
import Verif.Spec.Layout
