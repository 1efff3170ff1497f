import Verif.Model.Impls
import Verif.Model.Session
import Verif.Model.History
import Verif.Spec.Ideal
import Verif.Spec.Decode
import Verif.Spec.Layout
import Verif.Lemmas.Storage
import Verif.Lemmas.Words
import Verif.Lemmas.Refine
import Verif.Lemmas.Finalize
import Verif.Lemmas.Layout
import Verif.Lemmas.TypedDecode
import Verif.Lemmas.TypedSeq
import Verif.Lemmas.Top
import Verif.Lemmas.History
import Verif.Props.Util
import Verif.Props.Heap
import Verif.Props.Concrete
import Verif.Props.Storage
import Verif.Props.Storage2
import Verif.Props.StorageEx
import Verif.Model.SerHistory
import Verif.Props.Pos
import Verif.Props.PosEx
import Verif.Model.Reach
import Verif.Spec.Output
import Verif.Lemmas.Fuel
import Verif.Lemmas.Owned
import Verif.Lemmas.Run
import Verif.Lemmas.BuildMode
import Verif.Props.Serialize
import Verif.Props.Build
import Verif.Props.SerEx
import Verif.Lemmas.Agree
import Verif.Props.Agree
import Verif.Props.AgreeEx
import Verif.Props.Layouts
import Verif.Model.Derive
import Verif.Props.Derive
import Verif.Model.DeriveSerializer
import Verif.Props.DeriveSerializer
import Verif.Spec.Discipline
import Verif.Model.SafeCalls
import Verif.Props.SafeCalls
import Verif.Model.UserImpl
import Verif.Props.UserImpl
import Verif.Spec.Edits
import Verif.Lemmas.Edits
import Verif.Props.Edits
import Verif.Model.Caught
import Verif.Lemmas.Caught
import Verif.Props.Caught
import Verif.Spec.Size
import Verif.Lemmas.Size
import Verif.Props.Size
import Verif.Props.Ptr
import Verif.Props.Pointers
import Verif.Lemmas.Reread
import Verif.Props.Reread
import Verif.Props.Cost
import Verif.Model.Later
import Verif.Lemmas.Later
import Verif.Props.Durable
import Verif.Props.Batch
import Verif.Model.UserPanic
import Verif.Spec.User
import Verif.Lemmas.UserPanic
import Verif.Props.UserPanic
import Verif.Spec.Content
import Verif.Lemmas.Content
import Verif.Props.Content
import Verif.Props.ContentEx
import Verif.Props.Lossless
import Verif.Model.Mixed
import Verif.Lemmas.Mixed
import Verif.Props.Mixed
import Verif.Props.Conform
import Verif.Props.Reused
import Verif.Model.CustomStorage
import Verif.Spec.CustomStorage
import Verif.Lemmas.CustomStorage
import Verif.Props.CustomStorage
import Verif.Model.CustomSerializer
import Verif.Spec.CustomSerializer
import Verif.Lemmas.CustomSerializer
import Verif.Props.CustomSerializer
import Verif.Props.Nested
import Verif.Model.CustomComplete
import Verif.Spec.CustomComplete
import Verif.Lemmas.CustomComplete
import Verif.Props.CustomComplete
import Verif.Spec.Jump
import Verif.Lemmas.Jump
import Verif.Lemmas.JumpRun
import Verif.Props.Jump
import Verif.Model.CustomMixed
import Verif.Lemmas.CustomMixed
import Verif.Props.CustomMixed
import Verif.Model.CustomMixedComplete
import Verif.Lemmas.CustomMixedComplete
import Verif.Props.CustomMixedComplete
import Verif.Props.CustomFits
import Verif.Props.CustomFitsMixed
import Verif.Model.AnySerializer
import Verif.Spec.CallTree
import Verif.Lemmas.AnySerializer
import Verif.Props.AnySerializer
import Verif.Model.Assembled
import Verif.Spec.Assembled
import Verif.Lemmas.Parametric
import Verif.Lemmas.Assembled
import Verif.Lemmas.Deferred
import Verif.Props.Assembled
import Verif.Lemmas.SeqAny
import Verif.Lemmas.InOrder
import Verif.Props.InOrder
import Verif.Lemmas.StepRel
import Verif.Lemmas.Books
import Verif.Props.Books
import Verif.Spec.Footprint
import Verif.Lemmas.Footprint
import Verif.Props.Footprint
import Verif.Model.HandNested
import Verif.Model.HandKit
import Verif.Spec.HandNested
import Verif.Spec.HandKit
import Verif.Lemmas.HandNested
import Verif.Lemmas.HandDecode
import Verif.Lemmas.HandTop
import Verif.Lemmas.HandKit
import Verif.Props.HandNested
import Verif.Props.HandEx
import Verif.Props.InstStorage
import Verif.Props.InstSer
import Verif.Props.InstMore
import Verif.Props.InstCustom
import Verif.Model.Attempt
import Verif.Spec.Attempt
import Verif.Lemmas.Attempt
import Verif.Props.Attempt
import Verif.Model.Temporaries
import Verif.Model.Adaptive
import Verif.Spec.Temporaries
import Verif.Spec.Adaptive
import Verif.Lemmas.Temporaries
import Verif.Lemmas.Adaptive
import Verif.Props.Temporaries
import Verif.Props.Adaptive
import Verif.Model.SharedHeap
import Verif.Spec.SharedHeap
import Verif.Lemmas.Isolated
import Verif.Lemmas.SharedHeap
import Verif.Props.SharedHeap
import Verif.Spec.Relocate
import Verif.Lemmas.Relocate
import Verif.Props.Relocate
import Verif.Model.Afterwards
import Verif.Lemmas.Afterwards
import Verif.Props.Afterwards
import Verif.Model.Streaming
import Verif.Spec.Streaming
import Verif.Lemmas.Streaming
import Verif.Props.Streaming
import Verif.Lemmas.HandMixed
import Verif.Props.HandMixed
import Verif.Model.Catching
import Verif.Spec.Catching
import Verif.Lemmas.Catching
import Verif.Model.Programs
import Verif.Spec.Programs
import Verif.Lemmas.Programs
import Verif.Props.Programs
import Verif.Model.ProgramsLater
import Verif.Lemmas.ProgramsLater
import Verif.Props.ProgramsLater
import Verif.Props.Catching
import Verif.Model.DeriveHeader
import Verif.Spec.DeriveHeader
import Verif.Props.DeriveHeader
import Verif.Model.SerializerHeader
import Verif.Spec.SerializerHeader
import Verif.Props.SerializerHeader
import Verif.Model.SharedPrograms
import Verif.Model.SharedLater
import Verif.Lemmas.Housed
import Verif.Lemmas.SharedPrograms
import Verif.Lemmas.SharedLater
import Verif.Props.SharedPrograms
import Verif.Props.SharedLater
import Verif.Props.InstLater
import Verif.Props.InstShared
import Verif.Props.InstSessions
import Verif.Model.Params
import Verif.Spec.Params
import Verif.Props.Params
