import Verif.Model.Ask
import Verif.Model.Base
import Verif.Model.Borrow
import Verif.Model.Buffer
import Verif.Model.BytesOrd
import Verif.Model.Codec
import Verif.Model.Derive
import Verif.Model.DeriveIo
import Verif.Model.DeriveTy
import Verif.Model.DeriveWalk
import Verif.Model.GenericSession
import Verif.Model.Indexed
import Verif.Model.Io
import Verif.Model.Machine
import Verif.Model.MachineWalker
import Verif.Model.Macro
import Verif.Model.Methods
import Verif.Model.Optimised
import Verif.Model.Parse
import Verif.Model.Payload
import Verif.Model.Prim
import Verif.Model.Program
import Verif.Model.Reader
import Verif.Model.Revision
import Verif.Model.Schema
import Verif.Model.Session
import Verif.Model.Sink
import Verif.Model.SizeText
import Verif.Model.Std
import Verif.Model.Stream
import Verif.Model.StructSession
import Verif.Model.Third
import Verif.Model.ThirdIo
import Verif.Model.Ty
import Verif.Model.Unsafe
import Verif.Model.Walk
import Verif.Model.Work
import Verif.Model.WorkDerive
import Verif.Spec.Alike
import Verif.Spec.Alloc
import Verif.Spec.Ask
import Verif.Spec.Borrow
import Verif.Spec.Buffer
import Verif.Spec.Canon
import Verif.Spec.Contained
import Verif.Spec.Copy
import Verif.Spec.Cursor
import Verif.Spec.Cut
import Verif.Spec.Demo
import Verif.Spec.Depth
import Verif.Spec.Derive
import Verif.Spec.DeriveDemo
import Verif.Spec.DeriveIo
import Verif.Spec.DerivePanic
import Verif.Spec.DeriveWalk
import Verif.Spec.Entries
import Verif.Spec.Exchange
import Verif.Spec.Features
import Verif.Spec.Foreign
import Verif.Spec.GenericSession
import Verif.Spec.Ints
import Verif.Spec.Laws
import Verif.Spec.Log
import Verif.Spec.Lookup
import Verif.Spec.Machine
import Verif.Spec.Macro
import Verif.Spec.Methods
import Verif.Spec.Nested
import Verif.Spec.Parse
import Verif.Spec.Patch
import Verif.Spec.Path
import Verif.Spec.PathOld
import Verif.Spec.Program
import Verif.Spec.ProgramLift
import Verif.Spec.Schema
import Verif.Spec.SchemaVariant
import Verif.Spec.Search
import Verif.Spec.Seq
import Verif.Spec.Session
import Verif.Spec.Sink
import Verif.Spec.Size
import Verif.Spec.Slice
import Verif.Spec.Source
import Verif.Spec.Stream
import Verif.Spec.StructSession
import Verif.Spec.Third
import Verif.Spec.ThirdIo
import Verif.Spec.Ty
import Verif.Spec.Unsafe
import Verif.Spec.Value
import Verif.Spec.Walk
import Verif.Spec.WalkAlloc
import Verif.Spec.WalkEnum
import Verif.Spec.WalkReport
import Verif.Spec.Width
import Verif.Spec.Wire
import Verif.Spec.WireField
import Verif.Spec.WireIndexed
import Verif.Spec.Work
import Verif.Spec.Write
import Verif.Proofs.Alike
import Verif.Proofs.Alloc
import Verif.Proofs.AllocProgram
import Verif.Proofs.AllocSkip
import Verif.Proofs.Ask
import Verif.Proofs.Below
import Verif.Proofs.Borrow
import Verif.Proofs.Buffer
import Verif.Proofs.BytesOrd
import Verif.Proofs.Canon
import Verif.Proofs.CanonDerive
import Verif.Proofs.CanonThird
import Verif.Proofs.Coll
import Verif.Proofs.Copy
import Verif.Proofs.Cut
import Verif.Proofs.Damage
import Verif.Proofs.Depth
import Verif.Proofs.DepthDerive
import Verif.Proofs.Derive
import Verif.Proofs.DeriveEnum
import Verif.Proofs.DeriveIo
import Verif.Proofs.DeriveIoErr
import Verif.Proofs.DerivePanic
import Verif.Proofs.DeriveStream
import Verif.Proofs.DeriveTy
import Verif.Proofs.DeriveWalk
import Verif.Proofs.DeriveWalkEnum
import Verif.Proofs.Entries
import Verif.Proofs.Exchange
import Verif.Proofs.Extent
import Verif.Proofs.Features
import Verif.Proofs.Foreign
import Verif.Proofs.Indexed
import Verif.Proofs.IndexedBuild
import Verif.Proofs.IndexedCodecs
import Verif.Proofs.Ints
import Verif.Proofs.Lookup
import Verif.Proofs.Machine
import Verif.Proofs.MachineEnc
import Verif.Proofs.MachineHost
import Verif.Proofs.MachineIndexed
import Verif.Proofs.MachineWalk
import Verif.Proofs.MachineWalker
import Verif.Proofs.Macro
import Verif.Proofs.MacroPanic
import Verif.Proofs.MapWalk
import Verif.Proofs.Offsets
import Verif.Proofs.Packed
import Verif.Proofs.Parse
import Verif.Proofs.Patch
import Verif.Proofs.PatchIndexed
import Verif.Proofs.PatchSize
import Verif.Proofs.Path
import Verif.Proofs.PathDerive
import Verif.Proofs.PathOld
import Verif.Proofs.PathOldEnum
import Verif.Proofs.PathOldProgram
import Verif.Proofs.PathOldStruct
import Verif.Proofs.PathOldView
import Verif.Proofs.PathProgram
import Verif.Proofs.PathView
import Verif.Proofs.Payload
import Verif.Proofs.Prim
import Verif.Proofs.Program
import Verif.Proofs.ProgramFaithful
import Verif.Proofs.ProgramLift
import Verif.Proofs.ProgramPanic
import Verif.Proofs.Rd
import Verif.Proofs.Reads
import Verif.Proofs.ReadsDerive
import Verif.Proofs.ReadsIndexed
import Verif.Proofs.Revision
import Verif.Proofs.Schema
import Verif.Proofs.SchemaVariant
import Verif.Proofs.Session
import Verif.Proofs.Sink
import Verif.Proofs.Size
import Verif.Proofs.Std
import Verif.Proofs.Std2
import Verif.Proofs.Stream
import Verif.Proofs.StreamErr
import Verif.Proofs.StructSession
import Verif.Proofs.Third
import Verif.Proofs.ThirdIo
import Verif.Proofs.Ty
import Verif.Proofs.Unsafe
import Verif.Proofs.Value
import Verif.Proofs.ValueBack
import Verif.Proofs.ValueBackProgram
import Verif.Proofs.ValueDerive
import Verif.Proofs.ValueProgram
import Verif.Proofs.Walk
import Verif.Proofs.WalkAlloc
import Verif.Proofs.Width
import Verif.Proofs.Wire
import Verif.Proofs.WireField
import Verif.Proofs.WireIndexed
import Verif.Proofs.Work
import Verif.Proofs.WorkDerive
import Verif.Proofs.WorkExact
import Verif.Proofs.WorkExactDerive
import Verif.Proofs.Write
import Verif.Props.Alike
import Verif.Props.Alloc
import Verif.Props.Ask
import Verif.Props.Borrow
import Verif.Props.Buffer
import Verif.Props.Canon
import Verif.Props.Contained
import Verif.Props.Copy
import Verif.Props.Cut
import Verif.Props.Damage
import Verif.Props.Depth
import Verif.Props.Derive
import Verif.Props.DeriveEnum
import Verif.Props.DeriveIo
import Verif.Props.DerivePanic
import Verif.Props.DeriveStream
import Verif.Props.DeriveStreamMore
import Verif.Props.DeriveWalk
import Verif.Props.DeriveWalkEnum
import Verif.Props.Entries
import Verif.Props.Exchange
import Verif.Props.Extent
import Verif.Props.Features
import Verif.Props.Foreign
import Verif.Props.GenericSession
import Verif.Props.Indexed
import Verif.Props.IndexedWalk
import Verif.Props.Ints
import Verif.Props.Log
import Verif.Props.Lookup
import Verif.Props.Machine
import Verif.Props.MachineWalker
import Verif.Props.Macro
import Verif.Props.Methods
import Verif.Props.Optimised
import Verif.Props.Parse
import Verif.Props.Patch
import Verif.Props.Path
import Verif.Props.PathOld
import Verif.Props.Payload
import Verif.Props.Program
import Verif.Props.Reader
import Verif.Props.Readme
import Verif.Props.Revision
import Verif.Props.Schema
import Verif.Props.SchemaVariant
import Verif.Props.Session
import Verif.Props.Sink
import Verif.Props.Size
import Verif.Props.Source
import Verif.Props.Std
import Verif.Props.Stream
import Verif.Props.StructSession
import Verif.Props.Third
import Verif.Props.ThirdIo
import Verif.Props.Types
import Verif.Props.Unsafe
import Verif.Props.Value
import Verif.Props.Walk
import Verif.Props.WalkAlloc
import Verif.Props.WalkEnumMore
import Verif.Props.WalkReport
import Verif.Props.Width
import Verif.Props.Wire
import Verif.Props.WireField
import Verif.Props.WireIndexed
import Verif.Props.Work
import Verif.Props.Write
import Verif.Suite.Builtin
import Verif.Suite.Derived
import Verif.Suite.Optimised
import Verif.Suite.Walkers
