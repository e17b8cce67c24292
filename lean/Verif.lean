import Verif.Model.Basic
import Verif.Model.Arith
import Verif.Model.Strings
import Verif.Model.BytesBig
import Verif.Model.Ops
import Verif.Model.HMap
import Verif.Model.Indexed
import Verif.Model.Array
import Verif.Model.Serde
import Verif.Model.Loading
import Verif.Spec
import Verif.Spec.Expressions
import Verif.Spec.Operands
import Verif.Spec.Text
import Verif.Spec.Arrays
import Verif.Spec.Histories
import Verif.Spec.Programs
import Verif.Spec.Interner
import Verif.Spec.LongTables
import Verif.Spec.LongArrays
import Verif.Spec.Calls
import Verif.Proofs.Words
import Verif.Proofs.Arith
import Verif.Proofs.ArithOps
import Verif.Proofs.Ops
import Verif.Props.Arith
import Verif.Props.Compare
import Verif.Props.Slice
import Verif.Props.Convert
import Verif.Proofs.BytesBig
import Verif.Props.BytesBig
import Verif.Proofs.Strings
import Verif.Props.Strings
import Verif.Props.Parse
import Verif.Props.Closure
import Verif.Proofs.Modes
import Verif.Props.Modes
import Verif.Props.Derived
import Verif.Props.DebugText
import Verif.Proofs.HMap
import Verif.Proofs.MapEq
import Verif.SpecIndexed
import Verif.Props.Indexed
import Verif.Props.Interner
import Verif.SpecArray
import Verif.Proofs.Dense
import Verif.Proofs.Sparse
import Verif.Proofs.ArrayConv
import Verif.Proofs.ArrayInv
import Verif.Proofs.Counting
import Verif.Props.Arrays
import Verif.Props.ArrayConv
import Verif.Props.ArrayEq
import Verif.Props.Laws
import Verif.Props.Program
import Verif.Props.Cross
import Verif.Props.ArrayLaws
import Verif.Props.Exact
import Verif.Props.ParseExact
import Verif.Props.RoundTrip
import Verif.Props.TextOps
import Verif.Props.TextOrder
import Verif.Props.Stray
import Verif.Proofs.Raw
import Verif.Props.Raw
import Verif.Props.RawObs
import Verif.Props.ParseInPlace
import Verif.Props.RawArray
import Verif.Props.RawProgram
import Verif.Props.RawConv
import Verif.Props.MixedWidth
import Verif.Props.ForeignWidth
import Verif.Props.WordMemory
import Verif.Props.Simulator
import Verif.Props.Sizes
import Verif.Props.WidthLaws
import Verif.Props.WideIndex
import Verif.Props.ShiftLaws
import Verif.Props.HashOrder
import Verif.Props.InternerGrowth
import Verif.Props.AnyInterner
import Verif.Props.AnyWide
import Verif.Props.AnyLong
import Verif.Props.ZeroWidth
import Verif.SpecSerde
import Verif.Props.Serde
import Verif.Props.SerdeDoc
import Verif.Model.Json
import Verif.Spec.Json
import Verif.Proofs.Json
import Verif.Props.Json
import Verif.Props.ArrayExact
import Verif.Props.ParseFail
import Verif.Props.ParseTotal
import Verif.Props.ParseKinds
import Verif.Props.Extreme
import Verif.Props.AnyTerm
import Verif.Conformance
import Verif.Props.Malformed
import Verif.Props.MalformedObs
import Verif.Props.MalformedParse
import Verif.Props.Target
import Verif.SpecAnyArray
import Verif.Props.AnyArray
import Verif.SpecAnyConv
import Verif.Props.AnyConv
import Verif.Spec.Devices
import Verif.Props.Devices
import Verif.Props.DevicesExact
import Verif.Spec.Documents
import Verif.Props.Documents
import Verif.Props.DocumentsEq
import Verif.Spec.DocumentsConv
import Verif.Props.DocumentsConv
import Verif.Props.DocumentsSparse
import Verif.Props.DocumentsTravel
import Verif.Spec.Loading
import Verif.Props.Loading
import Verif.Spec.Archives
import Verif.Props.Archives
import Verif.Model.Entries
import Verif.Model.Unwind
import Verif.Spec.Steps
import Verif.Spec.Unwind
import Verif.Model.Buffers
import Verif.Spec.Rescue
import Verif.Spec.Neighbours
import Verif.Props.Steps
import Verif.Props.Unwind
import Verif.Props.Rescue
import Verif.Props.Neighbours
import Verif.Model.Profiles
import Verif.Spec.Profiles
import Verif.Proofs.Profiles
import Verif.Proofs.ProfileOrder
import Verif.Props.Profiles
import Verif.Spec.InternerClient
import Verif.Props.InternerClient
import Verif.Spec.Tests
import Verif.Props.Tests
import Verif.Spec.Order
import Verif.Props.Order
import Verif.Props.SortedEntries
import Verif.Props.ReadBack
import Verif.Props.Parts
import Verif.Props.Algorithms
import Verif.Props.HugeText
import Verif.Props.HugeLeft
import Verif.Props.ChunkOps
import Verif.Props.Assemble
import Verif.Props.Fields
import Verif.Props.Memory
import Verif.Props.SignedDivision
import Verif.Props.Smt
import Verif.Props.Simulation
import Verif.Props.Overflow
import Verif.Props.BitScan
import Verif.Props.Blocks
import Verif.Props.Queue
import Verif.Props.Tricks
import Verif.Props.Decimal
import Verif.Props.FixedPoint
import Verif.Props.FixedUnsigned
import Verif.Props.Numbers
import Verif.Props.Cache
import Verif.Props.Checksum
import Verif.Props.Sorting
import Verif.Props.Hamming
import Verif.Props.Limbs
import Verif.Props.StackMachine
import Verif.Props.BitSets
import Verif.Props.HashTable
import Verif.Props.Circuits
import Verif.Props.LongProducts
import Verif.Props.LongQuotients
import Verif.Props.Links
import Verif.Props.Reachability
import Verif.Props.Allocator
import Verif.Props.UnknownBits
import Verif.Props.UnknownTerms
import Verif.Props.PrefixSums
import Verif.Props.Journal
import Verif.Props.DisjointSets
