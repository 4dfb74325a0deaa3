import Verif.Model.Type
import Verif.Model.Assert
import Verif.Spec
import Verif.Lemmas.Sub
import Verif.Lemmas.Digit2
import Verif.Lemmas.Signed
import Verif.Props.Compare
import Verif.Props.Addition
import Verif.Props.Subtraction
import Verif.Props.IntType
import Verif.Props.Object
import Verif.Props.Division
import Verif.Props.MulNaive
import Verif.Props.Multiplication
import Verif.Lemmas.Faults
import Verif.Lemmas.Keeps
import Verif.Lemmas.Halts
import Verif.Lemmas.Mono
import Verif.Props.Multiplication2
import Verif.Props.Special
import Verif.Props.Print
import Verif.Props.History
import Verif.Model.Compress
import Verif.Lemmas.DivPad
import Verif.Props.Padding
import Verif.Lemmas.Compress
import Verif.Props.Compress
import Verif.Props.Simulation
import Verif.Model.IntegerTest
import Verif.Props.IntClient
import Verif.Props.MulThreshold
import Verif.Props.MulColumns
import Verif.Props.DebugBuild
import Verif.Props.Algebra
import Verif.Props.Euclid
import Verif.Lemmas.FftErr5
import Verif.Props.FourierApi
import Verif.Props.TextClient
import Verif.Props.Clients
import Verif.Props.ArithTest
import Verif.Props.Loops
import Verif.Props.Sorting
import Verif.Props.Sqrt
import Verif.Props.Convert
import Verif.Props.Negation
import Verif.Props.Shift
import Verif.Props.NumberTheory
import Verif.Props.Format
import Verif.Props.Exceptions
import Verif.Props.DebugDiv
import Verif.Props.SpecialOrder
import Verif.Props.Lcm
import Verif.Props.Bisect
import Verif.Props.Size
import Verif.Props.Memory
import Verif.Props.Platform
import Verif.Props.AnyEnvironment
import Verif.Props.Moments
import Verif.Props.Binary64
import Verif.Props.Cost
import Verif.Props.Counters
import Verif.Props.Threads
import Verif.Props.RawDigits
import Verif.Props.Swap
import Verif.Props.Requests
import Verif.Props.MulLong
import Verif.Props.Bases
import Verif.Props.Stream
import Verif.Props.OrderedSet
import Verif.Props.NativePairs
import Verif.Props.Control
import Verif.Props.Container
import Verif.Props.Fused
import Verif.Props.Narrow
import Verif.Props.Locale
import Verif.Props.Excess
import Verif.Props.Exact
import Verif.Props.Single
import Verif.Props.Rounding
import Verif.Props.NativeLengths
import Verif.Props.Workaround
import Verif.Props.Retry
import Verif.Props.RoundQ
import Verif.Props.RoundingFft
import Verif.Props.Storage
import Verif.Props.Safety
import Verif.Props.RawProducts
import Verif.Props.Inverse
import Verif.Props.Expansion
import Verif.Props.OwnOrder
import Verif.Props.HashSet
import Verif.Props.BuiltIn
import Verif.Props.SafeInt
import Verif.Props.SafeIntEnv
import Verif.Props.Single32
import Verif.Props.RequestsDiv
import Verif.Props.Directed64
import Verif.Props.Clock
import Verif.Props.ClockCount
import Verif.Props.ClockNearest
import Verif.Props.Heap
import Verif.Props.World
import Verif.Props.WorldRoom
import Verif.Props.RawDiffs
import Verif.Props.Rsa
import Verif.Props.RawQuotients
import Verif.Props.Fractions
import Verif.Props.KeyExchange
import Verif.Props.MillerRabin
import Verif.Props.Fibonacci
import Verif.Props.Binomial
import Verif.Props.Crt
import Verif.Props.ContinuedFractions
import Verif.Props.LucasLehmer
import Verif.Props.Pepin
import Verif.Props.Horner
import Verif.Props.Pratt
import Verif.Props.Collatz
import Verif.Props.Log
import Verif.Props.Perfect
import Verif.Props.Gauss
import Verif.Audit
