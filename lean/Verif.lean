import Verif.Model.Base58
import Verif.Model.BigInteger
import Verif.Model.Bitcoin
import Verif.Model.Builtins
import Verif.Model.ClassLookup
import Verif.Model.Cli
import Verif.Model.Crypto
import Verif.Model.CryptoInstance
import Verif.Model.CurveOps
import Verif.Model.ECCurve
import Verif.Model.EcdsaPkg
import Verif.Model.FieldOps
import Verif.Model.Fixed8
import Verif.Model.Fixed8Big
import Verif.Model.Fixed8Text
import Verif.Model.Fixed8Vars
import Verif.Model.Floats
import Verif.Model.Hashes
import Verif.Model.Hashing
import Verif.Model.Helper
import Verif.Model.KeyPair
import Verif.Model.Merkle
import Verif.Model.MerkleCost
import Verif.Model.MerkleShared
import Verif.Model.MulCost
import Verif.Model.Operators
import Verif.Model.Primitives
import Verif.Model.RandomKey
import Verif.Model.Reader
import Verif.Model.ReaderSteps
import Verif.Model.Recursion
import Verif.Model.Surrogates
import Verif.Model.Threads
import Verif.Model.UInt
import Verif.Model.UIntDict
import Verif.Model.ValueEq
import Verif.Model.Writer
import Verif.Model.WriterSteps
import Verif.Proofs.Base58
import Verif.Proofs.Bitcoin
import Verif.Proofs.Bytes
import Verif.Proofs.DecimalMul
import Verif.Proofs.DecimalText
import Verif.Proofs.Decompress
import Verif.Proofs.ECEncode
import Verif.Proofs.ECGroup
import Verif.Proofs.ECMul
import Verif.Proofs.ECMulAll
import Verif.Proofs.ECOrder
import Verif.Proofs.EcdsaPkg
import Verif.Proofs.Field
import Verif.Proofs.Float
import Verif.Proofs.FloatDiv
import Verif.Proofs.FloatFmt
import Verif.Proofs.FloatRange
import Verif.Proofs.Hex
import Verif.Proofs.IO
import Verif.Proofs.K256Primes
import Verif.Proofs.Lucas
import Verif.Proofs.Merkle
import Verif.Proofs.MerkleTree
import Verif.Proofs.NumberText
import Verif.Proofs.P256Cofactor
import Verif.Proofs.P256NoTorsion
import Verif.Proofs.P256Primes
import Verif.Proofs.Pratt
import Verif.Proofs.Primitives
import Verif.Proofs.PrivateKeys
import Verif.Proofs.ReaderSteps
import Verif.Proofs.Sorting
import Verif.Proofs.Utf8
import Verif.Proofs.VarInt
import Verif.Props.Address
import Verif.Props.BigInteger
import Verif.Props.Builtins
import Verif.Props.ClassLookup
import Verif.Props.Cli
import Verif.Props.ConvertUInt
import Verif.Props.Crypto
import Verif.Props.Curve
import Verif.Props.CurveOps
import Verif.Props.DeclaredSize
import Verif.Props.Decode
import Verif.Props.DefaultCrypto
import Verif.Props.Ecdsa
import Verif.Props.Encodings
import Verif.Props.FailedCalls
import Verif.Props.Field
import Verif.Props.FieldMore
import Verif.Props.FieldOps
import Verif.Props.FieldSqrt
import Verif.Props.Fixed8
import Verif.Props.Fixed8Agree
import Verif.Props.Fixed8Big
import Verif.Props.Fixed8Decimal
import Verif.Props.Fixed8Division
import Verif.Props.Fixed8Exact
import Verif.Props.Fixed8Large
import Verif.Props.Fixed8More
import Verif.Props.Fixed8Parse
import Verif.Props.Fixed8Text
import Verif.Props.Fixed8TextExact
import Verif.Props.Fixed8Vars
import Verif.Props.FloatLayout
import Verif.Props.FloatTwice
import Verif.Props.Floats
import Verif.Props.FreshCurve
import Verif.Props.Hashing
import Verif.Props.History
import Verif.Props.Ints
import Verif.Props.KeyBijection
import Verif.Props.KeyPair
import Verif.Props.Layout
import Verif.Props.Merkle
import Verif.Props.MerkleBranch
import Verif.Props.MerkleCost
import Verif.Props.MerkleRecursion
import Verif.Props.MerkleSame
import Verif.Props.MerkleShared
import Verif.Props.MulCost
import Verif.Props.NamedAmounts
import Verif.Props.NamedCurves
import Verif.Props.Nep2More
import Verif.Props.Nep2Standard
import Verif.Props.NumberTexts
import Verif.Props.Operators
import Verif.Props.PointOrder
import Verif.Props.PublicKey
import Verif.Props.PublicKeyMore
import Verif.Props.RandomKey
import Verif.Props.ReadErrors
import Verif.Props.ReadString
import Verif.Props.ReaderThreads
import Verif.Props.Records
import Verif.Props.Recursion
import Verif.Props.ReducedPoints
import Verif.Props.RoundTripIff
import Verif.Props.ScalarClasses
import Verif.Props.ScalarMul
import Verif.Props.ScriptHash
import Verif.Props.SharedStream
import Verif.Props.SignForms
import Verif.Props.SignK256
import Verif.Props.SignKeys
import Verif.Props.SignMessages
import Verif.Props.SignMore
import Verif.Props.SignVerify
import Verif.Props.Sizes
import Verif.Props.Sorting
import Verif.Props.SortingExact
import Verif.Props.StreamContext
import Verif.Props.Strings
import Verif.Props.Surrogates
import Verif.Props.Threads
import Verif.Props.Truncation
import Verif.Props.UInt
import Verif.Props.UIntDict
import Verif.Props.UIntTexts
import Verif.Props.ValueEq
import Verif.Props.VarInt
import Verif.Props.VarIntOrder
import Verif.Props.WalletMore
import Verif.Props.WriteByte
import Verif.Props.WriteErrors
import Verif.Props.WriterThreads
import Verif.Py.Codecs
import Verif.Py.Core
import Verif.Py.Float
import Verif.Py.FloatText
import Verif.Py.NumberText
import Verif.Spec.Address
import Verif.Spec.Base58
import Verif.Spec.BytesLiteral
import Verif.Spec.DecimalText
import Verif.Spec.Decode
import Verif.Spec.Ecdsa
import Verif.Spec.EllipticCurve
import Verif.Spec.FieldOps
import Verif.Spec.Float
import Verif.Spec.Halving
import Verif.Spec.Hex
import Verif.Spec.IeeeWord
import Verif.Spec.IntKind
import Verif.Spec.Layout
import Verif.Spec.Lucas
import Verif.Spec.Merkle
import Verif.Spec.MerkleBranch
import Verif.Spec.MerkleFill
import Verif.Spec.MerkleHeap
import Verif.Spec.NamedCurves
import Verif.Spec.Nonce
import Verif.Spec.NumberText
import Verif.Spec.PointEncoding
import Verif.Spec.Recovery
import Verif.Spec.Sorting
import Verif.Spec.Stream
import Verif.Spec.Threads
import Verif.Spec.TwosComplement
import Verif.Spec.Wallet
import Verif.Tests.Floats
import Verif.Tests.IO
import Verif.Tests.Keys
import Verif.Tests.Merkle
import Verif.Tests.Numbers
