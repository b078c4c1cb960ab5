import Verif.Conformance.Arithmetic
import Verif.Conformance.Fields
import Verif.Conformance.Polynomials
import Verif.Conformance.Protocols
import Verif.Conformance.Tutorials
import Verif.Model.AdditiveFFT
import Verif.Model.Air
import Verif.Model.Ali
import Verif.Model.Apr
import Verif.Model.BbsModulus
import Verif.Model.BinaryField
import Verif.Model.Blockchain
import Verif.Model.BlockchainJson
import Verif.Model.BlockchainNet
import Verif.Model.BlockchainResolve
import Verif.Model.BlockchainThreads
import Verif.Model.BlockchainWorld
import Verif.Model.ChainHash
import Verif.Model.ColoringSession
import Verif.Model.Commitment
import Verif.Model.Compression
import Verif.Model.ElementBytes
import Verif.Model.ElementEuclid
import Verif.Model.ElementText
import Verif.Model.Euclidean
import Verif.Model.FFT
import Verif.Model.FieldConstructor
import Verif.Model.FiniteField
import Verif.Model.FloatingPoint
import Verif.Model.ForeignOperands
import Verif.Model.Fri
import Verif.Model.FriChallenge
import Verif.Model.FriQueries
import Verif.Model.Gauss
import Verif.Model.LogisticRegression
import Verif.Model.Merkle
import Verif.Model.MerkleInt
import Verif.Model.MixedElements
import Verif.Model.Modp
import Verif.Model.Multivariate
import Verif.Model.MvOrder
import Verif.Model.MvString
import Verif.Model.MvUtils
import Verif.Model.Numbertype
import Verif.Model.OpCount
import Verif.Model.PolyUtils
import Verif.Model.Polynomial
import Verif.Model.Primality
import Verif.Model.Rationals
import Verif.Model.ReedSolomon
import Verif.Model.SmoothFri
import Verif.Model.Stark
import Verif.Model.Typecheck
import Verif.Model.Utils
import Verif.Model.ZeroKnowledge
import Verif.Proofs.AdditiveFFT
import Verif.Proofs.Air
import Verif.Proofs.Apr
import Verif.Proofs.AprFacts
import Verif.Proofs.BinaryField
import Verif.Proofs.Birthday
import Verif.Proofs.Blockchain
import Verif.Proofs.BlockchainThreads
import Verif.Proofs.Boundary
import Verif.Proofs.Bytes
import Verif.Proofs.ChainHash
import Verif.Proofs.ChainJson
import Verif.Proofs.ChainJsonEnc
import Verif.Proofs.Coloring
import Verif.Proofs.ColoringSession
import Verif.Proofs.ColoringZK
import Verif.Proofs.Combination
import Verif.Proofs.Commitment
import Verif.Proofs.CommitmentReuse
import Verif.Proofs.Compression
import Verif.Proofs.Decompress
import Verif.Proofs.Euclid
import Verif.Proofs.FFT
import Verif.Proofs.Factoring
import Verif.Proofs.FiniteField
import Verif.Proofs.FloatingPoint
import Verif.Proofs.ForgeOrder
import Verif.Proofs.Fri
import Verif.Proofs.Gauss
import Verif.Proofs.GaussFinal
import Verif.Proofs.GeneratedProofs
import Verif.Proofs.JsonText
import Verif.Proofs.Ledger
import Verif.Proofs.Linearized
import Verif.Proofs.Memoize
import Verif.Proofs.Merkle
import Verif.Proofs.MillerRabin
import Verif.Proofs.Mimc
import Verif.Proofs.Mining
import Verif.Proofs.Modp
import Verif.Proofs.Modulus
import Verif.Proofs.Multivariate
import Verif.Proofs.MvIndex
import Verif.Proofs.MvOrder
import Verif.Proofs.MvString
import Verif.Proofs.MvUtils
import Verif.Proofs.OpCount
import Verif.Proofs.Overlap
import Verif.Proofs.Peers
import Verif.Proofs.PolyUtils
import Verif.Proofs.Polynomial
import Verif.Proofs.Pow
import Verif.Proofs.Primality
import Verif.Proofs.PrimeSearch
import Verif.Proofs.Primitive
import Verif.Proofs.ProofSize
import Verif.Proofs.ProverCount
import Verif.Proofs.Provers
import Verif.Proofs.QueryCount
import Verif.Proofs.RandomChain
import Verif.Proofs.Rationals
import Verif.Proofs.ReedSolomon
import Verif.Proofs.Refusal
import Verif.Proofs.RefusalShape
import Verif.Proofs.Rewriting
import Verif.Proofs.Rounds
import Verif.Proofs.Sampling
import Verif.Proofs.SmallPrimes
import Verif.Proofs.SmoothFri
import Verif.Proofs.SmoothFriFold
import Verif.Proofs.SmoothFriSound
import Verif.Proofs.SpotChecks
import Verif.Proofs.StandardFields
import Verif.Proofs.Stark
import Verif.Proofs.StarkProtocol
import Verif.Proofs.Typecheck
import Verif.Proofs.Utils
import Verif.Proofs.Words
import Verif.Proofs.ZKTranscripts
import Verif.Proofs.ZeroKnowledge
import Verif.Props.AdditiveFFT
import Verif.Props.Air
import Verif.Props.Ali
import Verif.Props.Altered
import Verif.Props.AlteredFri
import Verif.Props.Apr
import Verif.Props.AprFloats
import Verif.Props.BbsModulus
import Verif.Props.BinaryField
import Verif.Props.Blockchain
import Verif.Props.BlockchainNet
import Verif.Props.Boundary
import Verif.Props.ChainHash
import Verif.Props.ChainJson
import Verif.Props.Coloring
import Verif.Props.ColoringSession
import Verif.Props.ColoringZK
import Verif.Props.Combination
import Verif.Props.Commitment
import Verif.Props.CommitmentReuse
import Verif.Props.Compose
import Verif.Props.Compression
import Verif.Props.Decompress
import Verif.Props.Division
import Verif.Props.ElementBytes
import Verif.Props.ElementEuclid
import Verif.Props.ElementText
import Verif.Props.Encoding
import Verif.Props.Euclid
import Verif.Props.FFT
import Verif.Props.Factoring
import Verif.Props.FieldConstructor
import Verif.Props.FiniteField
import Verif.Props.FloatingPoint
import Verif.Props.ForeignOperands
import Verif.Props.Fri
import Verif.Props.FriChallenge
import Verif.Props.FriQueries
import Verif.Props.Gauss
import Verif.Props.GaussChecks
import Verif.Props.GaussLeft
import Verif.Props.GeneratedProofs
import Verif.Props.InterpLaws
import Verif.Props.Ledger
import Verif.Props.Linearized
import Verif.Props.LogisticRegression
import Verif.Props.Memoize
import Verif.Props.Merkle
import Verif.Props.MerkleInt
import Verif.Props.MixedElements
import Verif.Props.Modp
import Verif.Props.Modulus
import Verif.Props.Multivariate
import Verif.Props.MvOrder
import Verif.Props.MvOwnText
import Verif.Props.MvRepeated
import Verif.Props.MvString
import Verif.Props.OpCount
import Verif.Props.Overlap
import Verif.Props.Parity
import Verif.Props.Peers
import Verif.Props.Pieces
import Verif.Props.PolyUtils
import Verif.Props.Polynomial
import Verif.Props.Pow
import Verif.Props.Primality
import Verif.Props.PrimeSearch
import Verif.Props.Program
import Verif.Props.ProgramDegree
import Verif.Props.ProofSize
import Verif.Props.ProverCount
import Verif.Props.Provers
import Verif.Props.Proximity
import Verif.Props.ProximityOrder
import Verif.Props.QueryCount
import Verif.Props.Rationals
import Verif.Props.ReedSolomon
import Verif.Props.Refusal
import Verif.Props.Rewriting
import Verif.Props.Roots
import Verif.Props.Rounds
import Verif.Props.Sampling
import Verif.Props.SecretIsomorphism
import Verif.Props.SmoothFri
import Verif.Props.SpaceSums
import Verif.Props.SpotChecks
import Verif.Props.StandardFields
import Verif.Props.Stark
import Verif.Props.StarkDegree
import Verif.Props.StarkProtocol
import Verif.Props.Statement
import Verif.Props.Tilde
import Verif.Props.Typecheck
import Verif.Props.Utils
import Verif.Props.Values
import Verif.Props.VanishingSet
import Verif.Props.Words
import Verif.Props.ZKTranscripts
import Verif.Props.ZeroKnowledge
import Verif.Py
import Verif.Spec.Air
import Verif.Spec.AlteredFri
import Verif.Spec.Apr
import Verif.Spec.Bits
import Verif.Spec.Boundary
import Verif.Spec.Chain
import Verif.Spec.ChainJson
import Verif.Spec.ChainThreads
import Verif.Spec.Coloring
import Verif.Spec.ColoringSession
import Verif.Spec.CommitmentReuse
import Verif.Spec.Compression
import Verif.Spec.Decompress
import Verif.Spec.Factoring
import Verif.Spec.FiniteField
import Verif.Spec.Float
import Verif.Spec.FloatingPoint
import Verif.Spec.Gauss
import Verif.Spec.GeneratedProofs
import Verif.Spec.Graph
import Verif.Spec.Interp
import Verif.Spec.JsonText
import Verif.Spec.Ledger
import Verif.Spec.Merkle
import Verif.Spec.MixedElements
import Verif.Spec.Multivariate
import Verif.Spec.MvOrder
import Verif.Spec.MvString
import Verif.Spec.Overlap
import Verif.Spec.Peers
import Verif.Spec.Polynomial
import Verif.Spec.PrimeSearch
import Verif.Spec.Program
import Verif.Spec.ProofSize
import Verif.Spec.Provers
import Verif.Spec.Proximity
import Verif.Spec.QueryCount
import Verif.Spec.RandomHash
import Verif.Spec.Rationals
import Verif.Spec.Refusal
import Verif.Spec.Rewriting
import Verif.Spec.SecretIsomorphism
import Verif.Spec.SpotChecks
import Verif.Spec.StandardFields
import Verif.Spec.Stark
import Verif.Spec.Typecheck
import Verif.Spec.Words
