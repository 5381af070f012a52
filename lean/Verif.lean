import Verif.Props.Word
import Verif.Props.Barrett
import Verif.Props.Shoup
import Verif.Props.PowOf2
import Verif.Props.BabyBear
import Verif.Props.Goldilocks
import Verif.Props.Gcd
import Verif.Props.Prime
import Verif.Lemmas.StrongLiars
import Verif.SpecPrime
import Verif.Props.PrimeError
import Verif.Props.RootSearch
import Verif.Props.Reverse
import Verif.Props.Field
import Verif.Props.Sample
import Verif.Props.Basis
import Verif.Props.Root
import Verif.Props.NTT
import Verif.Props.Poly
import Verif.Props.Cache
import Verif.Props.Determinism
import Verif.Props.Unchecked
import Verif.Props.Counter
import Verif.Props.Gaussian
import Verif.Props.Plaintext
import Verif.Props.LWE
import Verif.Props.Params
import Verif.Props.Block
import Verif.Props.Aes
import Verif.Props.Prg
import Verif.Props.RLWE
import Verif.Props.RGSW
import Verif.Props.BlindRotation
import Verif.Props.KeySwitchLWE
import Verif.Props.KeySwitchRLWE
import Verif.Props.ModSwitch
import Verif.Props.Luts
import Verif.Props.Bootstrap
import Verif.Props.Gates
import Verif.Props.KeyGen
import Verif.Props.Circuit
import Verif.Props.EndToEnd
import Verif.Props.Elementwise
import Verif.SpecRandom
import Verif.SpecFailure
import Verif.Lemmas.Random
import Verif.Lemmas.Noise
import Verif.Props.Noise
import Verif.Props.NoiseLaw
import Verif.Props.NoiseSwitch
import Verif.Props.Failure
import Verif.Props.NoiseDefaults
import Verif.Model.Session
import Verif.SpecSession
import Verif.Props.Session
import Verif.Model.EvalForm
import Verif.Props.EvalForm
import Verif.Model.Native
import Verif.Props.Native
import Verif.SpecSampler
import Verif.Props.SampleLaw
import Verif.Model.FieldEq
import Verif.Props.FieldEq
import Verif.SpecMask
import Verif.Lemmas.Uniform
import Verif.Props.Rounding
import Verif.Props.UniformMask
import Verif.Props.Secrecy
import Verif.Props.SecrecyKeys
import Verif.Props.SecrecySwitch
import Verif.SpecGaussianLaw
import Verif.Lemmas.Rejection
import Verif.Lemmas.Normal
import Verif.Props.GaussianLaw
import Verif.Props.GaussianDefaults
import Verif.Props.SecrecyDefaults
import Verif.Props.FailureRounding
import Verif.SpecTotal
import Verif.Props.Total
import Verif.SpecKeys
import Verif.Props.KeysExist
import Verif.SpecPrgSecurity
import Verif.Lemmas.Switching
import Verif.Props.PrgSecurity
import Verif.SpecUnit
import Verif.Lemmas.Norm
import Verif.Props.MaskSpread
import Verif.Props.AccMask
import Verif.Props.AccStep
import Verif.Props.AccLoop
import Verif.Props.TableUnit
import Verif.Props.AccRotation
import Verif.Props.AccEval
import Verif.Props.AccSwitch
import Verif.Props.AccOut
import Verif.Props.AccGates
import Verif.Props.AccDefaults
import Verif.Model.Transform
import Verif.SpecTransform
import Verif.Lemmas.Evaluates
import Verif.Props.Concrete
import Verif.Model.Assign
import Verif.Props.Assign
import Verif.Model.X86
import Verif.Props.X86
import Verif.Model.Derive
import Verif.Props.Derive
import Verif.Model.Scratch
import Verif.SpecScratch
import Verif.Props.Scratch
import Verif.Model.Threads
import Verif.SpecThreads
import Verif.Lemmas.Threads
import Verif.Props.Threads
import Verif.Props.ThreadsLock
import Verif.SpecJoint
import Verif.Props.JointNoise
import Verif.Props.JointDefaults
import Verif.Model.Release
import Verif.Props.Release
import Verif.Props.Exact
import Verif.SpecPrograms
import Verif.SpecLeveled
import Verif.Lemmas.Weight
import Verif.Props.Programs
import Verif.Props.Leveled
import Verif.Model.SignedExp
import Verif.Props.SignedExp
import Verif.Model.Work
import Verif.SpecWork
import Verif.Lemmas.Work
import Verif.Props.Work
import Verif.SpecLaws
import Verif.Props.Laws
import Verif.SpecProgrammable
import Verif.Props.Programmable
import Verif.Props.ProgrammableFailure
import Verif.SpecWrongKey
import Verif.Props.WrongKey
import Verif.SpecOracle
import Verif.Props.Oracle
import Verif.SpecDimension
import Verif.Props.Dimension
import Verif.SpecWrongEvaluator
import Verif.Props.WrongEvaluator
import Verif.SpecSums
import Verif.Props.Sums
import Verif.SpecMasks
import Verif.Props.Masks
import Verif.SpecTamper
import Verif.Props.Tamper
import Verif.Model.ReleaseLWE
import Verif.SpecReleaseLWE
import Verif.Props.ReleaseLWE
import Verif.SpecRenewed
import Verif.Props.Renewed
import Verif.Model.ReleasePoly
import Verif.Props.ReleasePoly
import Verif.SpecManyKeys
import Verif.Props.ManyKeys
import Verif.SpecGadgetLen
import Verif.Model.GadgetNew
import Verif.Props.GadgetLen
import Verif.SpecFunctions
import Verif.Props.Functions
import Verif.SpecTuned
import Verif.Props.Tuned
import Verif.Props.TunedDefaults
import Verif.SpecLayers
import Verif.Props.Layers
import Verif.SpecNumbers
import Verif.Props.Numbers
import Verif.SpecMachines
import Verif.Props.Machines
import Verif.Props.ThreadsPoison
import Verif.Props.ThreadsOneSize
import Verif.Props.ThreadsApps
import Verif.Props.ThreadsAll
