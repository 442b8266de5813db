import Verif.Model.Compiler
import Verif.Model.Definitions
import Verif.Model.Entry
import Verif.Model.Example
import Verif.Model.Hamiltonian
import Verif.Model.Num
import Verif.Model.PaperBins
import Verif.Model.PaperCount
import Verif.Model.PaperFidelity
import Verif.Model.PaperFig3
import Verif.Model.PaperFig4
import Verif.Model.PaperFig4Circuits
import Verif.Model.PaperFiles
import Verif.Model.PaperFits
import Verif.Model.PaperGenerate
import Verif.Model.PaperGroups
import Verif.Model.PaperNoise
import Verif.Model.PaperPlots
import Verif.Model.PaperPrecision
import Verif.Model.PaperPrimitives
import Verif.Model.PaperScatter
import Verif.Model.PaperSimulate
import Verif.Model.Parameterized
import Verif.Model.Py
import Verif.Model.Rng
import Verif.Model.Sequence
import Verif.Model.Tests
import Verif.Model.TestsCompile
import Verif.Model.Text
import Verif.Model.Unitary
import Verif.Model.Verification
import Verif.Proofs.Apart
import Verif.Proofs.ApartAlgos
import Verif.Proofs.Binary64
import Verif.Proofs.Bits
import Verif.Proofs.Change
import Verif.Proofs.Compile
import Verif.Proofs.CompileLoop
import Verif.Proofs.Draws
import Verif.Proofs.DrawsMore
import Verif.Proofs.Drift
import Verif.Proofs.DriftCompile
import Verif.Proofs.DriftDraw
import Verif.Proofs.DriftEntry
import Verif.Proofs.DriftHamiltonian
import Verif.Proofs.DriftHeap
import Verif.Proofs.DriftHistory
import Verif.Proofs.DriftInverse
import Verif.Proofs.DriftNorm
import Verif.Proofs.DriftOps
import Verif.Proofs.DriftRav
import Verif.Proofs.DriftSeq
import Verif.Proofs.DriftStoq
import Verif.Proofs.DriftTensor
import Verif.Proofs.Embed
import Verif.Proofs.Evolution
import Verif.Proofs.Example
import Verif.Proofs.Frame
import Verif.Proofs.Gates
import Verif.Proofs.Generate
import Verif.Proofs.Gms
import Verif.Proofs.Hamiltonian
import Verif.Proofs.HamiltonianPost
import Verif.Proofs.HamiltonianRav
import Verif.Proofs.Heap
import Verif.Proofs.History
import Verif.Proofs.Hits
import Verif.Proofs.HitsGates
import Verif.Proofs.HitsLayers
import Verif.Proofs.HitsPossible
import Verif.Proofs.HitsThen
import Verif.Proofs.HitsWalk
import Verif.Proofs.Jaqal
import Verif.Proofs.JaqalNorm
import Verif.Proofs.Law
import Verif.Proofs.LawGates
import Verif.Proofs.LawMetropolis
import Verif.Proofs.LawReach
import Verif.Proofs.Layers
import Verif.Proofs.Looks
import Verif.Proofs.Machine
import Verif.Proofs.Make
import Verif.Proofs.Measurable
import Verif.Proofs.MeasurableGates
import Verif.Proofs.MeasurableWalk
import Verif.Proofs.Norm
import Verif.Proofs.Num
import Verif.Proofs.Objects
import Verif.Proofs.ObjectsNames
import Verif.Proofs.ObjectsSaved
import Verif.Proofs.ObjectsStep
import Verif.Proofs.ObjectsVal
import Verif.Proofs.Overlap
import Verif.Proofs.PaperBins
import Verif.Proofs.PaperCount
import Verif.Proofs.PaperFidelity
import Verif.Proofs.PaperFig4
import Verif.Proofs.PaperFiles
import Verif.Proofs.PaperFits
import Verif.Proofs.PaperGates
import Verif.Proofs.PaperGenerate
import Verif.Proofs.PaperNoise
import Verif.Proofs.PaperScatter
import Verif.Proofs.PaperTries
import Verif.Proofs.Parameterized
import Verif.Proofs.Permute
import Verif.Proofs.PhaseFlip
import Verif.Proofs.Probability
import Verif.Proofs.Proposal
import Verif.Proofs.Py
import Verif.Proofs.Qdrift
import Verif.Proofs.QdriftMean
import Verif.Proofs.Quaternion
import Verif.Proofs.Random
import Verif.Proofs.Rav
import Verif.Proofs.RavFails
import Verif.Proofs.Reach
import Verif.Proofs.Recurrence
import Verif.Proofs.Renewal
import Verif.Proofs.RepoCompile
import Verif.Proofs.RepoCompileTests
import Verif.Proofs.RepoEvents
import Verif.Proofs.RepoHamiltonianSearch
import Verif.Proofs.RepoHamiltonianTests
import Verif.Proofs.RepoParam
import Verif.Proofs.RepoRavTests
import Verif.Proofs.RepoSearch
import Verif.Proofs.RepoSequence
import Verif.Proofs.RepoSequenceTests
import Verif.Proofs.RepoTests
import Verif.Proofs.RepoTrotterTest
import Verif.Proofs.RepoTwoQubits
import Verif.Proofs.RepoTwoQubitsApart
import Verif.Proofs.RepoTwoQubitsDrift
import Verif.Proofs.RepoTwoQubitsPass
import Verif.Proofs.RepoTwoQubitsSteps
import Verif.Proofs.RepoUnitary
import Verif.Proofs.ReturnProb
import Verif.Proofs.Rng
import Verif.Proofs.Sectors
import Verif.Proofs.Sequence
import Verif.Proofs.SequenceCombine
import Verif.Proofs.SequenceInverse
import Verif.Proofs.SequenceRead
import Verif.Proofs.Session
import Verif.Proofs.Several
import Verif.Proofs.Shape
import Verif.Proofs.Steps
import Verif.Proofs.Strings
import Verif.Proofs.Task
import Verif.Proofs.TermSubsets
import Verif.Proofs.Text
import Verif.Proofs.Trotter
import Verif.Proofs.TrotterMean
import Verif.Proofs.TrotterSecond
import Verif.Proofs.Undo
import Verif.Proofs.Unitary
import Verif.Proofs.Universal
import Verif.Proofs.Verification
import Verif.Proofs.Walk
import Verif.Props.Arguments
import Verif.Props.Compile
import Verif.Props.CompileExamples
import Verif.Props.CompileRules
import Verif.Props.CompileStoq
import Verif.Props.Continuous
import Verif.Props.ContinuousRav
import Verif.Props.ContinuousStoq
import Verif.Props.Defaults
import Verif.Props.Draws
import Verif.Props.Drift
import Verif.Props.DriftCompile
import Verif.Props.DriftHamiltonian
import Verif.Props.DriftLibrary
import Verif.Props.DriftRav
import Verif.Props.DriftStoq
import Verif.Props.Entry
import Verif.Props.Example
import Verif.Props.Gates
import Verif.Props.Gms
import Verif.Props.HamiltonianRav
import Verif.Props.HamiltonianSequences
import Verif.Props.HamiltonianTerm
import Verif.Props.Jaqal
import Verif.Props.Law
import Verif.Props.Layers
import Verif.Props.Machine
import Verif.Props.Measurable
import Verif.Props.Objects
import Verif.Props.PaperBins
import Verif.Props.PaperCount
import Verif.Props.PaperFidelity
import Verif.Props.PaperFig3
import Verif.Props.PaperFig4
import Verif.Props.PaperFig4Circuits
import Verif.Props.PaperFiles
import Verif.Props.PaperFits
import Verif.Props.PaperGenerate
import Verif.Props.PaperGroups
import Verif.Props.PaperNoise
import Verif.Props.PaperPerfect
import Verif.Props.PaperPlots
import Verif.Props.PaperPrecision
import Verif.Props.PaperScatter
import Verif.Props.PaperSimulate
import Verif.Props.PaperUniversal
import Verif.Props.Parameters
import Verif.Props.PhaseFlip
import Verif.Props.Qdrift
import Verif.Props.QdriftDistance
import Verif.Props.RavLength
import Verif.Props.RavSucceeds
import Verif.Props.Reach
import Verif.Props.RepoEvents
import Verif.Props.RepoHamiltonianTests
import Verif.Props.RepoSearchRav
import Verif.Props.RepoSearchTests
import Verif.Props.RepoSequenceTests
import Verif.Props.RepoTests
import Verif.Props.RepoTrotterTest
import Verif.Props.RepoTwoQubitsTest
import Verif.Props.ReturnProb
import Verif.Props.Reuse
import Verif.Props.RulesExamples
import Verif.Props.Sequence
import Verif.Props.SequenceExamples
import Verif.Props.SequenceMore
import Verif.Props.Several
import Verif.Props.Steps
import Verif.Props.Succeeds
import Verif.Props.Task
import Verif.Props.TermSubsets
import Verif.Props.Text
import Verif.Props.TextSession
import Verif.Props.TimeEvolution
import Verif.Props.TrotterLimit
import Verif.Props.TrotterRandom
import Verif.Props.Unitary
import Verif.Props.Universal
import Verif.Props.Verification
import Verif.Spec.Accuracy
import Verif.Spec.Basic
import Verif.Spec.Buckets
import Verif.Spec.Compile
import Verif.Spec.Continuous
import Verif.Spec.Draws
import Verif.Spec.Drift
import Verif.Spec.DriftCompile
import Verif.Spec.DriftHamiltonian
import Verif.Spec.Embed
import Verif.Spec.Example
import Verif.Spec.Gates
import Verif.Spec.Hamiltonian
import Verif.Spec.HamiltonianRav
import Verif.Spec.History
import Verif.Spec.Jaqal
import Verif.Spec.Law
import Verif.Spec.LawVerification
import Verif.Spec.Machine
import Verif.Spec.Objects
import Verif.Spec.PaperCount
import Verif.Spec.PaperFidelity
import Verif.Spec.PaperFiles
import Verif.Spec.PaperNoise
import Verif.Spec.PhaseFlip
import Verif.Spec.Probability
import Verif.Spec.Sequence
import Verif.Spec.Session
import Verif.Spec.Several
import Verif.Spec.Steps
import Verif.Spec.Task
import Verif.Spec.Text
import Verif.Spec.Universal
import Verif.Spec.Verification
