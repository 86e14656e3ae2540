import Verif.Core.Lemmas
import Verif.Core.Loops
import Verif.Core.NDArray
import Verif.Core.PyM
import Verif.Core.Scalar
import Verif.Spec.Adiabatic
import Verif.Spec.Angular
import Verif.Spec.BasisChange
import Verif.Spec.Box
import Verif.Spec.Cast
import Verif.Spec.Confinement
import Verif.Spec.Consistent
import Verif.Spec.Continuity
import Verif.Spec.Coulomb
import Verif.Spec.CoulombIntegral
import Verif.Spec.CoulombScale
import Verif.Spec.Demo
import Verif.Spec.DemoSystem
import Verif.Spec.EighChoice
import Verif.Spec.Evolution
import Verif.Spec.History
import Verif.Spec.Independence
import Verif.Spec.Ladder
import Verif.Spec.Levels
import Verif.Spec.ManyBody
import Verif.Spec.Multiplets
import Verif.Spec.Nested
import Verif.Spec.Nodes
import Verif.Spec.OccDensity
import Verif.Spec.OneDim
import Verif.Spec.Persistence
import Verif.Spec.Polar
import Verif.Spec.Positive
import Verif.Spec.PotentialOrder
import Verif.Spec.Potentials
import Verif.Spec.Pulses
import Verif.Spec.PyscfOrigin
import Verif.Spec.Rhf
import Verif.Spec.Rotation
import Verif.Spec.Samples
import Verif.Spec.Sectors
import Verif.Spec.Sharing
import Verif.Spec.SincDvr
import Verif.Spec.SincFlow
import Verif.Spec.SincMirror
import Verif.Spec.Spin
import Verif.Spec.SpinConserved
import Verif.Spec.SpinEvolution
import Verif.Spec.Stability
import Verif.Spec.Stark
import Verif.Spec.StaticField
import Verif.Spec.SumRule
import Verif.Spec.Symmetry
import Verif.Spec.System
import Verif.Spec.TimeEvolution
import Verif.Spec.TimeReversal
import Verif.Spec.Units
import Verif.Spec.WellFormed
import Verif.Model.Attributes
import Verif.Model.BasisSet
import Verif.Model.Cache
import Verif.Model.Coulomb
import Verif.Model.Indices
import Verif.Model.MachineIndices
import Verif.Model.Magnetic
import Verif.Model.Memory
import Verif.Model.OneDim
import Verif.Model.Overflow
import Verif.Model.ParallelCoulomb
import Verif.Model.Potentials
import Verif.Model.Pyscf
import Verif.Model.PyscfOrigin
import Verif.Model.RandomBasis
import Verif.Model.Rounding
import Verif.Model.RoundingCoulomb
import Verif.Model.RoundingEnergies
import Verif.Model.RoundingLine
import Verif.Model.RoundingSinc
import Verif.Model.Sampler
import Verif.Model.SincDvr
import Verif.Model.SmoothSetup
import Verif.Model.SmoothWell
import Verif.Model.System
import Verif.Model.SystemMemory
import Verif.Model.TwoDim
import Verif.Lemmas.Adiabatic
import Verif.Lemmas.AdiabaticStates
import Verif.Lemmas.Angular
import Verif.Lemmas.Cache
import Verif.Lemmas.ChangeBasis
import Verif.Lemmas.Compose
import Verif.Lemmas.Concave
import Verif.Lemmas.Continuity
import Verif.Lemmas.Copies
import Verif.Lemmas.Coulomb
import Verif.Lemmas.CoulombBounds
import Verif.Lemmas.CoulombIntegral
import Verif.Lemmas.Density
import Verif.Lemmas.Dual
import Verif.Lemmas.Eigh
import Verif.Lemmas.EighChoice
import Verif.Lemmas.Energy
import Verif.Lemmas.Evolution
import Verif.Lemmas.EvolutionNear
import Verif.Lemmas.FiniteDifference
import Verif.Lemmas.General
import Verif.Lemmas.GridExpansion
import Verif.Lemmas.GridFunctions
import Verif.Lemmas.GridLimit
import Verif.Lemmas.GridNorm
import Verif.Lemmas.GridSpectrum
import Verif.Lemmas.GridStates
import Verif.Lemmas.Hermite
import Verif.Lemmas.History
import Verif.Lemmas.Indices
import Verif.Lemmas.Ladder
import Verif.Lemmas.Laguerre
import Verif.Lemmas.Laser
import Verif.Lemmas.Magnetic
import Verif.Lemmas.ManyBody
import Verif.Lemmas.ManyBodyChange
import Verif.Lemmas.ManyBodyPositive
import Verif.Lemmas.ManyBodySpectrum
import Verif.Lemmas.ManyBodySpin
import Verif.Lemmas.Memory
import Verif.Lemmas.MemoryBasis
import Verif.Lemmas.MemoryChange
import Verif.Lemmas.MemoryCopy
import Verif.Lemmas.MemoryMethods
import Verif.Lemmas.MemorySetters
import Verif.Lemmas.Multiplets
import Verif.Lemmas.Nested
import Verif.Lemmas.Nodes
import Verif.Lemmas.OccDensity
import Verif.Lemmas.OneDim
import Verif.Lemmas.OneDimSetup
import Verif.Lemmas.Oscillation
import Verif.Lemmas.OscillatorElements
import Verif.Lemmas.OscillatorFunctions
import Verif.Lemmas.OscillatorLevels
import Verif.Lemmas.Overflow
import Verif.Lemmas.Ownership
import Verif.Lemmas.Pauli
import Verif.Lemmas.Persistence
import Verif.Lemmas.Plancherel
import Verif.Lemmas.Polar
import Verif.Lemmas.Positive
import Verif.Lemmas.PositiveCoulomb
import Verif.Lemmas.PotentialOrder
import Verif.Lemmas.Pyscf
import Verif.Lemmas.RandomBasis
import Verif.Lemmas.RefSpin
import Verif.Lemmas.Reports
import Verif.Lemmas.Riemann
import Verif.Lemmas.Rotation
import Verif.Lemmas.RoundingCoulomb
import Verif.Lemmas.RoundingEnergies
import Verif.Lemmas.RoundingLine
import Verif.Lemmas.RoundingSinc
import Verif.Lemmas.Sections
import Verif.Lemmas.Sectors
import Verif.Lemmas.Setup
import Verif.Lemmas.SharedBasis
import Verif.Lemmas.SharedCopies
import Verif.Lemmas.Sinc
import Verif.Lemmas.SincDvr
import Verif.Lemmas.SincKinetic
import Verif.Lemmas.SincMomentum
import Verif.Lemmas.SincTwoBody
import Verif.Lemmas.SmoothWell
import Verif.Lemmas.SpinOps
import Verif.Lemmas.Stability
import Verif.Lemmas.StaticField
import Verif.Lemmas.SumRule
import Verif.Lemmas.Symmetry
import Verif.Lemmas.System
import Verif.Lemmas.SystemMemory
import Verif.Lemmas.Tdho
import Verif.Lemmas.TimeEvolution
import Verif.Lemmas.TimeReversal
import Verif.Lemmas.Transform
import Verif.Lemmas.Trapezoid
import Verif.Lemmas.Tridiagonal
import Verif.Lemmas.TwoDim
import Verif.Lemmas.Units
import Verif.Lemmas.WellBound
import Verif.Lemmas.Weyl
import Verif.Lemmas.World
import Verif.Props.Accuracy
import Verif.Props.Adiabatic
import Verif.Props.Angular
import Verif.Props.Attributes
import Verif.Props.BasisChange
import Verif.Props.Cache
import Verif.Props.Cast
import Verif.Props.Confinement
import Verif.Props.Consistent
import Verif.Props.Continuity
import Verif.Props.Coulomb
import Verif.Props.CoulombIntegral
import Verif.Props.Density
import Verif.Props.DensityIntegral
import Verif.Props.Determinant
import Verif.Props.DipoleRules
import Verif.Props.EighChoice
import Verif.Props.Energy
import Verif.Props.EnergyBound
import Verif.Props.Evolution
import Verif.Props.FieldReversal
import Verif.Props.FockAlias
import Verif.Props.FockLoop
import Verif.Props.FockSymmetry
import Verif.Props.Gradient
import Verif.Props.GridEnergies
import Verif.Props.GridFunctions
import Verif.Props.GridRate
import Verif.Props.GridSpectrum
import Verif.Props.Indices
import Verif.Props.Keywords
import Verif.Props.LevelBounds
import Verif.Props.Levels
import Verif.Props.MachineIndices
import Verif.Props.Magnetic
import Verif.Props.ManyBodyChange
import Verif.Props.ManyBodySpin
import Verif.Props.ManyElectrons
import Verif.Props.Memory
import Verif.Props.Multiplets
import Verif.Props.Nested
import Verif.Props.Nodes
import Verif.Props.OneDim
import Verif.Props.OneDimSpectrum
import Verif.Props.OscillatorElements
import Verif.Props.OscillatorLimit
import Verif.Props.Overflow
import Verif.Props.ParallelCoulomb
import Verif.Props.PerElectron
import Verif.Props.Persistence
import Verif.Props.Positive
import Verif.Props.PotentialOrder
import Verif.Props.Potentials
import Verif.Props.Pulses
import Verif.Props.Pyscf
import Verif.Props.PyscfOrigin
import Verif.Props.RandomBasis
import Verif.Props.Rhf
import Verif.Props.Rotation
import Verif.Props.Rounding
import Verif.Props.RoundingCoulomb
import Verif.Props.RoundingEnergies
import Verif.Props.RoundingLine
import Verif.Props.RoundingSinc
import Verif.Props.Sampler
import Verif.Props.Sectors
import Verif.Props.Setup
import Verif.Props.SharedBasis
import Verif.Props.SharedCopies
import Verif.Props.SincDvr
import Verif.Props.SincFlow
import Verif.Props.SincIntegral
import Verif.Props.SincMirror
import Verif.Props.SlaterCondon
import Verif.Props.SlowPulses
import Verif.Props.SmoothSetup
import Verif.Props.SmoothWell
import Verif.Props.SpinConservation
import Verif.Props.SpinDoubling
import Verif.Props.SpinEvolution
import Verif.Props.Stability
import Verif.Props.Stark
import Verif.Props.State
import Verif.Props.StaticField
import Verif.Props.SumRule
import Verif.Props.SystemMemory
import Verif.Props.Systems
import Verif.Props.TimeEvolution
import Verif.Props.TimeReversal
import Verif.Props.TwoDim
import Verif.Props.Units
import Verif.Props.WellBound
