import Verif.Lemmas.Ampere
import Verif.Lemmas.Arctan2
import Verif.Lemmas.Arrays
import Verif.Lemmas.BallIntegral
import Verif.Lemmas.Bessel
import Verif.Lemmas.BesselIK
import Verif.Lemmas.BesselIe
import Verif.Lemmas.BesselJ
import Verif.Lemmas.BesselLaplace
import Verif.Lemmas.BesselMoments
import Verif.Lemmas.BesselODE
import Verif.Lemmas.BesselProduct
import Verif.Lemmas.BesselRange
import Verif.Lemmas.BoxIntegral
import Verif.Lemmas.Coil
import Verif.Lemmas.ComplexSqrt
import Verif.Lemmas.CppLoops
import Verif.Lemmas.Diffusive
import Verif.Lemmas.Distance
import Verif.Lemmas.Elastic
import Verif.Lemmas.ElasticStress
import Verif.Lemmas.ElasticTurn
import Verif.Lemmas.Elliptic
import Verif.Lemmas.Energy
import Verif.Lemmas.Fading
import Verif.Lemmas.FarFault
import Verif.Lemmas.FarField
import Verif.Lemmas.FdemHalfspace
import Verif.Lemmas.FdemLayered
import Verif.Lemmas.Gauss
import Verif.Lemmas.Grad
import Verif.Lemmas.HalfspaceLimits
import Verif.Lemmas.HankelClosed
import Verif.Lemmas.HankelComplex
import Verif.Lemmas.HankelJ1
import Verif.Lemmas.HankelKernel
import Verif.Lemmas.HankelLimit
import Verif.Lemmas.Identify
import Verif.Lemmas.Laplace
import Verif.Lemmas.LaplaceMoments
import Verif.Lemmas.LateTimes
import Verif.Lemmas.Layout
import Verif.Lemmas.LineAmpere
import Verif.Lemmas.LineSegment
import Verif.Lemmas.Lipschitz
import Verif.Lemmas.LoopCalc
import Verif.Lemmas.LoopFields
import Verif.Lemmas.LoopFrame
import Verif.Lemmas.LoopIntegrals
import Verif.Lemmas.LoopMaxwell
import Verif.Lemmas.LowInduction
import Verif.Lemmas.Mirror
import Verif.Lemmas.MirrorPrism
import Verif.Lemmas.Motion
import Verif.Lemmas.MotionPrism
import Verif.Lemmas.NearAxis
import Verif.Lemmas.Nearest
import Verif.Lemmas.Neumann
import Verif.Lemmas.NewtonBall
import Verif.Lemmas.OkadaCorner
import Verif.Lemmas.OkadaField
import Verif.Lemmas.OkadaJump
import Verif.Lemmas.OkadaRun
import Verif.Lemmas.OkadaTrace
import Verif.Lemmas.PlaneIntegrals
import Verif.Lemmas.PlaneTotal
import Verif.Lemmas.Plate
import Verif.Lemmas.PointArrays
import Verif.Lemmas.Polygon
import Verif.Lemmas.PrismAntideriv
import Verif.Lemmas.PrismCalc
import Verif.Lemmas.PrismEval
import Verif.Lemmas.PrismEverywhere
import Verif.Lemmas.PrismNewton
import Verif.Lemmas.PrismTensor
import Verif.Lemmas.PrismThird
import Verif.Lemmas.Radial
import Verif.Lemmas.RadialIntegral
import Verif.Lemmas.RadialStepOff
import Verif.Lemmas.Range
import Verif.Lemmas.RangeSources
import Verif.Lemmas.Reaction
import Verif.Lemmas.Reflection
import Verif.Lemmas.ReflectionGrad
import Verif.Lemmas.Reversals
import Verif.Lemmas.Rotation
import Verif.Lemmas.RoundedPieces
import Verif.Lemmas.RoundedSums
import Verif.Lemmas.Rounding
import Verif.Lemmas.Sensitivity
import Verif.Lemmas.SharedArrays
import Verif.Lemmas.ShortestTurn
import Verif.Lemmas.SmallSource
import Verif.Lemmas.SphereRegion
import Verif.Lemmas.Spherical
import Verif.Lemmas.StaticArrays
import Verif.Lemmas.StepOff
import Verif.Lemmas.Torque
import Verif.Lemmas.Transient
import Verif.Lemmas.TripleIntegral
import Verif.Lemmas.Voxels
import Verif.Lemmas.Weber
import Verif.Lemmas.WeberHalf
import Verif.Lemmas.WireForce
import Verif.Lemmas.WireIntegrals
import Verif.Model.Aliasing
import Verif.Model.CircularLoop
import Verif.Model.CppLoops
import Verif.Model.DipoleGeometry
import Verif.Model.Displacement
import Verif.Model.Earthquake
import Verif.Model.Fdem
import Verif.Model.FdemHalfspace
import Verif.Model.FieldArrays
import Verif.Model.Gravity
import Verif.Model.HalfspaceArrays
import Verif.Model.HalfspaceState
import Verif.Model.HarmonicFloats
import Verif.Model.LayeredState
import Verif.Model.Masks
import Verif.Model.Okada
import Verif.Model.Plot2D
import Verif.Model.PlotGrid
import Verif.Model.PointAliasing
import Verif.Model.Prism
import Verif.Model.PrismKernels
import Verif.Model.ReferenceFloats
import Verif.Model.Reflection
import Verif.Model.ReflectionCpp
import Verif.Model.Rounded
import Verif.Model.RoundedPrism
import Verif.Model.RoundedScales
import Verif.Model.RoundedSpatial
import Verif.Model.Setters
import Verif.Model.SharedArrays
import Verif.Model.SourceState
import Verif.Model.Spatial
import Verif.Model.SpatialArrays
import Verif.Model.SpecialValues
import Verif.Model.StartValues
import Verif.Model.StaticArrays
import Verif.Model.StaticHalfspace
import Verif.Model.StaticSphere
import Verif.Model.StaticWholeSpace
import Verif.Model.Stations
import Verif.Model.SurfaceSource
import Verif.Model.Tdem
import Verif.Model.TdemReference
import Verif.Model.TdemSimple
import Verif.Model.Utils
import Verif.Model.WireFinite
import Verif.Props.Aliasing
import Verif.Props.Ampere
import Verif.Props.BitExact
import Verif.Props.BodyArrays
import Verif.Props.CircularLoop
import Verif.Props.Coil
import Verif.Props.CoilWires
import Verif.Props.ConvArrays
import Verif.Props.Coordinates
import Verif.Props.Demagnetisation
import Verif.Props.DepthRules
import Verif.Props.DipoleGeometry
import Verif.Props.DipoleShape
import Verif.Props.Displacement
import Verif.Props.EMSetters
import Verif.Props.EarthquakeAttributes
import Verif.Props.EarthquakeConversions
import Verif.Props.EarthquakeDefaults
import Verif.Props.EarthquakeGeometry
import Verif.Props.Elastic
import Verif.Props.ElectrodeArrays
import Verif.Props.Enclosing
import Verif.Props.EnergyBalance
import Verif.Props.Euler
import Verif.Props.Fading
import Verif.Props.FarFault
import Verif.Props.FarField
import Verif.Props.FdemDipoles
import Verif.Props.FdemHalfspace
import Verif.Props.FdemHalfspaceBessel
import Verif.Props.FdemLayered
import Verif.Props.FdemPlaneWave
import Verif.Props.FieldArrays
import Verif.Props.FloatRefusals
import Verif.Props.Gauss
import Verif.Props.GravityPointMass
import Verif.Props.GravitySphere
import Verif.Props.HalfspaceArrays
import Verif.Props.HalfspaceHankel
import Verif.Props.HalfspaceState
import Verif.Props.HarmonicFloats
import Verif.Props.Identify
import Verif.Props.Impedance
import Verif.Props.LargerBodies
import Verif.Props.LateTimes
import Verif.Props.LayerLimits
import Verif.Props.LayeredState
import Verif.Props.LayeredWaves
import Verif.Props.LineAmpere
import Verif.Props.LineCurrent
import Verif.Props.LoopAxis
import Verif.Props.LoopMaxwell
import Verif.Props.LowInduction
import Verif.Props.Masks
import Verif.Props.Mirror
import Verif.Props.MirrorFault
import Verif.Props.MirrorHalf
import Verif.Props.MirrorPrism
import Verif.Props.Motion
import Verif.Props.MotionHalf
import Verif.Props.MotionPrism
import Verif.Props.NearAxis
import Verif.Props.NearWire
import Verif.Props.NewtonBall
import Verif.Props.Okada
import Verif.Props.OkadaAdditive
import Verif.Props.OkadaJump
import Verif.Props.Overflow
import Verif.Props.PlaneTotal
import Verif.Props.Plate
import Verif.Props.Plot2D
import Verif.Props.PlotGrid
import Verif.Props.PointAliasing
import Verif.Props.PoissonRelation
import Verif.Props.PolygonLoop
import Verif.Props.PrismEverywhere
import Verif.Props.PrismFields
import Verif.Props.PrismNewton
import Verif.Props.PrismOffSurface
import Verif.Props.PrismParity
import Verif.Props.PrismPoisson
import Verif.Props.PrismSubdivision
import Verif.Props.PrismTensor
import Verif.Props.PrismTotals
import Verif.Props.Reaction
import Verif.Props.Reciprocity
import Verif.Props.ReciprocityWires
import Verif.Props.ReferenceOverflow
import Verif.Props.Reflection
import Verif.Props.ReflectionCpp
import Verif.Props.ReflectionGradient
import Verif.Props.ReflectionWave
import Verif.Props.Refusals
import Verif.Props.Reversals
import Verif.Props.Rotation
import Verif.Props.Rounding
import Verif.Props.RoundingBall
import Verif.Props.RoundingDipole
import Verif.Props.RoundingLimits
import Verif.Props.RoundingPrism
import Verif.Props.RoundingPrismDiagonal
import Verif.Props.RoundingRange
import Verif.Props.RoundingScales
import Verif.Props.RoundingSpatial
import Verif.Props.SelfEnergy
import Verif.Props.Sensitivity
import Verif.Props.ShapeSetters
import Verif.Props.SharedArrays
import Verif.Props.Shells
import Verif.Props.ShortestTurn
import Verif.Props.SkinEffect
import Verif.Props.SmallSource
import Verif.Props.SourceState
import Verif.Props.SpecialValues
import Verif.Props.SphereContrast
import Verif.Props.SphereInduced
import Verif.Props.StartValues
import Verif.Props.StaticArrays
import Verif.Props.StaticDipole
import Verif.Props.StaticHalfspace
import Verif.Props.StaticLimit
import Verif.Props.StaticSphere
import Verif.Props.Stations
import Verif.Props.Superposition
import Verif.Props.SuperpositionStatic
import Verif.Props.SurfaceSource
import Verif.Props.TdemReference
import Verif.Props.TdemSimple
import Verif.Props.TdemWholeSpace
import Verif.Props.ThreePoints
import Verif.Props.TimeFrequency
import Verif.Props.TimeFrequencyRadial
import Verif.Props.TimeFrequencyWaves
import Verif.Props.Torque
import Verif.Props.TransientDecay
import Verif.Props.UnitsCoordinates
import Verif.Props.UnitsDipoles
import Verif.Props.UnitsGravity
import Verif.Props.UnitsLayers
import Verif.Props.UnitsOkada
import Verif.Props.UnitsStatic
import Verif.Props.UnitsStaticBodies
import Verif.Props.UnitsTransient
import Verif.Props.Utils
import Verif.Props.VectorSetters
import Verif.Props.Voxels
import Verif.Props.WaveSetters
import Verif.Props.Wavenumber
import Verif.Props.WireFinite
import Verif.Props.WireForce
import Verif.Props.Work
import Verif.Props.Wrappers
import Verif.Py.Broadcast
import Verif.Py.ComplexOps
import Verif.Py.Err
import Verif.Py.Flag
import Verif.Py.Float
import Verif.Py.FloatOps
import Verif.Py.NArr
import Verif.Spec.AlongWire
import Verif.Spec.Bessel
import Verif.Spec.BesselIK
import Verif.Spec.BesselJ
import Verif.Spec.BiotSavart
import Verif.Spec.Calculus
import Verif.Spec.CircularWire
import Verif.Spec.Coil
import Verif.Spec.Crossing
import Verif.Spec.DoubleRange
import Verif.Spec.Elastic
import Verif.Spec.Electrodes
import Verif.Spec.Elliptic
import Verif.Spec.Energy
import Verif.Spec.Erf
import Verif.Spec.Fault
import Verif.Spec.Frames
import Verif.Spec.Interpolation
import Verif.Spec.LayeredWave
import Verif.Spec.Mirror
import Verif.Spec.Motion
import Verif.Spec.Nearest
import Verif.Spec.Outflow
import Verif.Spec.PlaneTotal
import Verif.Spec.Profile
import Verif.Spec.Range
import Verif.Spec.Rounding
import Verif.Spec.RoundingTrig
import Verif.Spec.Rows
import Verif.Spec.SharedArrays
import Verif.Spec.SmallSource
import Verif.Spec.StaticLimit
import Verif.Spec.StepOff
import Verif.Spec.Units
import Verif.Spec.Vec
import Verif.Spec.WireForce
import Verif.Spec.Work
