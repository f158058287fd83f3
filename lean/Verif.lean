import Verif.Lemmas.AdaptNewton
import Verif.Lemmas.AdaptPhys
import Verif.Lemmas.AdaptProgram
import Verif.Lemmas.AdaptRun
import Verif.Lemmas.AlphaFit
import Verif.Lemmas.Boundary
import Verif.Lemmas.Build
import Verif.Lemmas.Build2
import Verif.Lemmas.Build3
import Verif.Lemmas.BuildDup
import Verif.Lemmas.Cofm
import Verif.Lemmas.Cofm2
import Verif.Lemmas.Density
import Verif.Lemmas.DistBuilt
import Verif.Lemmas.DistBuilt2
import Verif.Lemmas.DistConserve
import Verif.Lemmas.DistDriver
import Verif.Lemmas.DistField
import Verif.Lemmas.DistField2
import Verif.Lemmas.DistPhys
import Verif.Lemmas.DistRun
import Verif.Lemmas.DistSim
import Verif.Lemmas.Driver
import Verif.Lemmas.Eos
import Verif.Lemmas.Fmm
import Verif.Lemmas.Fmm2
import Verif.Lemmas.Fmm3
import Verif.Lemmas.FmmReach
import Verif.Lemmas.Force
import Verif.Lemmas.Forces
import Verif.Lemmas.Geometry
import Verif.Lemmas.GhostCover
import Verif.Lemmas.GhostFmm
import Verif.Lemmas.GhostMain
import Verif.Lemmas.GhostRun
import Verif.Lemmas.GhostSph
import Verif.Lemmas.GhostTable
import Verif.Lemmas.Ghosts
import Verif.Lemmas.Glue
import Verif.Lemmas.Gravitated
import Verif.Lemmas.Gravity
import Verif.Lemmas.Gravity2
import Verif.Lemmas.Gravity3
import Verif.Lemmas.GravityConserve
import Verif.Lemmas.GravitySym
import Verif.Lemmas.Hilbert
import Verif.Lemmas.Hilbert3
import Verif.Lemmas.Icosahedral
import Verif.Lemmas.Io
import Verif.Lemmas.KernelIntegral
import Verif.Lemmas.Kernels
import Verif.Lemmas.Kernels2
import Verif.Lemmas.Kernels3
import Verif.Lemmas.Key
import Verif.Lemmas.KhGen
import Verif.Lemmas.Lattice
import Verif.Lemmas.Log
import Verif.Lemmas.Morton
import Verif.Lemmas.Newton
import Verif.Lemmas.NewtonStep
import Verif.Lemmas.Newtonian
import Verif.Lemmas.Params
import Verif.Lemmas.Pass
import Verif.Lemmas.PathTree
import Verif.Lemmas.Program
import Verif.Lemmas.ProgramFit
import Verif.Lemmas.ProgramRun
import Verif.Lemmas.Psort
import Verif.Lemmas.RoundedAccuracy
import Verif.Lemmas.RoundedCentre
import Verif.Lemmas.RoundedClock
import Verif.Lemmas.RoundedDensity
import Verif.Lemmas.RoundedDensity2
import Verif.Lemmas.RoundedEos
import Verif.Lemmas.RoundedForces
import Verif.Lemmas.RoundedGravity
import Verif.Lemmas.RoundedGravity2
import Verif.Lemmas.RoundedGravity3
import Verif.Lemmas.RoundedGravity4
import Verif.Lemmas.RoundedHeat
import Verif.Lemmas.RoundedReach
import Verif.Lemmas.RoundedSignal
import Verif.Lemmas.RoundedSlope
import Verif.Lemmas.RoundedState
import Verif.Lemmas.RoundedTotals
import Verif.Lemmas.RoundedUpdate
import Verif.Lemmas.RoundedWd
import Verif.Lemmas.Rounding
import Verif.Lemmas.RoundingKey
import Verif.Lemmas.RoundingNear
import Verif.Lemmas.RoundingTree
import Verif.Lemmas.RtGen
import Verif.Lemmas.RunClock
import Verif.Lemmas.ShareFind
import Verif.Lemmas.ShareLoad
import Verif.Lemmas.ShareRun
import Verif.Lemmas.ShareTop
import Verif.Lemmas.ShareUpdate
import Verif.Lemmas.Single
import Verif.Lemmas.Snapshot
import Verif.Lemmas.SodGen
import Verif.Lemmas.Sph
import Verif.Lemmas.Sph2
import Verif.Lemmas.SphRun
import Verif.Lemmas.SphSum
import Verif.Lemmas.StartupCofm
import Verif.Lemmas.StartupRank
import Verif.Lemmas.StartupStart
import Verif.Lemmas.StartupTab
import Verif.Lemmas.StartupVal
import Verif.Lemmas.TiesToEven
import Verif.Lemmas.TimedOutputs
import Verif.Lemmas.Timestep
import Verif.Lemmas.Torus
import Verif.Lemmas.TorusDriver
import Verif.Lemmas.TorusForms
import Verif.Lemmas.TorusRun
import Verif.Lemmas.TorusUnique
import Verif.Lemmas.TorusUpdate
import Verif.Lemmas.TorusWitness
import Verif.Lemmas.Traversal
import Verif.Lemmas.Tree
import Verif.Lemmas.Tree2
import Verif.Lemmas.TreeDriver
import Verif.Lemmas.TyOk
import Verif.Lemmas.Update
import Verif.Lemmas.Viscosity
import Verif.Lemmas.Wvt
import Verif.Lemmas.WvtForces
import Verif.Lemmas.WvtRun
import Verif.Model.AdaptNewton
import Verif.Model.AdaptProgram
import Verif.Model.AdaptRun
import Verif.Model.BinaryTool
import Verif.Model.Boundary
import Verif.Model.BuildTree
import Verif.Model.Cofm
import Verif.Model.Conservation
import Verif.Model.Cullen
import Verif.Model.DensityProfiles
import Verif.Model.DistGravity
import Verif.Model.DistRun
import Verif.Model.Distribute
import Verif.Model.Driver
import Verif.Model.EForce
import Verif.Model.Eos
import Verif.Model.Exchange
import Verif.Model.Fmm
import Verif.Model.Geometry
import Verif.Model.Ghosts
import Verif.Model.HCell
import Verif.Model.HashTable
import Verif.Model.Hilbert
import Verif.Model.Icosahedral
import Verif.Model.IdGen
import Verif.Model.Integration
import Verif.Model.Io
import Verif.Model.Kernels
import Verif.Model.Key
import Verif.Model.KhGen
import Verif.Model.Lattice
import Verif.Model.Log
import Verif.Model.Morton
import Verif.Model.NewtonProgram
import Verif.Model.Newtonian
import Verif.Model.ParamTables
import Verif.Model.Params
import Verif.Model.PeriodicRun
import Verif.Model.PnBinary
import Verif.Model.Program
import Verif.Model.Psort
import Verif.Model.Qsort
import Verif.Model.RandomLattice
import Verif.Model.Reductions
import Verif.Model.Restart
import Verif.Model.RoundedClock
import Verif.Model.RoundedDensity
import Verif.Model.RoundedEos
import Verif.Model.RoundedForces
import Verif.Model.RoundedGravity
import Verif.Model.RoundedTotals
import Verif.Model.RoundedUpdate
import Verif.Model.Rounding
import Verif.Model.RtGen
import Verif.Model.Sequence
import Verif.Model.Share
import Verif.Model.ShareTable
import Verif.Model.SnapshotTools
import Verif.Model.SodGen
import Verif.Model.Sph
import Verif.Model.SphRun
import Verif.Model.Startup
import Verif.Model.Tensor
import Verif.Model.TensorTables
import Verif.Model.Timestep
import Verif.Model.TovStar
import Verif.Model.Traversal
import Verif.Model.TreeDriver
import Verif.Model.UniformSphere
import Verif.Model.Update
import Verif.Model.WdStar
import Verif.Model.Wvt
import Verif.Model.WvtForces
import Verif.Model.WvtRun
import Verif.Props.C01
import Verif.Props.C02
import Verif.Props.C03
import Verif.Props.C04
import Verif.Props.C05
import Verif.Props.C06
import Verif.Props.C08
import Verif.Props.C09
import Verif.Props.C10
import Verif.Props.C100
import Verif.Props.C101
import Verif.Props.C102
import Verif.Props.C103
import Verif.Props.C104
import Verif.Props.C105
import Verif.Props.C106
import Verif.Props.C107
import Verif.Props.C108
import Verif.Props.C109
import Verif.Props.C11
import Verif.Props.C110
import Verif.Props.C111
import Verif.Props.C12
import Verif.Props.C13
import Verif.Props.C13dist
import Verif.Props.C13seq
import Verif.Props.C14
import Verif.Props.C15
import Verif.Props.C16
import Verif.Props.C17
import Verif.Props.C17tables
import Verif.Props.C18
import Verif.Props.C18fmm
import Verif.Props.C19
import Verif.Props.C20
import Verif.Props.C21
import Verif.Props.C22
import Verif.Props.C23
import Verif.Props.C24
import Verif.Props.C25
import Verif.Props.C26
import Verif.Props.C27
import Verif.Props.C28
import Verif.Props.C29
import Verif.Props.C30
import Verif.Props.C31
import Verif.Props.C32
import Verif.Props.C33
import Verif.Props.C34
import Verif.Props.C34b
import Verif.Props.C34fresh
import Verif.Props.C34run
import Verif.Props.C35
import Verif.Props.C35run
import Verif.Props.C36
import Verif.Props.C36run
import Verif.Props.C37
import Verif.Props.C38
import Verif.Props.C39
import Verif.Props.C40
import Verif.Props.C41
import Verif.Props.C42
import Verif.Props.C43
import Verif.Props.C44
import Verif.Props.C45
import Verif.Props.C46
import Verif.Props.C47
import Verif.Props.C47fill
import Verif.Props.C47margin
import Verif.Props.C48
import Verif.Props.C49
import Verif.Props.C50
import Verif.Props.C51
import Verif.Props.C52
import Verif.Props.C53
import Verif.Props.C55
import Verif.Props.C57
import Verif.Props.C58
import Verif.Props.C58run
import Verif.Props.C61
import Verif.Props.C62
import Verif.Props.C63
import Verif.Props.C64
import Verif.Props.C65
import Verif.Props.C66
import Verif.Props.C67
import Verif.Props.C68
import Verif.Props.C69
import Verif.Props.C70
import Verif.Props.C70cons
import Verif.Props.C71
import Verif.Props.C72
import Verif.Props.C73
import Verif.Props.C74
import Verif.Props.C75
import Verif.Props.C76
import Verif.Props.C77
import Verif.Props.C78
import Verif.Props.C79
import Verif.Props.C80
import Verif.Props.C81
import Verif.Props.C82
import Verif.Props.C83
import Verif.Props.C84
import Verif.Props.C85
import Verif.Props.C86
import Verif.Props.C87
import Verif.Props.C88
import Verif.Props.C89
import Verif.Props.C90
import Verif.Props.C91
import Verif.Props.C92
import Verif.Props.C93
import Verif.Props.C94
import Verif.Props.C95
import Verif.Props.C96
import Verif.Props.C97
import Verif.Props.C98
import Verif.Props.C99
import Verif.Props.RunExamples
import Verif.Spec.AdaptNewton
import Verif.Spec.Boundary
import Verif.Spec.Cell
import Verif.Spec.Density
import Verif.Spec.Exchange
import Verif.Spec.Fmm
import Verif.Spec.Force
import Verif.Spec.ForceSizes
import Verif.Spec.GhostRun
import Verif.Spec.Ghosts
import Verif.Spec.GlobalTree
import Verif.Spec.Gravity
import Verif.Spec.GravityAll
import Verif.Spec.Grid
import Verif.Spec.Icosahedral
import Verif.Spec.InitialData
import Verif.Spec.Iteration
import Verif.Spec.Kernels
import Verif.Spec.KhLayers
import Verif.Spec.Lattice
import Verif.Spec.Log
import Verif.Spec.Map
import Verif.Spec.NearLists
import Verif.Spec.Newtonian
import Verif.Spec.Params
import Verif.Spec.Path
import Verif.Spec.Period
import Verif.Spec.Profiles
import Verif.Spec.Reach
import Verif.Spec.RelaxRun
import Verif.Spec.Relaxation
import Verif.Spec.RoundedClock
import Verif.Spec.RoundedIteration
import Verif.Spec.RtLayers
import Verif.Spec.Run
import Verif.Spec.Served
import Verif.Spec.ServedRounded
import Verif.Spec.Shapes
import Verif.Spec.ShareTable
import Verif.Spec.Sizes
import Verif.Spec.Sph
import Verif.Spec.StateErrors
import Verif.Spec.Summary
import Verif.Spec.Textbook
import Verif.Spec.Torus
import Verif.Spec.Totals
import Verif.Spec.Tree
import Verif.Spec.TreeDriver
import Verif.Spec.TubeCells
