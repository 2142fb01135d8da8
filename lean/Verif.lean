import Verif.Morton.Props
import Verif.Octree.Props
import Verif.Adapt.Props
import Verif.Partition.Owner
import Verif.Comm.Partial
import Verif.Cells.Face
import Verif.Cells.Sibling
import Verif.Cells.Convert
import Verif.Cells.Position
import Verif.Cells.Traverse
import Verif.Cells.Temp
import Verif.Cells.TempGhosts
import Verif.Fields.Props
import Verif.Fields.Particles
import Verif.Remap.Split
import Verif.Config.Examples
import Verif.Config.Enum
import Verif.Io.Fortran
import Verif.Io.Connect
import Verif.Restart.Mesh
import Verif.TimeLoop.Trigger
import Verif.TimeLoop.Run
import Verif.Hydro.Jump
import Verif.Hydro.Slope
import Verif.Hydro.Boundary
import Verif.Hydro.Euler
import Verif.Gravity.Example
import Verif.TimeLoop.Dt
import Verif.Parabolic.Conduction
import Verif.Parabolic.Heat
import Verif.Refine.Markers
import Verif.Refine.Gradient
import Verif.Particles.Mass
import Verif.Particles.Move
import Verif.Cosmo.Lookup
import Verif.Cosmo.Exact
import Verif.Timers.Timers
import Verif.Flux.Face
import Verif.Hydro.RK2
import Verif.Cooling.FluxFlux
import Verif.Parabolic.Viscosity
import Verif.Parabolic.ViscosityMesh
import Verif.Parabolic.ViscosityJump
import Verif.Particles.Init
import Verif.Octree.Table
import Verif.Restart.Tiled
import Verif.Init.Mesh
import Verif.Mhd.State
import Verif.Mhd.FiveWaves
import Verif.Mhd.Hlld
import Verif.Mhd.HlldFan
import Verif.Mhd.HlldMirror
import Verif.Mhd.Glm
import Verif.Mhd.GlmRun
import Verif.Mhd.Source
import Verif.Hydro.UserFlux
import Verif.Mhd.Wall
import Verif.Hydro.Hancock
import Verif.Init.Stratified
import Verif.Init.Blast
import Verif.Gravity.PointMass
import Verif.Init.Magnetic
import Verif.AdaptOld.Model
import Verif.AdaptOld.Props
import Verif.Run.Model
import Verif.Run.Spec
import Verif.Run.Props
import Verif.Run.Check
import Verif.RunOld.Model
import Verif.RunOld.Spec
import Verif.RunOld.Ghost
import Verif.RunOld.Balance
import Verif.RunOld.Props
import Verif.RunOld.Check
import Verif.Legacy.Model
import Verif.Legacy.Spec
import Verif.Legacy.Cover
import Verif.Legacy.Fetch
import Verif.Legacy.Fill
import Verif.Legacy.Props
import Verif.Legacy.UpdateModel
import Verif.Legacy.Torus
import Verif.Legacy.Uniform
import Verif.Legacy.UpdateProps
import Verif.Legacy.FirstOrder
import Verif.Legacy.Jump
import Verif.Partition.Coherent
import Verif.Run.Coherent
import Verif.Remap.Terminate
import Verif.Sim.Local
import Verif.Sim.Model
import Verif.Sim.Kernels
import Verif.Sim.Steps
import Verif.Sim.Amr
import Verif.Sim.Props
import Verif.Sim.Check
import Verif.Hydro.MassFlux
import Verif.Hydro.Positive
import Verif.Hydro.Negative
import Verif.Sim.Restart
import Verif.Sim.RestartCheck
import Verif.Gravity.Force
import Verif.Gravity.ForceLaw
import Verif.Gravity.ForceCheck
import Verif.Partition.Faces
import Verif.Sim.Layers
import Verif.Sim.LayersCheck
import Verif.Sim.Gravity
import Verif.Sim.GravityProps
import Verif.Sim.GravityCheck
import Verif.Sim.Blocks
import Verif.Sim.BlockSolvers
import Verif.Sim.BlockRanks
import Verif.Sim.BlockProps
import Verif.Sim.BlockCheck
import Verif.Sim.Cloud
import Verif.Sim.CloudRanks
import Verif.Sim.CloudProps
import Verif.Sim.CloudCheck
import Verif.Sim.World
import Verif.Sim.WorldProps
import Verif.Sim.WorldMore
import Verif.Sim.WorldCheck
import Verif.Legacy.Local
import Verif.Legacy.Ranks
import Verif.Legacy.RanksCheck
import Verif.Legacy.Mark
import Verif.Legacy.MarkProofs
import Verif.Legacy.MarkProps
import Verif.Legacy.TimeStep
import Verif.Hydro.WellBalanced
import Verif.Hydro.WellBalancedFails
import Verif.Hydro.WellBalancedMass
import Verif.Init.Grafic
import Verif.Init.GraficFields
import Verif.Init.GraficProps
import Verif.Init.GraficExamples
import Verif.TimeLoop.StepFields
import Verif.TimeLoop.StepSpec
import Verif.TimeLoop.StepLemmas
import Verif.TimeLoop.StepParts
import Verif.TimeLoop.StepHydro
import Verif.TimeLoop.StepProps
import Verif.TimeLoop.StepExamples
import Verif.Cosmo.Friedmann
import Verif.TimeLoop.CosmoRun
import Verif.TimeLoop.CosmoRunExamples
import Verif.Comm.Collectives
import Verif.Front.MeshConfig
import Verif.Front.LightCopy
import Verif.Init.TestProblems
import Verif.Sim.Terms
import Verif.Sim.TermsCheck
import Verif.Sim.Snapshot
import Verif.Sim.SnapshotProps
import Verif.Sim.SnapshotCheck
import Verif.Refine.Cellwise
import Verif.Sim.Conditions
import Verif.Sim.ConditionsProps
import Verif.Sim.SecondDerivative
import Verif.Sim.ConditionsCheck
import Verif.States.Ops
import Verif.States.Access
import Verif.Comm.Accessor
import Verif.Sim.AmrWith
import Verif.Sim.MassParticles
import Verif.Sim.MassCheck
import Verif.Legacy.Runs
import Verif.Legacy.RunsCheck
import Verif.Particles.Share
import Verif.Particles.ShareProps
import Verif.Particles.Reach
import Verif.Sim.MassCloud
import Verif.Cosmo.FriedmannEq
import Verif.Cosmo.Growth
import Verif.Cosmo.GrowthTrap
