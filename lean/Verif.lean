import Verif.Graph.Model
import Verif.Graph.Spec
import Verif.Graph.Lemmas
import Verif.Graph.Query
import Verif.Graph.Props
import Verif.Symmetry.Model
import Verif.Symmetry.Props
import Verif.Builder.Assoc
import Verif.Builder.Model
import Verif.Builder.Lemmas
import Verif.Builder.Ops
import Verif.Builder.DelSite
import Verif.Builder.Read
import Verif.Builder.Update
import Verif.Builder.FillModel
import Verif.Builder.Fill
import Verif.Builder.FillDone
import Verif.Builder.Reach
import Verif.Builder.Props
import Verif.Builder.FillProps
import Verif.Builder.AttachModel
import Verif.Builder.AttachProps
import Verif.Builder.Keys
import Verif.Builder.Subst
import Verif.Final.Model
import Verif.Final.Lemmas
import Verif.Final.Spec
import Verif.Final.Finite
import Verif.Final.FiniteProps
import Verif.Final.Infinite
import Verif.Final.InfRep
import Verif.Final.InfProps
import Verif.System.SiteRanges
import Verif.System.SubModel
import Verif.System.SubLemmas
import Verif.System.SubRep
import Verif.System.SubProps
import Verif.System.SubBuilder
import Verif.System.Leads
import Verif.Oper.Model
import Verif.Oper.Blocks
import Verif.Oper.Spec
import Verif.Oper.Props
import Verif.Oper.Theorems
import Verif.Oper.Laws
import Verif.Oper.Counter
import Verif.Solver.BlockModel
import Verif.Solver.BlockProps
import Verif.Solver.LinModel
import Verif.Solver.LinProps
import Verif.Solver.Kept
import Verif.Solver.Green
import Verif.Solver.Wave
import Verif.Misc.Digest
import Verif.Misc.Common
import Verif.Physics.DiscSym
import Verif.Physics.DiscProj
import Verif.Physics.Rmt
import Verif.Physics.Circular
import Verif.Linalg.LLL
import Verif.Linalg.LLLTerm
import Verif.Linalg.Cvp
import Verif.Linalg.Voronoi
import Verif.Physics.Perturb
import Verif.Physics.Bands
import Verif.Wrap.Model
import Verif.Wrap.Props
import Verif.Wrap.Loop
import Verif.Wrap.Bloch
import Verif.Wrap.Example
import Verif.Gauge.Dijkstra
import Verif.Gauge.Loops
import Verif.Gauge.Phases
import Verif.Gauge.Infinite
import Verif.Gauge.Example
import Verif.Lattice.Flood
import Verif.Lattice.Lattice
import Verif.Lattice.Deltas
import Verif.Lattice.Shape
import Verif.Lattice.Counter
import Verif.Lattice.Library
import Verif.Lattice.Wire
import Verif.Lattice.Family
import Verif.Lattice.Neighbors
import Verif.Lattice.NeighborsTerm
import Verif.Leads.Linsys
import Verif.Leads.Bloch
import Verif.Leads.Clusters
import Verif.Leads.ProperSpec
import Verif.Leads.Velocity
import Verif.Leads.Proper
import Verif.Leads.SelfEnergy
import Verif.Leads.BlochEx
import Verif.Leads.SelfEnergyEx
import Verif.Leads.ProperMain
import Verif.Leads.ModeNumEx
import Verif.Leads.ProperEx
import Verif.Solver.Unitary
import Verif.Solver.UnitaryEx
import Verif.Leads.Block
import Verif.Leads.BlockProps
import Verif.Leads.BlockMain
import Verif.Leads.BlockError
import Verif.Leads.EigNumEx
import Verif.Leads.BlockEx
import Verif.Leads.Modes
import Verif.Leads.ModesSpec
import Verif.Leads.ModesProps
import Verif.Leads.ModesJoin
import Verif.Leads.ModesMain
import Verif.Leads.ModesThm
import Verif.Leads.ModesEx
import Verif.Leads.LeadSelf
import Verif.Leads.LeadSelfEx
import Verif.Leads.FullWave
import Verif.Scatt.Spec
import Verif.Scatt.Phys
import Verif.Scatt.Main
import Verif.Scatt.Regular
import Verif.Scatt.Ex
import Verif.Scatt.Coupling
import Verif.Scatt.FisherLee
import Verif.Scatt.FisherLeeEx
import Verif.Scatt.Ldos
import Verif.Kpm.Model
import Verif.Kpm.Moments
import Verif.Kpm.History
import Verif.Kpm.Main
import Verif.Kpm.Density
import Verif.Kpm.DensThm
import Verif.Kpm.Integral
import Verif.Kpm.Positive
import Verif.Oper.Checks
import Verif.Kpm.Corr
import Verif.Kpm.CorrThm
import Verif.Kpm.CorrInt
import Verif.Kpm.CorrEx
import Verif.Kpm.Vectors
import Verif.Kpm.Velocity
import Verif.Continuum.Model
import Verif.Continuum.Spec
import Verif.Continuum.Dict
import Verif.Continuum.Words
import Verif.Continuum.Kernel
import Verif.Continuum.Thm
import Verif.Continuum.Sym
import Verif.Continuum.Herm
import Verif.Continuum.Build
import Verif.Continuum.Limit
import Verif.Continuum.Errors
import Verif.Continuum.Ex
import Verif.Continuum.Landau
import Verif.Continuum.LandauSpec
import Verif.Continuum.LandauLadder
import Verif.Continuum.LandauRaises
import Verif.Continuum.LandauDict
import Verif.Continuum.LandauThm
import Verif.Continuum.LandauMain
import Verif.Continuum.LandauEx
import Verif.Fib.Model
import Verif.Fib.Rep
import Verif.Fib.Forest
import Verif.Fib.Heap
import Verif.Fib.Ops
import Verif.Fib.Spec
import Verif.Fib.Props
import Verif.Fib.Dijkstra
import Verif.Physics.Noise
import Verif.Plot.Model
import Verif.Plot.Spec
import Verif.Plot.Kernel
import Verif.Plot.Main
import Verif.Plot.Thm
import Verif.Plot.Density
import Verif.Plot.Divergence
import Verif.Plot.Norm
import Verif.Plot.Flux
import Verif.Plot.Width
import Verif.Gauge.CompositeModel
import Verif.Gauge.Composite
import Verif.Gauge.CompositeTree
import Verif.Gauge.CompositeLeads
import Verif.Gauge.CompositePhases
import Verif.Gauge.CompositeCheck
import Verif.Gauge.CompositeExample
import Verif.Qsymm.Model
import Verif.Qsymm.ToModel
import Verif.Qsymm.ToBuilder
import Verif.Qsymm.RoundTrip
import Verif.Qsymm.Examples
import Verif.Leads.Phs
import Verif.Leads.PhsCut
import Verif.Leads.PhsNum
import Verif.Leads.SymGood
import Verif.Leads.TimeRev
import Verif.Leads.DiagLead
import Verif.Leads.TimeRevEx
import Verif.Leads.Steps
import Verif.Leads.Chiral
import Verif.Leads.ChiralEx
import Verif.Leads.VelGroups
import Verif.Leads.Trim
import Verif.Leads.PartHole
import Verif.Leads.Halves
import Verif.Leads.PartHoleMain
import Verif.Leads.PartHoleOrder
import Verif.Leads.PartHoleEx
import Verif.Linalg.SchurModel
import Verif.Linalg.SchurBlock
import Verif.Linalg.SchurTrack
import Verif.Linalg.SchurConv
import Verif.Linalg.SchurOrder
import Verif.Linalg.GenSchurModel
import Verif.Linalg.GenSchurConv
import Verif.Linalg.GenSchurOrder
import Verif.Linalg.GenSchurEx
import Verif.Linalg.SchurEvecs
import Verif.Linalg.SchurEvecsMain
import Verif.Linalg.SchurEvecsEx
import Verif.Leads.SquareSelf
import Verif.Plot.Draw
import Verif.Plot.DrawLemmas
import Verif.Plot.DrawMain
import Verif.Plot.DrawProps
import Verif.Plot.DrawFin
import Verif.Solver.Mumps
import Verif.Solver.MumpsProps
import Verif.Solver.MumpsSolver
import Verif.Plot.Spectrum
import Verif.Plot.BandsPlot
import Verif.Plot.MapModel
import Verif.Plot.MapProps
import Verif.Plot.Percentile
import Verif.Lattice.NamesModel
import Verif.Lattice.Names
import Verif.Lattice.NamesMain
import Verif.Lattice.NamesPoly
import Verif.Continuum.Lambdify
import Verif.Linalg.Fortran
import Verif.Linalg.FortranProps
import Verif.Linalg.FortranMain
import Verif.Gauge.Peierls
import Verif.Gauge.PeierlsProps
import Verif.Gauge.PeierlsMain
import Verif.Gauge.PeierlsTop
import Verif.Gauge.PeierlsLead
import Verif.Gauge.PeierlsParams
import Verif.Gauge.PeierlsDisc
import Verif.Physics.CircularDIII
import Verif.Physics.ConsLaw
import Verif.Physics.ConsLawMain
import Verif.Physics.ConsLawEx
import Verif.Lattice.ClosestSite
import Verif.Wrap.Bands2D
import Verif.Wrap.Bands2DZone
import Verif.Wrap.Bands2DMain
import Verif.Wrap.Bands2DEx
import Verif.Scatt.SymSpec
import Verif.Scatt.ModeMap
import Verif.Scatt.SymWave
import Verif.Scatt.SymTrans
import Verif.Scatt.Onsager
import Verif.Scatt.SymBasis
import Verif.Leads.SymBlock
import Verif.Leads.ModesSym
import Verif.Scatt.SymComputed
import Verif.Leads.SymBlockError
import Verif.Leads.SymLeadEx
import Verif.Scatt.SymEx
import Verif.Scatt.Conserve
import Verif.Scatt.AddCell
import Verif.Scatt.AddCellTrans
import Verif.Scatt.Reorder
import Verif.Continuum.Value
import Verif.Continuum.ValueThm
import Verif.Continuum.ValueMain
import Verif.Continuum.ValueEx
import Verif.Continuum.ValueCounter
import Verif.Scatt.ConserveBlocks
import Verif.Misc.Call
import Verif.Solver.Schur
import Verif.Scatt.Gauge
import Verif.Plot.SiteSpec
import Verif.Plot.SiteSpecThm
import Verif.Plot.SiteSpecMain
import Verif.Plot.LeadSpec
import Verif.Plot.RefLen
import Verif.Solver.SciPy
import Verif.Solver.SciPyUnitary
import Verif.Plot.Stream
import Verif.Plot.Output
import Verif.Gauge.Sparse
import Verif.Plot.Scalar
