import Verif.Keys.Props
import Verif.Queue.Props
import Verif.Graph.Props
import Verif.Dag.Props
import Verif.Sre.Props
import Verif.Num.Props
import Verif.KeyMat.Entries
import Verif.KeyMat.Arith
import Verif.Tarjan.Props
import Verif.Cplx.Props
import Verif.Beam.Props
import Verif.Beam.Overlap
import Verif.Beam.Extra
import Verif.Layout.Props
import Verif.Layout.Positions
import Verif.Layout.Reverse
import Verif.Layout.Composites
import Verif.Ports.Props
import Verif.Inject.Props
import Verif.Inject.SparsityProps
import Verif.Inject.IterateProps
import Verif.Inject.BondProps
import Verif.Circuit.Props
import Verif.Circuit.FourPort
import Verif.Circuit.NetExample
import Verif.Circuit.CompletionExample
import Verif.Signal.StateSpaceProps
import Verif.Signal.FilterComplex
import Verif.Signal.Examples
import Verif.Signal.SisoProps
import Verif.Keys.Order
import Verif.Optics.Reality
import Verif.Optics.Photodiode
import Verif.Optics.Modulator
import Verif.Optics.Mirror
import Verif.Optics.MirrorMotion
import Verif.Optics.Passive
import Verif.Optics.Selective
import Verif.Optics.Examples
import Verif.Noise.Model
import Verif.Noise.Basic
import Verif.Noise.Props
import Verif.Noise.Solver
import Verif.Noise.Examples
import Verif.Noise.Tellegen
import Verif.Noise.Nyquist
import Verif.Noise.JohnsonModel
import Verif.Noise.Johnson
import Verif.Noise.JohnsonReal
import Verif.Noise.JohnsonExample
import Verif.Readout.Model
import Verif.Readout.Props
import Verif.Readout.Examples
import Verif.Readout.HomodyneModel
import Verif.Readout.Homodyne
import Verif.Readout.Ellipse
import Verif.Readout.Optimal
import Verif.Readout.HomodyneExamples
import Verif.Shot.Matrix
import Verif.Shot.Basic
import Verif.Shot.Diode
import Verif.Shot.Elements
import Verif.Shot.Mirrors
import Verif.Shot.Network
import Verif.Shot.Bench
import Verif.Shot.Examples
import Verif.Shot.Table
import Verif.Inject.Response
import Verif.Inject.Derivative
import Verif.Shot.Half
import Verif.Circuit.Base
import Verif.Mech.Model
import Verif.Mech.Elements
import Verif.Mech.Props
import Verif.Mech.String
import Verif.Mech.ThermalModel
import Verif.Mech.Thermal
import Verif.Mech.ThermalProps
import Verif.Mech.ThermalExample
import Verif.Fill.Tame
import Verif.Fill.Model
import Verif.Fill.Blocks
import Verif.Fill.Keeps
import Verif.Fill.Even
import Verif.Fill.Targets
import Verif.Fill.Needs
import Verif.Fill.Exact
import Verif.Fill.Props
import Verif.Fill.Demo
import Verif.Ode.Aom
import Verif.Ode.AomCases
import Verif.Ode.AomProps
import Verif.Ode.Basic
import Verif.Ode.Couple
import Verif.Ode.Crystal
import Verif.Ode.CrystalCases
import Verif.Ode.CrystalProps
import Verif.Ode.Deriv
import Verif.Ode.Euler
import Verif.Ode.Exist
import Verif.Ode.Limit
import Verif.Ode.Model
import Verif.Ode.Power
import Verif.Ode.Props
import Verif.Ode.Result
import Verif.Ode.Run
import Verif.Ode.Sweep
import Verif.Sci.Basic
import Verif.Sci.Core
import Verif.Sci.Examples
import Verif.Sci.Finish
import Verif.Sci.Model
import Verif.Sci.Props
import Verif.Sci.Run
import Verif.Sci.Total
import Verif.Solve.Basic
import Verif.Solve.Examples
import Verif.Solve.Linear
import Verif.Solve.Model
import Verif.Solve.Props
import Verif.Floating.Analysis
import Verif.Floating.Assembly
import Verif.Floating.Basic
import Verif.Floating.Cases
import Verif.Floating.Lift
import Verif.Floating.Model
import Verif.Floating.Ode
import Verif.Floating.Props
import Verif.Sre.Gram
import Verif.Sre.GramBasic
import Verif.Sre.GramProps
import Verif.Optics.Squeezer
import Verif.Optics.SqueezerParams
import Verif.Optics.SqueezerProps
import Verif.Layout.ToZ
import Verif.Layout.ToZSpec
import Verif.Layout.ToZProps
import Verif.Layout.Measure
import Verif.Layout.MeasureProps
import Verif.Layout.MeasureNames
import Verif.Layout.MeasureGouy
import Verif.Layout.MeasureCases
import Verif.Signal.Optimum
import Verif.Signal.OptimumPoly
import Verif.Signal.OptimumLists
import Verif.Signal.OptimumProps
import Verif.Signal.OptimumFilter
import Verif.Signal.OptimumSlope
import Verif.Util.Sections
import Verif.Util.SectionsProps
import Verif.Util.Phase
import Verif.Util.First
import Verif.Layout.ToZOutside
import Verif.Layout.MeasureEnds
import Verif.Units.Model
import Verif.Units.Props
import Verif.Units.Fit
import Verif.Units.Keys
import Verif.Mech.Pzt
import Verif.Optics.Isolator
import Verif.Optics.IsolatorDemo
import Verif.Signal.Mimo
import Verif.Optics.AomBasic
import Verif.Optics.Homodyne
import Verif.Optics.HomodyneProps
import Verif.Beam.Fit
import Verif.Optics.Circulation
import Verif.Signal.PowerLoops
import Verif.Circuit.Transformer
import Verif.Circuit.Vendor
import Verif.Fill.Aom
import Verif.Fill.AomFull
import Verif.Fill.Homodyne
import Verif.Layout.Waist
import Verif.Util.Dispatch
import Verif.Circuit.PhotoAmp
import Verif.Mech.Driven
import Verif.Layout.Projected
import Verif.Fill.Squeezer
import Verif.Fill.Crystal
import Verif.Fit.Transfer
import Verif.Fit.Jitter
import Verif.Fit.Symbols
import Verif.Util.Angle
