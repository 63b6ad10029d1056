import Verif.Propagate.Stop
import Verif.Traj.More
import Verif.Tracking.Downsample
import Verif.Tracking.Tdm
import Verif.Kalman.Snc
import Verif.Event.Theorems
import Verif.Process.Predict
import Verif.Process.Origin
import Verif.Process.Chain
import Verif.Solution.Stats
import Verif.Solution.Nees
import Verif.Solution.Normal
import Verif.Blse.Witness
import Verif.Propagate.Examples
import Verif.Traj.Examples
import Verif.Tracking.Examples
import Verif.Kalman.Examples
import Verif.Rk.Stm
import Verif.Rk.ErrCtrl
import Verif.Spacecraft.Burn
import Verif.Spacecraft.Value
import Verif.MathU.Vectors
import Verif.Poly.Theorems
import Verif.Target.Model
import Verif.Target.Lemmas
import Verif.Target.Theorems
import Verif.Target.Linear
import Verif.Target.DualLinear
import Verif.Target.Burns
import Verif.Target.Dual
import Verif.Target.Witness
import Verif.Target.Examples
import Verif.Target.Local
import Verif.Target.DualLocal
import Verif.Target.LocalExamples
import Verif.Target.Messages
import Verif.Shooting.Model
import Verif.Shooting.Theorems
import Verif.Shooting.Witness
import Verif.Shooting.Altitude
import Verif.Shooting.Nodes
import Verif.Mc.Model
import Verif.Mc.Runs
import Verif.Mc.Svd
import Verif.Mc.Stats
import Verif.Mc.Theorems
import Verif.Mc.Examples
import Verif.Mc.Helpers
import Verif.Noise.Model
import Verif.Noise.Theorems
import Verif.Noise.Stats
import Verif.Noise.Again
import Verif.Device.Model
import Verif.Device.Builder
import Verif.Device.Measure
import Verif.Device.PosLink
import Verif.Device.Python
import Verif.Device.Sens
import Verif.Estimate.Model
import Verif.Estimate.Theorems
import Verif.Estimate.Examples
import Verif.Sched.Model
import Verif.Sched.Strands
import Verif.Sched.Handoff
import Verif.Sched.Schedule
import Verif.Sched.HandoffFalse
import Verif.Sched.Measure
import Verif.Sched.Config
import Verif.Sched.Again
import Verif.Sched.Text
import Verif.Guide.Model
import Verif.Guide.Efficiency
import Verif.Guide.Modes
import Verif.Guide.Burns
import Verif.Guide.Steering
import Verif.Guide.Blend
import Verif.Lambert.Model
import Verif.Lambert.Kepler
import Verif.Lambert.Gooding
import Verif.Lambert.GoodingLoop
import Verif.Lambert.Izzo
import Verif.Lambert.Time
import Verif.Lambert.Series
import Verif.Lambert.IzzoSolve
import Verif.Lambert.IzzoExamples
import Verif.Lambert.Deriv
import Verif.Lambert.Feasible
import Verif.Lambert.Transfer
import Verif.Sequence.Model
import Verif.Sequence.Theorems
import Verif.Sequence.Setup
import Verif.Sequence.Events
import Verif.Sequence.Schema
import Verif.Der.Model
import Verif.Der.Theorems
import Verif.Force.Dual
import Verif.Force.Model
import Verif.Force.Orbit
import Verif.Force.PointMass
import Verif.Force.Srp
import Verif.Force.DragT
import Verif.Force.Craft
import Verif.Gravity.Legendre
import Verif.Gravity.Model
import Verif.Gravity.Checked
import Verif.Gravity.Potential
import Verif.Gravity.Partials
import Verif.Gravity.Theorems
import Verif.Gravity.J2
import Verif.Gravity.Load
import Verif.Gravity.LoadText
import Verif.BPlane.Model
import Verif.BPlane.Reals
import Verif.BPlane.Theorems
import Verif.BPlane.Plane
import Verif.BPlane.Achieve
import Verif.BPlane.Objectives
import Verif.BPlane.Panic
import Verif.Io.FileName
import Verif.Tides.Theorems
import Verif.Ground.Coords
import Verif.Ground.Motion
import Verif.Ground.Sens
import Verif.Ground.Measure
import Verif.Pq.Arc
import Verif.Pq.TrajFile
import Verif.Pq.OdRoundtrip
import Verif.Pq.Pnt
import Verif.Propagate.Options
import Verif.Traj.Convert
import Verif.Pq.RicDiff
import Verif.Process.Short
import Verif.Spacecraft.Equal
import Verif.Kalman.Velocity
import Verif.Kalman.Moments
import Verif.Rk.Tree
import Verif.Rk.Series
import Verif.Rk.Converge
import Verif.Rk.Smooth
import Verif.Rk.Uniform
import Verif.Propagate.Accuracy
import Verif.Rk.StmLimit
import Verif.Propagate.StmLimit
import Verif.Propagate.Flow
import Verif.Propagate.StmExact
import Verif.Traj.HermiteError
import Verif.Traj.Interp
import Verif.Traj.Accuracy
import Verif.Process.ToTraj
import Verif.Solution.Equality
import Verif.Py.Many
import Verif.Py.Push
import Verif.Py.Noise
import Verif.Py.Covar
import Verif.Lambert.Parabolic
import Verif.Lambert.Window
import Verif.Lambert.Elliptic
import Verif.Lambert.Moved
import Verif.Lambert.Fast
import Verif.Lambert.Hyperbolic
import Verif.Target.Stable
import Verif.Device.LinkMeasure
import Verif.Process.Exact
import Verif.Blse.Exact
import Verif.Kalman.Arc
import Verif.Process.Arc
import Verif.Process.Resume
import Verif.Process.Variants
import Verif.Process.Analysis
import Verif.Target.Guess
import Verif.Target.Segment
import Verif.Blse.Simulated
import Verif.Lambert.FastShort
import Verif.Blse.Linear
import Verif.Sched.Added
import Verif.Sched.Stamped
import Verif.Pq.Export
import Verif.Mc.Seed
import Verif.Tracking.Cut
import Verif.Ground.Bias
import Verif.Device.LinkBias
import Verif.Ground.BiasInteg
import Verif.Spacecraft.SetDir
