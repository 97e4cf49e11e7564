import Lean.Util.CollectAxioms
import Lean.Elab.Command
import Verif.Props.Grid
import Verif.Props.GridReal
import Verif.Props.Region
import Verif.Props.Mean
import Verif.Props.Derivative
import Verif.Props.Quad
import Verif.Props.Zonalize
import Verif.Props.Falwa
import Verif.Props.Spectral
import Verif.Props.State
import Verif.Props.Run
import Verif.Props.RunPhysics
import Verif.Props.Init
import Verif.Props.StateList
import Verif.Props.Rhs
import Verif.Props.Orography
import Verif.Props.Fourier
import Verif.Props.Filter
import Verif.Props.Hann
import Verif.Props.StationaryWavenumber
import Verif.Props.Waveguide
import Verif.Props.IoCoords
import Verif.Props.FromDataset
import Verif.Props.AsDataset
import Verif.Props.RoundTrip
import Verif.Props.PlotLon
import Verif.Props.Plot
import Verif.Props.Hovmoeller
import Verif.Props.Formatting
import Verif.Props.World
import Verif.Props.Protocol
import Verif.Props.Repr
import Verif.Props.Units
import Verif.Props.Interp1d
import Verif.Props.Dominant
import Verif.Props.Wavelet
import Verif.Props.Rotation
import Verif.Props.Mirror
import Verif.Props.TimeShift
import Verif.Props.Shortcuts
import Verif.Props.Rescale
import Verif.Props.Equation
import Verif.Props.Binary64
import Verif.Props.Harmonics
import Verif.Props.Waves
import Verif.Props.Conservation
import Verif.Props.Accuracy
import Verif.Props.QuadError
import Verif.Props.StationaryAccuracy
import Verif.Props.TimeConvergence
import Verif.Props.ZonalizeError
import Verif.Props.FalwaError
import Verif.Props.FalwaPlateau
import Verif.Props.Transport
import Verif.Props.Galerkin
import Verif.Props.GlobalSolutions
import Verif.Props.SpectralConvergence
import Verif.Props.Binary32
import Verif.Props.Binary32Run
import Verif.Props.Figures
import Verif.Props.Hn2016
import Verif.Props.SmoothUnique
import Verif.Props.WindConvergence
import Verif.Props.Memory
import Verif.Props.ForcedConvergence
import Verif.Props.SpectralAccuracy
import Verif.Props.RunDiagnostics
import Verif.Props.Sequence
import Verif.Props.Binary64Run
import Verif.Props.Binary64Zonalize
import Verif.Props.Binary64Falwa
import Verif.Props.Binary64Mean
import Verif.Props.Binary64Derivative
import Verif.Props.Binary64Trapz
import Verif.Props.Binary64State
import Verif.Props.Missing
import Verif.Props.MissingPresent
import Verif.Props.Binary64Geometry
import Verif.Props.TotalError
import Verif.Props.MissingDiag
import Verif.Props.RepoTests
import Verif.Props.MissingRun
import Verif.Props.ForcedAccuracy
import Verif.Props.TimeOrder
import Verif.Props.DampedWaves
import Verif.Props.StateTests
import Verif.Props.ImportTests
import Verif.Props.WaveguideLimit
import Verif.Props.WaveguideStationary
import Verif.Props.LinearResponse
import Verif.Props.StationaryResponse
import Verif.Props.WavePacket
import Verif.Props.RotationRate
import Verif.Props.RotationRateSmooth
import Verif.Props.Isotropy
import Verif.Props.MirrorDiag
import Verif.Props.SmallAmplitude
import Verif.Props.ZonalizeTotal
import Verif.Props.Spectrum
import Verif.Props.Dipole
import Verif.Props.Reversal
import Verif.Props.ZonalizeOrder
import Verif.Props.AxialMomentum
import Verif.Props.TiltedAxis
import Verif.Props.HannResponse
import Verif.Props.StationaryWave
import Verif.Props.Attraction
import Verif.Props.NormalModes
import Verif.Props.FilterResponse
import Verif.Props.FilterTransform
import Verif.Props.ShearBound
import Verif.Props.FilterAdjoint

/-!
# Axioms

Building this file fails if a theorem or definition in the namespace `Barotropic` depends on anything but Lean's three standard
axioms.
-/

open Lean Elab Command

run_cmd do
  let env ← getEnv
  let mut n : Nat := 0
  for (name, _) in env.constants.map₁.toList do
    if (`Barotropic).isPrefixOf name && !name.isInternal then
      n := n + 1
      for a in ← collectAxioms name do
        unless [`propext, `Classical.choice, `Quot.sound].contains a do
          throwError "{name} depends on {a}"
  if n < 2000 then throwError "only {n} declarations"
