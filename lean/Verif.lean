import Verif.Adaptive.Lemmas
import Verif.Adaptive.Model
import Verif.Adaptive.Props
import Verif.Angles.Model
import Verif.Angles.Props
import Verif.Arrays.Model
import Verif.Arrays.Props
import Verif.AuxIva.Model
import Verif.AuxIva.Props
import Verif.Bands.Antoni
import Verif.Bands.AntoniOctave
import Verif.Bands.AntoniTransform
import Verif.Bands.Cosine
import Verif.Bands.FilterModel
import Verif.Bands.Interp
import Verif.Bands.Model
import Verif.Bark.Model
import Verif.Bark.Props
import Verif.Beam.Model
import Verif.Beam.Props
import Verif.BeamProc.Frequency
import Verif.BeamProc.Model
import Verif.BeamProc.Props
import Verif.Bss.ProjectionModel
import Verif.Bss.ProjectionProps
import Verif.Calib.Model
import Verif.Calib.Props
import Verif.Cloud.Model
import Verif.Cloud.Props
import Verif.Corpora.Model
import Verif.Corpora.Props
import Verif.Cssm.Model
import Verif.Cssm.More
import Verif.Cssm.Props
import Verif.Cssm.Waves
import Verif.DFT
import Verif.DataStructures.Lemmas
import Verif.DataStructures.Model
import Verif.DataStructures.Props
import Verif.Dataset.Model
import Verif.Dataset.Props
import Verif.Deconv.Model
import Verif.Deconv.Props
import Verif.Deconv.Wiener
import Verif.Delays.Model
import Verif.Delays.Props
import Verif.Denoise.SpectralModel
import Verif.Denoise.SpectralProps
import Verif.Denoise.SubspaceModel
import Verif.Denoise.SubspaceProps
import Verif.DftObj.Model
import Verif.DftObj.Props
import Verif.Directivity.CardioidModel
import Verif.Directivity.CardioidProps
import Verif.Directivity.RotationModel
import Verif.Directivity.RotationProps
import Verif.Doa.LocateModel
import Verif.Doa.LocateProps
import Verif.Doa.Model
import Verif.Doa.Props
import Verif.Download.Model
import Verif.Download.Props
import Verif.Engine.Model
import Verif.Engine.Props
import Verif.Extent.Model
import Verif.Extent.Props
import Verif.FastMnmf.Descent
import Verif.FastMnmf.Mm
import Verif.FastMnmf.Model
import Verif.FastMnmf.Props
import Verif.FastMnmf.Run
import Verif.FastMnmf.Steps
import Verif.FastMnmf2.Model
import Verif.FastMnmf2.Props
import Verif.FastMnmf2.Run
import Verif.FriAlg.Model
import Verif.FriAlg.Props
import Verif.FriOpt.Lemmas
import Verif.FriOpt.Model
import Verif.FriOpt.Props
import Verif.FriOpt.Sources
import Verif.FriOpt.Surjective
import Verif.FriRecon.Model
import Verif.FriRecon.Props
import Verif.Frida.Model
import Verif.Frida.Props
import Verif.Geometry.Model
import Verif.Geometry.Polygon
import Verif.Geometry.Props
import Verif.Geometry.Reflect
import Verif.Geometry.RoomModel
import Verif.Geometry.Segments
import Verif.Geometry.Volume
import Verif.Grids.Model
import Verif.Grids.Props
import Verif.GriffinLim.Model
import Verif.GriffinLim.Props
import Verif.Histogram.Lemmas
import Verif.Histogram.Model
import Verif.Histogram.Props
import Verif.Hmm.Model
import Verif.Hmm.Props
import Verif.Hmm.Training
import Verif.Hull.Model
import Verif.Hull.Props
import Verif.Ilrma.Model
import Verif.Ilrma.Props
import Verif.Inside.Codes
import Verif.Inside.Model
import Verif.Inside.Parity
import Verif.Inside.Props
import Verif.Ism.Model
import Verif.Ism.Props
import Verif.IsmIr.Model
import Verif.IsmIr.Props
import Verif.IsmRir.Model
import Verif.IsmRir.Props
import Verif.Levels.Model
import Verif.Levels.Props
import Verif.LinPred.Levinson
import Verif.LinPred.MinPhase
import Verif.LinPred.Model
import Verif.LinPred.Props
import Verif.Locate.Exists
import Verif.Locate.Model
import Verif.Locate.Props
import Verif.Locate.Search
import Verif.Locate.Tdoa
import Verif.MakeMat.Model
import Verif.MakeMat.Props
import Verif.Materials.Corners
import Verif.Materials.Model
import Verif.Materials.Props
import Verif.MaxUdr.Model
import Verif.MaxUdr.Props
import Verif.Measured.Model
import Verif.Measured.Props
import Verif.Mel.Model
import Verif.Mel.Props
import Verif.Metrics.Model
import Verif.Metrics.Props
import Verif.Mics.Model
import Verif.Mics.Props
import Verif.MinPhase.Model
import Verif.MinPhase.Props
import Verif.Music.Model
import Verif.Music.Props
import Verif.OctBands.Model
import Verif.OctBands.Props
import Verif.Params.Model
import Verif.Params.Props
import Verif.Peaks.GridModel
import Verif.Peaks.GridProps
import Verif.Peaks.Model
import Verif.Peaks.Props
import Verif.Prony.Model
import Verif.Prony.Props
import Verif.Py
import Verif.Random.Model
import Verif.Random.Props
import Verif.Rays.Model
import Verif.Rays.Props
import Verif.RealHarm.Model
import Verif.RealHarm.Props
import Verif.RegGrid.Model
import Verif.RegGrid.Props
import Verif.Reverb.Model
import Verif.Reverb.Props
import Verif.RirBuilder.Lemmas
import Verif.RirBuilder.Model
import Verif.RirBuilder.Props
import Verif.RirState.Model
import Verif.RirState.Props
import Verif.RoomInfo.Model
import Verif.RoomInfo.Props
import Verif.Rt60.Model
import Verif.Rt60.Props
import Verif.STFT.Lemmas
import Verif.STFT.Model
import Verif.STFT.Props
import Verif.STFT.Spec
import Verif.SaveWav.Model
import Verif.SaveWav.Props
import Verif.Shoebox.Lemmas
import Verif.Shoebox.Model
import Verif.Shoebox.Props
import Verif.Simulate.Model
import Verif.Simulate.Props
import Verif.SofaRead.Model
import Verif.SofaRead.Props
import Verif.SoundSrc.Model
import Verif.SoundSrc.Props
import Verif.Sparir.Model
import Verif.Sparir.Props
import Verif.SparseIva.Model
import Verif.SparseIva.Props
import Verif.SphInterp.Model
import Verif.SphInterp.Props
import Verif.Sphere.Model
import Verif.Sphere.Props
import Verif.Sphere.Voronoi
import Verif.Spherical.Lemmas
import Verif.Spherical.Model
import Verif.Spherical.Props
import Verif.Srp.Model
import Verif.Srp.Props
import Verif.Subband.Model
import Verif.Subband.Props
import Verif.Sweep.Measure
import Verif.Sweep.Model
import Verif.Sweep.Props
import Verif.Sync.Lemmas
import Verif.Sync.Model
import Verif.Sync.Props
import Verif.Tail.Model
import Verif.Tail.Props
import Verif.ThreadPool.Model
import Verif.ThreadPool.Props
import Verif.Timit.Model
import Verif.Timit.Props
import Verif.Toeplitz.Model
import Verif.Toeplitz.Props
import Verif.Tops.Model
import Verif.Tops.Props
import Verif.Trinicon.Lemmas
import Verif.Trinicon.Model
import Verif.Trinicon.Props
import Verif.Wiener.Model
import Verif.Wiener.Props
import Verif.Windows.Model
import Verif.Windows.Props
