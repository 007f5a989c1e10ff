import Verif.Basic.Py
import Verif.Basic.XF
import Verif.Lemmas.XF
import Verif.Basic.Np
import Verif.Model.Converters
import Verif.Model.Filters
import Verif.Model.Preprocessing
import Verif.Model.Cepstral
import Verif.Lemmas.Converters
import Verif.Props.Converters
import Verif.Lemmas.ListAux
import Verif.Lemmas.Filters
import Verif.Spec.Filters
import Verif.Props.Filters
import Verif.Lemmas.Preprocessing
import Verif.Props.Preprocessing
import Verif.Lemmas.Mat
import Verif.Lemmas.Cepstral
import Verif.Props.Cepstral
import Verif.Model.MelFbanks
import Verif.Model.BarkFbanks
import Verif.Model.GammatoneFbanks
import Verif.Spec.Fbanks
import Verif.Lemmas.MelFbanks
import Verif.Props.MelFbanks
import Verif.Lemmas.BarkFbanks
import Verif.Props.BarkFbanks
import Verif.Lemmas.GammatoneFbanks
import Verif.Props.GammatoneFbanks
import Verif.Model.Features
import Verif.Spec.Features
import Verif.Lemmas.Features
import Verif.Lemmas.FrontEnd
import Verif.Lemmas.Fourier
import Verif.Lemmas.Finite
import Verif.Lemmas.Psrcc
import Verif.Props.Features
import Verif.Props.Features2
import Verif.Props.Features3
import Verif.Model.Pncc
import Verif.Lemmas.Pncc
import Verif.Lemmas.Pncc2
import Verif.Props.Pncc
import Verif.Props.Pncc2
import Verif.Model.Lpc
import Verif.Spec.Lpc
import Verif.Lemmas.Lpc
import Verif.Lemmas.Lpc2
import Verif.Props.Lpc
import Verif.Model.Plp
import Verif.Lemmas.Plp
import Verif.Props.Plp
import Verif.Model.Cqt
import Verif.Spec.Cqt
import Verif.Lemmas.Cqt
import Verif.Props.Cqt
import Verif.Model.Spfeats
import Verif.Spec.Spfeats
import Verif.Lemmas.Spfeats
import Verif.Props.Spfeats
import Verif.Model.Yin
import Verif.Spec.Yin
import Verif.Lemmas.Yin
import Verif.Props.Yin
import Verif.Model.Dominant
import Verif.Model.Vis
import Verif.Spec.Dominant
import Verif.Lemmas.Dominant
import Verif.Props.Dominant
import Verif.Props.Vis
import Verif.Spec.Meaning
import Verif.Props.Meaning
import Verif.Props.Options
import Verif.Spec.Gammatone
import Verif.Props.Gammatone2
import Verif.Lemmas.Dct
import Verif.Props.Dct
import Verif.Spec.Pncc
import Verif.Props.PnccMeaning
import Verif.Spec.LpMeaning
import Verif.Props.LpMeaning
import Verif.Props.DefaultBank
import Verif.Model.MultiChannel
import Verif.Props.MultiChannel
import Verif.Props.Polarity
import Verif.Props.Locality
import Verif.Props.Reversal
import Verif.Props.SpecMeaning
import Verif.Props.Errors
import Verif.Props.Errors2
import Verif.Spec.Errors
import Verif.Props.Stability
import Verif.Model.IntDtype
import Verif.Props.IntDtype
import Verif.Model.Rounding
import Verif.Props.Rounding
import Verif.Model.Store
import Verif.Lemmas.Store
import Verif.Props.Store
import Verif.Props.Views
import Verif.Props.Errors3
import Verif.Props.YinMeaning
import Verif.Model.Butter
import Verif.Spec.Butter
import Verif.Lemmas.Butter
import Verif.Props.Butter
import Verif.Props.LpcStable
import Verif.Model.Float64
import Verif.Props.Float64
import Verif.Lemmas.RastaInf
import Verif.Props.RplpErrors
import Verif.Model.Float64Int
import Verif.Props.Float64Int
import Verif.Props.PnccGain
import Verif.Props.Resample
import Verif.Lemmas.Leakage
import Verif.Props.Tone
import Verif.Props.TimeUnit
import Verif.Lemmas.YinTone
import Verif.Props.YinTone
import Verif.Props.Causality
import Verif.Lemmas.NormLevel
import Verif.Props.NormLevel
import Verif.Spec.Deltas
import Verif.Props.Deltas
import Verif.Props.EnergyMeaning
import Verif.Lemmas.CqtTone
import Verif.Props.CqtTone
import Verif.Model.RoundingPost
import Verif.Props.RoundingPost
import Verif.Model.RoundingDominant
import Verif.Props.RoundingDominant
import Verif.Spec.Envelope
import Verif.Lemmas.Envelope
import Verif.Lemmas.EnvelopeMean
import Verif.Props.Envelope
import Verif.Model.RoundingBank
import Verif.Props.RoundingBank
import Verif.Props.RoundingAll
import Verif.Props.Loudness
import Verif.Props.PlpBlind
import Verif.Spec.PlpModel
import Verif.Props.PlpModel
import Verif.Props.PnccStationary
import Verif.Model.NegCeps
import Verif.Props.NegCeps
import Verif.Spec.AllPole
import Verif.Props.LpcIdentify
import Verif.Props.Compressive
import Verif.Spec.Traunmueller
import Verif.Props.Published
import Verif.Props.PnccMax
import Verif.Spec.RastaTime
import Verif.Props.RastaTime
import Verif.Props.PsrccJump
import Verif.Props.DeafFilters
import Verif.Props.HighPass
import Verif.Props.SilenceFloor
import Verif.Props.ZeroPadding
import Verif.Props.EqualLoudness
import Verif.Props.LpcDocumented
import Verif.Model.Column
import Verif.Props.ColumnInput
import Verif.Props.YinWindow
import Verif.Props.SpfeatsReach
import Verif.Spec.Blocks
import Verif.Props.Blocks
import Verif.Props.MeanPower
import Verif.Spec.Peeters
import Verif.Props.SameBank
import Verif.Props.Peeters
import Verif.Props.RoundingRoot
import Verif.Model.RoundingLpc
import Verif.Lemmas.LpcSpectrum
import Verif.Props.RoundingLpc
import Verif.Props.YinParams
import Verif.Lemmas.Szego
import Verif.Props.PredictionGain
import Verif.Props.FixedChannel
import Verif.Props.Sources
import Verif.Model.RoundingConv
import Verif.Props.RoundingConv
import Verif.Model.RoundingSpfeats
import Verif.Props.RoundingSpfeats
import Verif.Model.Draw
import Verif.Spec.Draw
import Verif.Props.Draw
import Verif.Props.Suite
import Verif.Model.RoundingPncc
import Verif.Props.RoundingPncc
import Verif.Props.RootLimit
import Verif.Props.LpcTone
import Verif.Props.Inversion
import Verif.Props.Tones
import Verif.Props.Click
import Verif.Props.Convolution
import Verif.Props.NoisyTone
import Verif.Props.YinNoise
import Verif.Props.LpcStability
import Verif.Props.PlpContinuous
import Verif.Props.PnccContinuous
import Verif.Model.RoundingRasta
import Verif.Props.RoundingRasta
import Verif.Model.RoundingPlp
import Verif.Props.RoundingPlp
import Verif.Props.CqccContinuous
import Verif.Model.RoundingCqt
import Verif.Props.RoundingCqt
import Verif.Props.BlocksRplp
import Verif.Model.ColumnCqt
import Verif.Props.ColumnCqt
import Verif.Props.CqtClick
import Verif.Model.RoundingPhase
import Verif.Props.RoundingPhase
import Verif.Model.RoundingPnccAll
import Verif.Props.RoundingPnccAll
import Verif.Props.Channel
