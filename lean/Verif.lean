import Verif.Lemmas.AR
import Verif.Lemmas.AdaptiveReverb
import Verif.Lemmas.Biquad
import Verif.Lemmas.BlockFIR
import Verif.Lemmas.Burg
import Verif.Lemmas.Cache
import Verif.Lemmas.Channels
import Verif.Lemmas.DFT
import Verif.Lemmas.Deconvolution
import Verif.Lemmas.DifferenceEq
import Verif.Lemmas.Double
import Verif.Lemmas.ExactValue
import Verif.Lemmas.FIRFilter
import Verif.Lemmas.FilterBank
import Verif.Lemmas.FirDesigner
import Verif.Lemmas.Framing
import Verif.Lemmas.FrequencyGrids
import Verif.Lemmas.Gammatone
import Verif.Lemmas.Generators
import Verif.Lemmas.IDFT
import Verif.Lemmas.IIRFilter
import Verif.Lemmas.Implements
import Verif.Lemmas.Kautz
import Verif.Lemmas.KautzBasis
import Verif.Lemmas.LFilter
import Verif.Lemmas.Lattice
import Verif.Lemmas.Loudness
import Verif.Lemmas.MatchedBiquad
import Verif.Lemmas.MatchedExistence
import Verif.Lemmas.MatchedLowpass
import Verif.Lemmas.MatchedShelf
import Verif.Lemmas.MatchedTotal
import Verif.Lemmas.ModeCount
import Verif.Lemmas.NormalizedSpectrum
import Verif.Lemmas.OctaveSmoothing
import Verif.Lemmas.Offline
import Verif.Lemmas.Parallel
import Verif.Lemmas.Parseval
import Verif.Lemmas.Peak
import Verif.Lemmas.Polyphase
import Verif.Lemmas.Realtime
import Verif.Lemmas.ResampleFilter
import Verif.Lemmas.ReverbTail
import Verif.Lemmas.SignalData
import Verif.Lemmas.SpectralSubtraction
import Verif.Lemmas.Spectrum
import Verif.Lemmas.StableFilter
import Verif.Lemmas.StateSpace
import Verif.Lemmas.StepUp
import Verif.Lemmas.TukeyWindow
import Verif.Lemmas.WarpFrequency
import Verif.Lemmas.Warped
import Verif.Model.AR
import Verif.Model.Activity
import Verif.Model.AdaptiveReverb
import Verif.Model.Append
import Verif.Model.Arma
import Verif.Model.Arrays
import Verif.Model.AudioFilters
import Verif.Model.AudioIO
import Verif.Model.AverageIR
import Verif.Model.Bands
import Verif.Model.BankSpectrum
import Verif.Model.Beamformers
import Verif.Model.Beamforming
import Verif.Model.Biquad
import Verif.Model.BlockFIR
import Verif.Model.Bytes24
import Verif.Model.CSM
import Verif.Model.Calibration
import Verif.Model.CenteredIR
import Verif.Model.Chroma
import Verif.Model.Collapse
import Verif.Model.CombineIR
import Verif.Model.Complementary
import Verif.Model.ComplexSmoothing
import Verif.Model.Compressor
import Verif.Model.ConvolveRir
import Verif.Model.CrestFactor
import Verif.Model.DFT
import Verif.Model.DecayCurve
import Verif.Model.Deconvolution
import Verif.Model.Descriptors
import Verif.Model.DetailedRir
import Verif.Model.Detrend
import Verif.Model.Distances
import Verif.Model.Distortion
import Verif.Model.Dither
import Verif.Model.Double
import Verif.Model.Echo
import Verif.Model.ExactValue
import Verif.Model.ExcessDelay
import Verif.Model.ExcessDelayLatency
import Verif.Model.FIRFilter
import Verif.Model.Fade
import Verif.Model.FilterBank
import Verif.Model.FilterChain
import Verif.Model.FilterCoeffs
import Verif.Model.FilterGroupDelay
import Verif.Model.FirDesign
import Verif.Model.FirDesigner
import Verif.Model.FractionalDelay
import Verif.Model.FractionalPeak
import Verif.Model.Framing
import Verif.Model.FreqDependentWindow
import Verif.Model.FrequencyGrids
import Verif.Model.Gain
import Verif.Model.Gammatone
import Verif.Model.GaussianKernel
import Verif.Model.Generators
import Verif.Model.GroupDelay
import Verif.Model.GroupDelayLatency
import Verif.Model.Harmonics
import Verif.Model.Helpers
import Verif.Model.IIRFilter
import Verif.Model.IRFilter
import Verif.Model.ImageSource
import Verif.Model.Interp
import Verif.Model.InterpolateFr
import Verif.Model.Kautz
import Verif.Model.KautzPoles
import Verif.Model.LFilter
import Verif.Model.Latency
import Verif.Model.LatencyPhase
import Verif.Model.LatencyQuality
import Verif.Model.Lattice
import Verif.Model.Level
import Verif.Model.Lfo
import Verif.Model.LinearPhase
import Verif.Model.LinkwitzRiley
import Verif.Model.LogMean
import Verif.Model.Loudness
import Verif.Model.Lpc
import Verif.Model.Mat
import Verif.Model.MatchedBiquad
import Verif.Model.Mel
import Verif.Model.Memory
import Verif.Model.Merge
import Verif.Model.MicArray
import Verif.Model.MinimumPhase
import Verif.Model.MultibandAccess
import Verif.Model.Normalize
import Verif.Model.NormalizedSpectrum
import Verif.Model.OctaveBands
import Verif.Model.OctaveBank
import Verif.Model.OctaveSmoothing
import Verif.Model.PadTrim
import Verif.Model.Parallel
import Verif.Model.PeakPoints
import Verif.Model.Polyphase
import Verif.Model.QMF
import Verif.Model.Resample
import Verif.Model.ResampleFilter
import Verif.Model.Reverb
import Verif.Model.ReverbStart
import Verif.Model.ReverbTail
import Verif.Model.Rhythm
import Verif.Model.Room
import Verif.Model.RoomDescriptors
import Verif.Model.RoomModes
import Verif.Model.STFT
import Verif.Model.SVF
import Verif.Model.SampleFormat
import Verif.Model.SavePaths
import Verif.Model.Scaling
import Verif.Model.SegmentalSNR
import Verif.Model.SignalCache
import Verif.Model.SignalData
import Verif.Model.SignalRatios
import Verif.Model.SmoothedDelay
import Verif.Model.SmoothedDifference
import Verif.Model.Smoothing
import Verif.Model.SpectralDifference
import Verif.Model.SpectralSubtraction
import Verif.Model.Spectrum
import Verif.Model.SpectrumConversion
import Verif.Model.SpectrumObject
import Verif.Model.StateSpace
import Verif.Model.Thiran
import Verif.Model.TransferEstimate
import Verif.Model.Transforms
import Verif.Model.Trim
import Verif.Model.TrimIR
import Verif.Model.TukeyWindow
import Verif.Model.Vqt
import Verif.Model.Warp
import Verif.Model.WarpFrequency
import Verif.Model.WarpSignal
import Verif.Model.Warped
import Verif.Model.Wavelet
import Verif.Model.WaveletCenter
import Verif.Model.Welch
import Verif.Model.WindowIR
import Verif.Model.WindowType
import Verif.Model.ZeroPhase
import Verif.Props.C01
import Verif.Props.C02
import Verif.Props.C03
import Verif.Props.C04
import Verif.Props.C05
import Verif.Props.C06
import Verif.Props.C07
import Verif.Props.C08
import Verif.Props.C09
import Verif.Props.C10
import Verif.Props.C100
import Verif.Props.C101
import Verif.Props.C102
import Verif.Props.C103
import Verif.Props.C103Phase
import Verif.Props.C104
import Verif.Props.C104Affine
import Verif.Props.C105
import Verif.Props.C106
import Verif.Props.C107
import Verif.Props.C108
import Verif.Props.C109
import Verif.Props.C109Simpson
import Verif.Props.C11
import Verif.Props.C110
import Verif.Props.C111
import Verif.Props.C112
import Verif.Props.C112Reconstruction
import Verif.Props.C113
import Verif.Props.C114
import Verif.Props.C115
import Verif.Props.C116
import Verif.Props.C117
import Verif.Props.C118
import Verif.Props.C119
import Verif.Props.C12
import Verif.Props.C120
import Verif.Props.C121
import Verif.Props.C121Smoothed
import Verif.Props.C122
import Verif.Props.C123
import Verif.Props.C124
import Verif.Props.C125
import Verif.Props.C126
import Verif.Props.C127
import Verif.Props.C127Apply
import Verif.Props.C127Example
import Verif.Props.C128
import Verif.Props.C128Filter
import Verif.Props.C129
import Verif.Props.C13
import Verif.Props.C130
import Verif.Props.C131
import Verif.Props.C132
import Verif.Props.C133
import Verif.Props.C134
import Verif.Props.C135
import Verif.Props.C135Points
import Verif.Props.C136
import Verif.Props.C137
import Verif.Props.C138
import Verif.Props.C138Detailed
import Verif.Props.C139
import Verif.Props.C139Values
import Verif.Props.C14
import Verif.Props.C140
import Verif.Props.C140Latency
import Verif.Props.C141
import Verif.Props.C142
import Verif.Props.C143
import Verif.Props.C143Center
import Verif.Props.C144
import Verif.Props.C145
import Verif.Props.C146
import Verif.Props.C146Values
import Verif.Props.C147
import Verif.Props.C148
import Verif.Props.C149
import Verif.Props.C15
import Verif.Props.C150
import Verif.Props.C151
import Verif.Props.C152
import Verif.Props.C153
import Verif.Props.C154
import Verif.Props.C155
import Verif.Props.C156
import Verif.Props.C157
import Verif.Props.C16
import Verif.Props.C17
import Verif.Props.C18
import Verif.Props.C19
import Verif.Props.C20
import Verif.Props.C21
import Verif.Props.C22
import Verif.Props.C23
import Verif.Props.C23Plain
import Verif.Props.C24
import Verif.Props.C25
import Verif.Props.C26
import Verif.Props.C26Stable
import Verif.Props.C27
import Verif.Props.C28
import Verif.Props.C29
import Verif.Props.C30
import Verif.Props.C31
import Verif.Props.C32
import Verif.Props.C33
import Verif.Props.C34
import Verif.Props.C35
import Verif.Props.C36
import Verif.Props.C36Stable
import Verif.Props.C37
import Verif.Props.C37Lengths
import Verif.Props.C38
import Verif.Props.C39
import Verif.Props.C40
import Verif.Props.C41
import Verif.Props.C42
import Verif.Props.C43
import Verif.Props.C44
import Verif.Props.C45
import Verif.Props.C46
import Verif.Props.C47
import Verif.Props.C48
import Verif.Props.C49
import Verif.Props.C50
import Verif.Props.C51
import Verif.Props.C52
import Verif.Props.C53
import Verif.Props.C54
import Verif.Props.C55
import Verif.Props.C56
import Verif.Props.C57
import Verif.Props.C58
import Verif.Props.C59
import Verif.Props.C60
import Verif.Props.C61
import Verif.Props.C62
import Verif.Props.C63
import Verif.Props.C63Modes
import Verif.Props.C64
import Verif.Props.C65
import Verif.Props.C66
import Verif.Props.C66Bands
import Verif.Props.C67
import Verif.Props.C68
import Verif.Props.C69
import Verif.Props.C70
import Verif.Props.C71
import Verif.Props.C71Limit
import Verif.Props.C71Signal
import Verif.Props.C72
import Verif.Props.C73
import Verif.Props.C74
import Verif.Props.C75
import Verif.Props.C75Bands
import Verif.Props.C76
import Verif.Props.C77
import Verif.Props.C78
import Verif.Props.C79
import Verif.Props.C79Examples
import Verif.Props.C79Stream
import Verif.Props.C80
import Verif.Props.C80Zeros
import Verif.Props.C81
import Verif.Props.C81Wrong
import Verif.Props.C82
import Verif.Props.C82Wrong
import Verif.Props.C83
import Verif.Props.C83Wrong
import Verif.Props.C84
import Verif.Props.C84Wrong
import Verif.Props.C85
import Verif.Props.C86
import Verif.Props.C86Combine
import Verif.Props.C87
import Verif.Props.C88
import Verif.Props.C89
import Verif.Props.C90
import Verif.Props.C91
import Verif.Props.C92
import Verif.Props.C93
import Verif.Props.C93Iir
import Verif.Props.C94
import Verif.Props.C94Edges
import Verif.Props.C94Impulse
import Verif.Props.C95
import Verif.Props.C96
import Verif.Props.C97
import Verif.Props.C97Slope
import Verif.Props.C98
import Verif.Props.C99
import Verif.Props.C99Audible
import Verif.Spec.Allpass
import Verif.Spec.Blocks
import Verif.Spec.Cache
import Verif.Spec.Channels
import Verif.Spec.Convolution
import Verif.Spec.Deconvolution
import Verif.Spec.DifferenceEq
import Verif.Spec.Interpolation
import Verif.Spec.Loudness
import Verif.Spec.Peak
import Verif.Spec.Realtime
import Verif.Spec.Response
import Verif.Spec.SignalChannels
import Verif.Spec.TransferFunction
import Verif.Spec.Waves
import Verif.Spec.Zpk
