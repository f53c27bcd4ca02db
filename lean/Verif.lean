import Verif.Np
import Verif.Utils
import Verif.UtilsLemmas
import Verif.UtilsProps
import Verif.UtilsNdProps
import Verif.Argmin
import Verif.ArgminSpec
import Verif.ArgminLemmas
import Verif.ArgminProps
import Verif.Dft
import Verif.DftLemmas
import Verif.OF
import Verif.OFSpec
import Verif.OFLemmas
import Verif.OFProps
import Verif.OFEquivLemmas
import Verif.OFEquivProps
import Verif.OFHistorySpec
import Verif.OFHistory
import Verif.OFHistoryProps
import Verif.OFPairLemmas
import Verif.OFPairProps
import Verif.OFUnitsSpec
import Verif.OFUnitsLemmas
import Verif.OFUnitsProps
import Verif.OFRecSpec
import Verif.OFRecLemmas
import Verif.OFRecProps
import Verif.OFRecOkLemmas
import Verif.OFRecOkProps
import Verif.OFRecConLemmas
import Verif.OFRecConProps
import Verif.OFSplitSpec
import Verif.OFSplitLemmas
import Verif.OFSplitProps
import Verif.OFMiscProps
import Verif.OFFun
import Verif.OFFunLemmas
import Verif.OFFunProps
import Verif.Noise
import Verif.NoiseSpec
import Verif.NoiseGram
import Verif.NoiseLemmas
import Verif.NoiseProps
import Verif.NoiseNdProps
import Verif.NoiseObjProps
import Verif.NoiseResidSpec
import Verif.NoiseResidLemmas
import Verif.NoiseResidProps
import Verif.Cut
import Verif.CutSpec
import Verif.CutLemmas
import Verif.CutProps
import Verif.CutCovProps
import Verif.CutScaleProps
import Verif.CutSymProps
import Verif.CutAuto
import Verif.CutAutoLemmas
import Verif.CutAutoProps
import Verif.CutKeepLemmas
import Verif.CutKeepProps
import Verif.CutOrderSpec
import Verif.CutOrderLemmas
import Verif.CutOrderProps
import Verif.LineFit
import Verif.LineFitSpec
import Verif.LineFitLemmas
import Verif.Iv
import Verif.IvSpec
import Verif.IvLemmas
import Verif.IvProps
import Verif.IvUnitsSpec
import Verif.IvUnitsLemmas
import Verif.IvUnitsProps
import Verif.IbisUnitsSpec
import Verif.IbisUnitsLemmas
import Verif.IbisUnitsProps
import Verif.IbisOrderSpec
import Verif.IbisOrderLemmas
import Verif.IbisOrderProps
import Verif.DidvUnitsProps
import Verif.Ibis
import Verif.IbisSpec
import Verif.IbisLemmas
import Verif.IbisProps
import Verif.Didv
import Verif.DidvSpec
import Verif.DidvLemmas
import Verif.DidvProps
import Verif.DidvWave
import Verif.DidvWaveSpec
import Verif.DidvWaveLemmas
import Verif.DidvWaveProps
import Verif.DidvObj
import Verif.DidvObjSpec
import Verif.DidvObjLemmas
import Verif.DidvObjProps
import Verif.Sim
import Verif.SimSpec
import Verif.SimLemmas
import Verif.SimProps
import Verif.SimPriorsProps
import Verif.Pinv
import Verif.PinvLemmas
import Verif.Nsmb
import Verif.NsmbSpec
import Verif.NsmbLemmas
import Verif.NsmbEx
import Verif.NsmbIntSpec
import Verif.NsmbIntLemmas
import Verif.NsmbProps
import Verif.NsmbChainProps
import Verif.NsmbUnitsSpec
import Verif.NsmbUnitsLemmas
import Verif.NsmbUnitsProps
import Verif.NsmbSpanSpec
import Verif.NsmbSpanLemmas
import Verif.NsmbSpanProps
import Verif.NsmbIntEx
import Verif.NsmbIntProps
import Verif.NsmbTtl
import Verif.NsmbTtlLemmas
import Verif.NsmbTtlProps
import Verif.NonLin
import Verif.NonLinSpec
import Verif.NonLinLemmas
import Verif.NonLinProps
import Verif.NonLinFitLemmas
import Verif.NonLinFitProps
import Verif.NonLinIdentLemmas
import Verif.NonLinIdentProps
import Verif.NonLinUnitsProps
import Verif.NonLinRecSpec
import Verif.NonLinRecLemmas
import Verif.NonLinRecProps
import Verif.Template
import Verif.TemplateSpec
import Verif.TemplateLemmas
import Verif.TemplateProps
import Verif.Trunc
import Verif.TruncSpec
import Verif.TruncLemmas
import Verif.TruncProps
import Verif.DidvPriors
import Verif.DidvPriorsSpec
import Verif.DidvPriorsLemmas
import Verif.DidvPriorsProps
import Verif.CutEffects
import Verif.CutEffectsProps
import Verif.DidvPlot
import Verif.DidvPlotSpec
import Verif.DidvPlotLemmas
import Verif.DidvPlotProps
import Verif.NoiseCsd
import Verif.NoiseCsdLemmas
import Verif.NoiseCsdProps
import Verif.NoiseSymSpec
import Verif.NoiseSymLemmas
import Verif.NoiseSymProps
import Verif.IvPlot
import Verif.IvPlotLemmas
import Verif.IvPlotProps
import Verif.NoisePlot
import Verif.NoisePlotSpec
import Verif.NoisePlotLemmas
import Verif.NoisePlotProps
import Verif.NoiseCorrPlotLemmas
import Verif.NoiseCorrPlotProps
import Verif.SimPlot
import Verif.SimPlotSpec
import Verif.SimPlotLemmas
import Verif.SimPlotProps
import Verif.SimOFSpec
import Verif.SimOFLemmas
import Verif.SimOFProps
import Verif.NonLinPlot
import Verif.NonLinPlotSpec
import Verif.NonLinPlotLemmas
import Verif.NonLinPlotProps
import Verif.Lowpass
import Verif.LowpassSpec
import Verif.LowpassLemmas
import Verif.LowpassProps
import Verif.NsmbPlot
import Verif.NsmbPlotLemmas
import Verif.NsmbPlotProps
import Verif.CutCovSelSpec
import Verif.CutCovSelLemmas
import Verif.CutCovUnitLemmas
import Verif.CutCovSelProps
import Verif.CutStageLemmas
import Verif.CutStageProps
import Verif.Offset
import Verif.OffsetLemmas
import Verif.OffsetProps
import Verif.NoiseSave
import Verif.NoiseSaveProps
import Verif.IbisPlot
import Verif.IbisPlotLemmas
import Verif.IbisPlotProps
import Verif.IbisIvSpec
import Verif.IbisIvLemmas
import Verif.IbisIvProps
import Verif.OFStatSpec
import Verif.OFStatLemmas
import Verif.OFStatProps
import Verif.OFPsdProps
import Verif.NsmbOFSpec
import Verif.NsmbOFLemmas
import Verif.NsmbOFProps
import Verif.NsmbStatSpec
import Verif.NsmbStatLemmas
import Verif.NsmbStatProps
import Verif.DidvFig
import Verif.DidvFigSpec
import Verif.DidvFigLemmas
import Verif.DidvFigProps
import Verif.DidvProcSpec
import Verif.DidvProcLemmas
import Verif.DidvProcProps
import Verif.DidvIdentLemmas
import Verif.DidvIdentProps
import Verif.DidvShiftSpec
import Verif.DidvShiftLemmas
import Verif.DidvShiftProps
import Verif.DidvRecoverLemmas
import Verif.DidvRecoverProps
import Verif.DidvRecoverEx
import Verif.CutFitProps
import Verif.IntArrProps
import Verif.DeviceEx
import Verif.DevicePriorsEx
import Verif.DeviceNoiseSpec
import Verif.DeviceNoiseLemmas
import Verif.DeviceNoiseProps
import Verif.DeviceNoiseEx
import Verif.OFRateSpec
import Verif.OFRateLemmas
import Verif.OFRateProps
import Verif.OFLimitSpec
import Verif.OFLimitLemmas
import Verif.OFLimitProps
import Verif.OFSpreadLemmas
import Verif.OFSpreadProps
import Verif.OFLawSpec
import Verif.OFLawLemmas
import Verif.NsmbLawLemmas
import Verif.OFLawProps
import Verif.DidvLimitSpec
import Verif.DidvLimitLemmas
import Verif.DidvLimitProps
import Verif.DidvLimitEx
import Verif.DidvStableLemmas
import Verif.DeviceLimitSpec
import Verif.DeviceLimitLemmas
import Verif.DeviceLimitProps
import Verif.DeviceLimitEx
import Verif.NonLinLimitSpec
import Verif.NonLinLimitLemmas
import Verif.NonLinLimitProps
import Verif.LineLimitSpec
import Verif.LineLimitLemmas
import Verif.IvLimitSpec
import Verif.IvLimitLemmas
import Verif.IvLimitEx
import Verif.IvLimitProps
import Verif.IbisLimitSpec
import Verif.IbisLimitLemmas
import Verif.IbisLimitEx
import Verif.IbisLimitProps
import Verif.NoiseLimitSpec
import Verif.NoiseLimitLemmas
import Verif.NoiseLimitEx
import Verif.NoiseLimitProps
import Verif.IvErrorSpec
import Verif.IvErrorLemmas
import Verif.IvErrorEx
import Verif.IvErrorProps
import Verif.NonLinErrSpec
import Verif.NonLinErrLemmas
import Verif.NonLinErrMulti
import Verif.NonLinErrEx
import Verif.NonLinErrProps
import Verif.NonLinErrMuon
import Verif.NonLinErrMuonProps
import Verif.DidvErrSpec
import Verif.DidvErrLemmas
import Verif.DidvErrGlue
import Verif.DidvErrPoles
import Verif.DidvErrExist
import Verif.DidvErrEx
import Verif.DidvErrProps
import Verif.DidvTwinSpec
import Verif.DidvTwinLemmas
import Verif.DidvTwinEx
import Verif.DidvTwinProps
import Verif.DidvBeliefSpec
import Verif.DidvBeliefLemmas
import Verif.DidvBeliefGlue
import Verif.DidvBeliefPoles
import Verif.DidvBeliefEx
import Verif.DidvBeliefProps
import Verif.OFDelaySpec
import Verif.OFDelayLemmas
import Verif.OFDelayProps
import Verif.OFOtherSpec
import Verif.OFOtherLemmas
import Verif.OFOtherProps
import Verif.OFRobustLemmas
import Verif.OFRobustProps
import Verif.OFLeakSpec
import Verif.OFLeakLemmas
import Verif.OFLeakProps
import Verif.EnergySpec
import Verif.EnergyLemmas
import Verif.EnergyProps
import Verif.CutOutLemmas
import Verif.CutOutProps
import Verif.SlopeStatSpec
import Verif.SlopeStatLemmas
import Verif.SlopeStatProps
import Verif.CutCovOutLemmas
import Verif.CutCovOutProps
import Verif.ShiftFracLemmas
import Verif.ShiftFracProps
import Verif.CutRoProps
import Verif.AlignNoiseProps
import Verif.GenNoiseProps
import Verif.OFResProps
import Verif.NsmbCostProps
import Verif.ResampleProps
import Verif.SmoothCostProps
import Verif.SimMissingProps
