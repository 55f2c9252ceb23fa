import Verif.Calc.Implicit
import Verif.Calc.MatExp
import Verif.Calc.MatExpProps
import Verif.Calc.Matrix
import Verif.Cov.Acov
import Verif.Cov.AcovProps
import Verif.Cov.ExactProps
import Verif.Cov.Psd
import Verif.Cov.PsdProps
import Verif.Cov.Struct
import Verif.Cov.StructProps
import Verif.Data.Lemmas
import Verif.Data.Model
import Verif.Data.Props
import Verif.Design.Lemmas
import Verif.Design.Model
import Verif.Design.Props
import Verif.Eln.Binom
import Verif.Eln.Binom2
import Verif.Eln.Binom2PathProps
import Verif.Eln.Binom2Props
import Verif.Eln.BinomLoopProps
import Verif.Eln.BinomProps
import Verif.Eln.CvPath
import Verif.Eln.CvPathProps
import Verif.Eln.Fold
import Verif.Eln.FoldProps
import Verif.Eln.Glmen2
import Verif.Eln.Glmen2Cv
import Verif.Eln.Glmen2CvProps
import Verif.Eln.Glmen2ObjProps
import Verif.Eln.Glmen2Props
import Verif.Eln.Lars
import Verif.Eln.LarsDrop
import Verif.Eln.LarsDropProps
import Verif.Eln.LarsProps
import Verif.Eln.LarsStats
import Verif.Eln.LarsStatsProps
import Verif.Eln.Lasso
import Verif.Eln.LassoProps
import Verif.Eln.Model
import Verif.Eln.Path
import Verif.Eln.PathProps
import Verif.Eln.Props
import Verif.Eln.StartLam
import Verif.Eln.StartLamProps
import Verif.Fa.Align
import Verif.Fa.AlignMat
import Verif.Fa.AlignMatProps
import Verif.Fa.AlignProps
import Verif.Fa.CayleyProps
import Verif.Fa.Concentrated
import Verif.Fa.ConcentratedProps
import Verif.Fa.ConstraintProps
import Verif.Fa.Criterion
import Verif.Fa.CriterionProps
import Verif.Fa.EigPathLemmas
import Verif.Fa.FitMeasures
import Verif.Fa.FitMeasuresProps
import Verif.Fa.GpaProps
import Verif.Fa.Inference
import Verif.Fa.InferenceProps
import Verif.Fa.LayoutProps
import Verif.Fa.Likelihood
import Verif.Fa.LikelihoodProps
import Verif.Fa.Model
import Verif.Fa.OldAug
import Verif.Fa.OldAugProps
import Verif.Fa.OldConc
import Verif.Fa.OldConcProps
import Verif.Fa.OldConstraintProps
import Verif.Fa.OldEfa
import Verif.Fa.OldEfaProps
import Verif.Fa.OldEfaSetup
import Verif.Fa.OldEfaSetupProps
import Verif.Fa.OldGpaProps
import Verif.Fa.OldRotation
import Verif.Fa.OldRotationProps
import Verif.Fa.OldScores
import Verif.Fa.OldScoresProps
import Verif.Fa.Rotation
import Verif.Fa.RotationProps
import Verif.Fa.SvdProps
import Verif.Fa.Theta
import Verif.Func.Cut
import Verif.Func.CutProps
import Verif.Func.Harmonic
import Verif.Func.HarmonicProps
import Verif.Func.Lemmas
import Verif.Func.Model
import Verif.Func.PartLemmas
import Verif.Func.Props
import Verif.Func.RoundLemmas
import Verif.Gam.Diag
import Verif.Gam.DiagProps
import Verif.Gam.Fam
import Verif.Gam.FamProps
import Verif.Gam.Formula
import Verif.Gam.FormulaProps
import Verif.Gam.Gam
import Verif.Gam.GamCritProps
import Verif.Gam.GamFitProps
import Verif.Gam.GamLemmas
import Verif.Gam.GamProps
import Verif.Gam.GamThirdProps
import Verif.Gam.Gauls
import Verif.Gam.GaulsBetaProps
import Verif.Gam.GaulsFitProps
import Verif.Gam.GaulsLemmas
import Verif.Gam.GaulsLinkProps
import Verif.Gam.GaulsRemlProps
import Verif.Gam.Gaus
import Verif.Gam.GausProps
import Verif.Gam.Gcv
import Verif.Gam.GcvProps
import Verif.Gam.LayoutProps
import Verif.Gam.Setup
import Verif.Gam.SetupProps
import Verif.Gam.SmoothBand
import Verif.Gam.SmoothBandProps
import Verif.Gam.SmoothProps
import Verif.Glm.DensityProps
import Verif.Glm.DevianceProps
import Verif.Glm.Families
import Verif.Glm.FamiliesProps
import Verif.Glm.GlmProps
import Verif.Glm.Inference
import Verif.Glm.InferenceProps
import Verif.Glm.Links
import Verif.Glm.LinksProps
import Verif.Glm.Model
import Verif.Glm.NdtrProps
import Verif.Glm.OldFamilies
import Verif.Glm.OldFamiliesProps
import Verif.Glm.OldGlm
import Verif.Glm.OldGlmProps
import Verif.Glm.OldLikeProps
import Verif.Glm.OldLinksProps
import Verif.Glm.OldPredict
import Verif.Glm.OldPredictProps
import Verif.Glm.Sampling
import Verif.Glm.SamplingProps
import Verif.Glm.Start
import Verif.Glm.StartProps
import Verif.Glm.TauProps
import Verif.Glm.WeightDeriv
import Verif.Glm.WeightDerivProps
import Verif.Glmm.HessProps
import Verif.Glmm.Model
import Verif.Glmm.PirlsProps
import Verif.Glmm.QuadProps
import Verif.Indep.DcorrProps
import Verif.Indep.DhsicProps
import Verif.Indep.KernelLemmas
import Verif.Indep.Lemmas
import Verif.Indep.Model
import Verif.Index.Lemmas
import Verif.Index.Model
import Verif.Index.Ordered
import Verif.Index.OrderedProps
import Verif.Index.Props
import Verif.Index.Tensor
import Verif.Index.TensorLemmas
import Verif.Index.TensorProps
import Verif.Like.Clm
import Verif.Like.ClmBoot
import Verif.Like.ClmBootProps
import Verif.Like.ClmPredProps
import Verif.Like.ClmProps
import Verif.Like.InfluenceProps
import Verif.Like.Info
import Verif.Like.InfoProps
import Verif.Like.Lane
import Verif.Like.LaneProps
import Verif.Like.Leverage
import Verif.Like.LeverageProps
import Verif.Like.OldClm
import Verif.Like.OldClmPredProps
import Verif.Like.OldClmProps
import Verif.Like.OldOls
import Verif.Like.OldOlsProps
import Verif.Like.Ols
import Verif.Like.OlsProps
import Verif.Like.Output
import Verif.Like.OutputProps
import Verif.Like.Profile
import Verif.Like.ProfileProps
import Verif.Like.Tests
import Verif.Like.TestsProps
import Verif.Like.ZinbProps
import Verif.Like.Zinf
import Verif.Like.ZipProps
import Verif.Lin.Ar1
import Verif.Lin.Ar1Props
import Verif.Lin.Chol
import Verif.Lin.CholProps
import Verif.Lin.Dchol
import Verif.Lin.DcholLin
import Verif.Lin.DcholPath
import Verif.Lin.DcholProps
import Verif.Lin.Vander
import Verif.Lin.VanderProps
import Verif.Lmm.EffProps
import Verif.Lmm.Formula
import Verif.Lmm.FormulaProps
import Verif.Lmm.GradProps
import Verif.Lmm.Icc
import Verif.Lmm.IccProps
import Verif.Lmm.Infer
import Verif.Lmm.InferProps
import Verif.Lmm.Layout
import Verif.Lmm.LayoutProps
import Verif.Lmm.Lemmas
import Verif.Lmm.LikeProps
import Verif.Lmm.Lm
import Verif.Lmm.LmChol
import Verif.Lmm.LmCholProps
import Verif.Lmm.LmEffProps
import Verif.Lmm.LmGradProps
import Verif.Lmm.LmInfer
import Verif.Lmm.LmInferProps
import Verif.Lmm.LmLemmas
import Verif.Lmm.LmLikeProps
import Verif.Lmm.LndetChol
import Verif.Lmm.LndetCholProps
import Verif.Lmm.Mlmm
import Verif.Lmm.MlmmExProps
import Verif.Lmm.MlmmLayProps
import Verif.Lmm.MlmmLemmas
import Verif.Lmm.MlmmProps
import Verif.Lmm.Model
import Verif.Lmm.OldProfile
import Verif.Lmm.OldProfileProps
import Verif.Lmm.Prf
import Verif.Lmm.PrfProps
import Verif.Lmm.Profile
import Verif.Lmm.ProfileFit
import Verif.Lmm.ProfileFitProps
import Verif.Lmm.ProfileProps
import Verif.Lmm.ReDesign
import Verif.Lmm.ReDesignProps
import Verif.Lmm.ReTables
import Verif.Lmm.ReTablesProps
import Verif.Lmm.ReTerms
import Verif.Lmm.ReTermsProps
import Verif.Lmm.ReparamProps
import Verif.Lmm.ResidTrace
import Verif.Lmm.ResidTraceProps
import Verif.Lv.Acov
import Verif.Lv.AcovProps
import Verif.Lv.Binorm
import Verif.Lv.BinormEdgeProps
import Verif.Lv.BinormLemmas
import Verif.Lv.BinormProps
import Verif.Lv.NewtonProps
import Verif.Lv.Old
import Verif.Lv.OldProps
import Verif.Lv.Polychor
import Verif.Lv.PolychorDeriv
import Verif.Lv.PolychorLemmas
import Verif.Lv.PolychorProps
import Verif.Lv.Sample
import Verif.Lv.SampleProps
import Verif.Lv.Serial
import Verif.Lv.SerialProps
import Verif.Lv.Sim
import Verif.Lv.SimProps
import Verif.Mcmc.GibbsProps
import Verif.Mcmc.LvarProps
import Verif.Mcmc.Model
import Verif.Mcmc.ResultProps
import Verif.Misc.CheckLemmas
import Verif.Misc.Derivs
import Verif.Misc.Expr
import Verif.Misc.ExprLemmas
import Verif.Misc.MomentLemmas
import Verif.Misc.Sad
import Verif.Misc.SadProps
import Verif.Misc.Sash
import Verif.Misc.SashProps
import Verif.Misc.SashSetupLemmas
import Verif.Misc.Shash
import Verif.Misc.ShashBaseLemmas
import Verif.Misc.ShashDist
import Verif.Misc.ShashDistLemmas
import Verif.Misc.ShashDistProps
import Verif.Misc.ShashLemmas
import Verif.Misc.ShashProps
import Verif.Misc.ShashSetupLemmas
import Verif.Misc.ShashSpec
import Verif.Misc.Shashr
import Verif.Misc.ShashrProps
import Verif.Misc.ShashrSetupLemmas
import Verif.Misc.SkewDist
import Verif.Misc.SkewLemmas
import Verif.Misc.SkewMomentLemmas
import Verif.Misc.SkewMomentProps
import Verif.Misc.SkewNorm
import Verif.Misc.SkewProps
import Verif.Misc.SymLemmas
import Verif.Mv.Cca
import Verif.Mv.CcaProps
import Verif.Mv.Ica
import Verif.Mv.IcaProps
import Verif.Mv.Mvols
import Verif.Mv.MvolsAssocProps
import Verif.Mv.MvolsFitProps
import Verif.Mv.MvolsProps
import Verif.Mv.MvolsTest
import Verif.Mv.MvolsTestProps
import Verif.Mv.Scca
import Verif.Mv.SccaCv
import Verif.Mv.SccaCvProps
import Verif.Mv.SccaProps
import Verif.Mv.SccaResample
import Verif.Mv.SccaResampleProps
import Verif.Mv.SccaStepProps
import Verif.Mv.SvdLemmas
import Verif.Nd.DiffProps
import Verif.Nd.Model
import Verif.Nd.RichProps
import Verif.Nd.WeightLemmas
import Verif.Nd.WeightProps
import Verif.Nmf.Model
import Verif.Nmf.Props
import Verif.Np.Basic
import Verif.Np.Lemmas
import Verif.Np.Xcorr
import Verif.Np.XcorrProps
import Verif.Opt.Lemmas
import Verif.Opt.Model
import Verif.Opt.Props
import Verif.Rand.Corr
import Verif.Rand.CorrProps
import Verif.Rand.Lkj
import Verif.Rand.LkjProps
import Verif.Rand.Mvn
import Verif.Rand.MvnProps
import Verif.Rand.Trunc
import Verif.Rand.TruncProps
import Verif.Rank.Lemmas
import Verif.Rank.Model
import Verif.Rank.Props
import Verif.Rank.RavelLemmas
import Verif.Rank.UniqueLemmas
import Verif.Reg.Beta
import Verif.Reg.BetaProps
import Verif.Reg.ModelData
import Verif.Reg.ModelDataProps
import Verif.Reg.Nb2
import Verif.Reg.Nb2Lemmas
import Verif.Reg.Nb2Props
import Verif.Reg.Rlm
import Verif.Reg.RlmProps
import Verif.Reg.TermTests
import Verif.Reg.TermTestsProps
import Verif.Reg.Two
import Verif.Reg.TwoLemmas
import Verif.Reg.Zip
import Verif.Reg.ZipProps
import Verif.Robust.Disp
import Verif.Robust.DispLemmas
import Verif.Robust.DispProps
import Verif.Robust.FastS
import Verif.Robust.FastSProps
import Verif.Robust.MedNd
import Verif.Robust.MedNdProps
import Verif.Robust.Model
import Verif.Robust.NormalProps
import Verif.Robust.Props
import Verif.Robust.ScaleProps
import Verif.Robust.Simul
import Verif.Robust.SimulProps
import Verif.Sem.AltGrad
import Verif.Sem.AltGradProps
import Verif.Sem.Builder
import Verif.Sem.BuilderFixProps
import Verif.Sem.BuilderLemmas
import Verif.Sem.BuilderProps
import Verif.Sem.CovTemplate
import Verif.Sem.CovTemplateProps
import Verif.Sem.Data
import Verif.Sem.DataProps
import Verif.Sem.Fit
import Verif.Sem.FitProps
import Verif.Sem.FitRun
import Verif.Sem.FitRunProps
import Verif.Sem.Flat
import Verif.Sem.FlatProps
import Verif.Sem.Formula
import Verif.Sem.FormulaLemmas
import Verif.Sem.FormulaProps
import Verif.Sem.FormulaSpec
import Verif.Sem.Labels
import Verif.Sem.LabelsProps
import Verif.Sem.LikeProps
import Verif.Sem.Moments
import Verif.Sem.MomentsProps
import Verif.Sem.OldData
import Verif.Sem.OldDataProps
import Verif.Sem.OldDefaults
import Verif.Sem.OldDefaultsProps
import Verif.Sem.OldFlat
import Verif.Sem.OldFlatProps
import Verif.Sem.OldMats
import Verif.Sem.OldMatsProps
import Verif.Sem.OldSem
import Verif.Sem.OldSemFit
import Verif.Sem.OldSemFitProps
import Verif.Sem.OldSemProps
import Verif.Sem.OldSemSetup
import Verif.Sem.OldSemSetupProps
import Verif.Sem.OldTable
import Verif.Sem.OldTableProps
import Verif.Sem.OldTemplate
import Verif.Sem.OldTemplateProps
import Verif.Sem.Params
import Verif.Sem.ParamsProps
import Verif.Sem.Share
import Verif.Sem.ShareProps
import Verif.Sem.SortKey
import Verif.Sem.SortKeyProps
import Verif.Sem.Table
import Verif.Sem.TableLemmas
import Verif.Sem.TableProps
import Verif.Sim.Cca
import Verif.Sim.CcaProps
import Verif.Sim.Factor
import Verif.Sim.FactorProps
import Verif.Sim.Linear
import Verif.Sim.LinearProps
import Verif.Sim.Mixed
import Verif.Sim.MixedGroupProps
import Verif.Sim.MixedProps
import Verif.Sim.Mmr
import Verif.Sim.MmrProps
import Verif.Sim.Population
import Verif.Sim.PopulationProps
import Verif.Sim.SemSim
import Verif.Sim.SemSimProps
import Verif.Sim.TermCoefs
import Verif.Sim.TermCoefsProps
import Verif.Sparse.AddLemmas
import Verif.Sparse.BuildLemmas
import Verif.Sparse.CooLemmas
import Verif.Sparse.DotLemmas
import Verif.Sparse.KronLemmas
import Verif.Sparse.MatmulLemmas
import Verif.Sparse.Model
import Verif.Sparse.Props
import Verif.Spl.Bspl
import Verif.Spl.BsplProps
import Verif.Spl.Cubic
import Verif.Spl.CubicProps
import Verif.Spl.CyclicProps
import Verif.Spl.EnergyLemmas
import Verif.Spl.KnotProps
import Verif.Spl.PieceLemmas
import Verif.Transf.CholCov
import Verif.Transf.CholCovFull
import Verif.Transf.CholCovFullProps
import Verif.Transf.CholCovLemmas
import Verif.Transf.CholCovProps
import Verif.Transf.Compose
import Verif.Transf.ComposeLemmas
import Verif.Transf.ComposeProps
import Verif.Transf.CorrChol
import Verif.Transf.CorrCholDeriv
import Verif.Transf.CorrCholDerivProps
import Verif.Transf.CovCorr
import Verif.Transf.CovCorrLemmas
import Verif.Transf.CovCorrProps
import Verif.Transf.Jac
import Verif.Transf.Ordered
import Verif.Transf.OrderedProps
import Verif.Transf.RowNorm
import Verif.Transf.RowNormProps
import Verif.Transf.Uchol
import Verif.Transf.UcholDerivProps
import Verif.Transf.UcholLemmas
import Verif.Transf.UcholProps
import Verif.Vec.Apply
import Verif.Vec.ApplyProps
import Verif.Vec.Jax
import Verif.Vec.JaxProps
import Verif.Vec.Lemmas
import Verif.Vec.Lemmas2
import Verif.Vec.MaskLemmas
import Verif.Vec.Model
import Verif.Vec.Props
import Verif.Vec.SpecialLemmas
import Verif.Axioms
