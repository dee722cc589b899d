import Verif.Model.Architecture
import Verif.Model.Basic
import Verif.Model.BatchIterator
import Verif.Model.Convolution
import Verif.Model.Cost
import Verif.Model.DecodeCommand
import Verif.Model.DecodeOutput
import Verif.Model.Decoder
import Verif.Model.Devices
import Verif.Model.Dropout
import Verif.Model.FilePerplexity
import Verif.Model.Flt
import Verif.Model.Gradient
import Verif.Model.InitialValue
import Verif.Model.Interpolation
import Verif.Model.KaldiLattice
import Verif.Model.LanguageModel
import Verif.Model.Lattice
import Verif.Model.LatticeBatch
import Verif.Model.MergeSubwords
import Verif.Model.Network
import Verif.Model.NetworkCreate
import Verif.Model.NetworkDecoder
import Verif.Model.NetworkState
import Verif.Model.NoiseSampling
import Verif.Model.NumParams
import Verif.Model.Optimizer
import Verif.Model.OutputLayer
import Verif.Model.PackageArchitecture
import Verif.Model.Parameters
import Verif.Model.Parsing
import Verif.Model.PrepareBatch
import Verif.Model.Recipes
import Verif.Model.RecurrentState
import Verif.Model.RescoredLattice
import Verif.Model.SamplingTensors
import Verif.Model.Schedule
import Verif.Model.ScoreModel
import Verif.Model.ScoreOutput
import Verif.Model.ScoreText
import Verif.Model.SlfLattice
import Verif.Model.SlfWrite
import Verif.Model.Statistics
import Verif.Model.TestValue
import Verif.Model.TextFile
import Verif.Model.TextSampler
import Verif.Model.TextScorer
import Verif.Model.TrainCommand
import Verif.Model.Trainer
import Verif.Model.TrainerState
import Verif.Model.TrainingCost
import Verif.Model.Vocabulary
import Verif.Model.WordClassEq
import Verif.Model.WordClassFile
import Verif.Model.WordClasses
import Verif.Lemmas.AnyPruning
import Verif.Lemmas.Architecture
import Verif.Lemmas.ArchitectureDescription
import Verif.Lemmas.BatchIterator
import Verif.Lemmas.BeamPruning
import Verif.Lemmas.ClassModel
import Verif.Lemmas.ClassModelMax
import Verif.Lemmas.ClassModelText
import Verif.Lemmas.CreatedEval
import Verif.Lemmas.Decoder
import Verif.Lemmas.DecoderBest
import Verif.Lemmas.DecoderComplete
import Verif.Lemmas.DecoderPath
import Verif.Lemmas.DecoderTrace
import Verif.Lemmas.FilePerplexity
import Verif.Lemmas.KaldiLattice
import Verif.Lemmas.KaldiWrite
import Verif.Lemmas.LanguageModel
import Verif.Lemmas.Lattice
import Verif.Lemmas.LayerAt
import Verif.Lemmas.LayerCreate
import Verif.Lemmas.LayerEquations
import Verif.Lemmas.LoadedVocabulary
import Verif.Lemmas.MergeSubwords
import Verif.Lemmas.Network
import Verif.Lemmas.NetworkBatch
import Verif.Lemmas.NetworkConverse
import Verif.Lemmas.NetworkCreate
import Verif.Lemmas.NetworkDecoder
import Verif.Lemmas.NetworkFuture
import Verif.Lemmas.NetworkPaths
import Verif.Lemmas.NetworkSame
import Verif.Lemmas.NetworkShape
import Verif.Lemmas.NetworkState
import Verif.Lemmas.NetworkStep
import Verif.Lemmas.NetworkTrace
import Verif.Lemmas.NetworkTrained
import Verif.Lemmas.Optimizer
import Verif.Lemmas.OptimizerStep
import Verif.Lemmas.OutputLayer
import Verif.Lemmas.PackageArchitecture
import Verif.Lemmas.Parsing
import Verif.Lemmas.PrepareBatch
import Verif.Lemmas.Recipes
import Verif.Lemmas.RecurrentEquations
import Verif.Lemmas.Rescored
import Verif.Lemmas.RescoredBuild
import Verif.Lemmas.RescoredComplete
import Verif.Lemmas.RescoredFollow
import Verif.Lemmas.RescoredInv
import Verif.Lemmas.RescoredPaths
import Verif.Lemmas.RescoredShape
import Verif.Lemmas.RescoredTotal
import Verif.Lemmas.RescoredWrite
import Verif.Lemmas.ResumeIterator
import Verif.Lemmas.SamplingTensors
import Verif.Lemmas.ScoreBound
import Verif.Lemmas.ScoreBoundLayers
import Verif.Lemmas.ScoreBoundProbs
import Verif.Lemmas.ScoreOutput
import Verif.Lemmas.ScoreText
import Verif.Lemmas.SentenceSum
import Verif.Lemmas.Shuffling
import Verif.Lemmas.SlfLattice
import Verif.Lemmas.SlfRoundTrip
import Verif.Lemmas.SlfVisit
import Verif.Lemmas.SlfWrite
import Verif.Lemmas.Statistics
import Verif.Lemmas.TextSampler
import Verif.Lemmas.TextScorer
import Verif.Lemmas.TokenLimit
import Verif.Lemmas.TokenStep
import Verif.Lemmas.Trainer
import Verif.Lemmas.TrainerMeasured
import Verif.Lemmas.TrainerPasses
import Verif.Lemmas.TrainerResume
import Verif.Lemmas.TrainerResumeWindow
import Verif.Lemmas.TrainerResumed
import Verif.Lemmas.TrainerState
import Verif.Lemmas.TrainerStateFile
import Verif.Lemmas.TrainerStop
import Verif.Lemmas.TrainerWindow
import Verif.Lemmas.VocabBuild
import Verif.Lemmas.VocabConstruct
import Verif.Lemmas.VocabProbs
import Verif.Lemmas.Vocabulary
import Verif.Lemmas.WordClassFile
import Verif.Lemmas.WordClassLoop
import Verif.Lemmas.WordClasses
import Verif.Props.AnyPruning
import Verif.Props.AnyPruningSpec
import Verif.Props.Architecture
import Verif.Props.ArchitectureSpec
import Verif.Props.BatchIterator
import Verif.Props.BeamPruning
import Verif.Props.BeamPruningSpec
import Verif.Props.Blackout
import Verif.Props.BlackoutSpec
import Verif.Props.ClassModel
import Verif.Props.ClassModelSpec
import Verif.Props.CombinedPerplexity
import Verif.Props.Convolution
import Verif.Props.Cost
import Verif.Props.CostSpec
import Verif.Props.CreatedEval
import Verif.Props.DecodeJobs
import Verif.Props.DecodeOutput
import Verif.Props.Decoder
import Verif.Props.DecoderOffset
import Verif.Props.DecoderRecombination
import Verif.Props.DecoderSpec
import Verif.Props.Descent
import Verif.Props.Devices
import Verif.Props.Disconnected
import Verif.Props.Dropout
import Verif.Props.FilePerplexity
import Verif.Props.FilePerplexitySpec
import Verif.Props.InitialModel
import Verif.Props.InitialModelSpec
import Verif.Props.InitialValue
import Verif.Props.Interpolation
import Verif.Props.Kaldi
import Verif.Props.KaldiSpec
import Verif.Props.LanguageModel
import Verif.Props.LanguageModelSpec
import Verif.Props.Lattice
import Verif.Props.LatticeBatch
import Verif.Props.LatticeEquivalence
import Verif.Props.LatticeSpec
import Verif.Props.LayerEquations
import Verif.Props.LayerSpec
import Verif.Props.LineOrder
import Verif.Props.LinearDecoding
import Verif.Props.LinearDecodingSpec
import Verif.Props.LoadedVocabulary
import Verif.Props.LoadedVocabularySpec
import Verif.Props.MergeSubwords
import Verif.Props.MergeSubwordsSpec
import Verif.Props.Network
import Verif.Props.NetworkBestPath
import Verif.Props.NetworkCreate
import Verif.Props.NetworkCreateSpec
import Verif.Props.NetworkDecoder
import Verif.Props.NetworkDecoderSpec
import Verif.Props.NetworkSpec
import Verif.Props.NetworkState
import Verif.Props.NetworkStateSpec
import Verif.Props.NetworkTrained
import Verif.Props.NoiseContrastive
import Verif.Props.NoiseContrastiveSpec
import Verif.Props.NormalClasses
import Verif.Props.NumParams
import Verif.Props.OneWordAtATime
import Verif.Props.Optimizer
import Verif.Props.OptimizerBounds
import Verif.Props.OptimizerSpec
import Verif.Props.Orthogonal
import Verif.Props.OrthogonalSpec
import Verif.Props.OutputLayer
import Verif.Props.PackageArchitecture
import Verif.Props.Parameters
import Verif.Props.Parsing
import Verif.Props.PerplexityAgreement
import Verif.Props.PerplexityEntropy
import Verif.Props.PrepareBatch
import Verif.Props.Recipes
import Verif.Props.RecipesSpec
import Verif.Props.RecurrentState
import Verif.Props.RescoredBest
import Verif.Props.RescoredCompleteness
import Verif.Props.RescoredLattice
import Verif.Props.RescoredOutput
import Verif.Props.RescoredRecombined
import Verif.Props.RescoredScores
import Verif.Props.RescoredSpec
import Verif.Props.SamplerDistribution
import Verif.Props.SamplerDistributionSpec
import Verif.Props.SamplerModel
import Verif.Props.SamplingTensors
import Verif.Props.SamplingTensorsSpec
import Verif.Props.Schedule
import Verif.Props.ScoreBound
import Verif.Props.ScoreBoundSpec
import Verif.Props.ScoreOutput
import Verif.Props.ScoreOutputSpec
import Verif.Props.ScoreParts
import Verif.Props.ScoreText
import Verif.Props.ScoreTextSpec
import Verif.Props.ScoreUnbounded
import Verif.Props.SentenceSum
import Verif.Props.Shuffling
import Verif.Props.Slf
import Verif.Props.SlfBase
import Verif.Props.SlfBaseSpec
import Verif.Props.SlfSpec
import Verif.Props.SlfWrite
import Verif.Props.SlfWriteSpec
import Verif.Props.Statistics
import Verif.Props.TestValue
import Verif.Props.TextFile
import Verif.Props.TextSampler
import Verif.Props.TextScorer
import Verif.Props.TextScorerSpec
import Verif.Props.TokenLimit
import Verif.Props.TrainCommand
import Verif.Props.TrainScore
import Verif.Props.TrainScoreExample
import Verif.Props.TrainScoreExcluded
import Verif.Props.TrainScoreSpec
import Verif.Props.TrainVocabulary
import Verif.Props.Trainer
import Verif.Props.TrainerResume
import Verif.Props.TrainerResumeSpec
import Verif.Props.TrainerSpec
import Verif.Props.TrainerState
import Verif.Props.TrainerStateSpec
import Verif.Props.TrainerValidation
import Verif.Props.TrainingCost
import Verif.Props.TrainingCostSequences
import Verif.Props.UnusedLayers
import Verif.Props.UtteranceTotal
import Verif.Props.Vocabulary
import Verif.Props.VocabularySpec
import Verif.Props.WordClassEq
import Verif.Props.WordClassFile
import Verif.Props.WordClassOrder
import Verif.Props.WordClasses
import Verif.Props.WordClassesSpec
import Verif.Props.WordCountOrder
