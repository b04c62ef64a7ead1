import Verif.Props.Pool
import Verif.Props.Fit
import Verif.Props.Events
import Verif.Props.Reentrant
import Verif.Props.Corpus
import Verif.Props.NumpyFiles
import Verif.Props.NumpyCut
import Verif.Props.MathUtils
import Verif.Props.FastExp
import Verif.Props.Digamma
import Verif.Props.EStep
import Verif.Props.Supervised
import Verif.Props.Semi
import Verif.Props.Absent
import Verif.Props.Likelihood
import Verif.Props.Bound
import Verif.Props.Evidence
import Verif.Props.LineSearch
import Verif.Props.Descent
import Verif.Props.Logistic
import Verif.Props.ClassWeights
import Verif.Props.Topics
import Verif.Props.SupervisedM
import Verif.Props.SecondM
import Verif.Props.MultinomialM
import Verif.Props.Online
import Verif.Props.Schedule
import Verif.Props.Continue
import Verif.Props.OnlineSchedule
import Verif.Props.Decision
import Verif.Props.Builder
import Verif.Props.Sharing
import Verif.Props.Snapshots
import Verif.Props.EpochProgress
import Verif.Props.Apps
import Verif.Props.Entry
import Verif.Lemmas.Symmetry
import Verif.Props.Symmetry
import Verif.Props.Arrival
import Verif.Model.Rounded
import Verif.Model.RoundedSearch
import Verif.Props.Rounded
import Verif.Props.Bitwise
import Verif.Props.SupervisedBound
import Verif.Props.ClassBound
import Verif.Props.Maximise
import Verif.Props.EpochBound
import Verif.Model.Object
import Verif.Props.Object
import Verif.Model.RoundedCorpus
import Verif.Props.RoundedPriors
import Verif.Model.Draws
import Verif.Props.Draws
import Verif.Props.Tolerance
import Verif.Props.NumpyShapes
import Verif.Props.RoundedSearch
import Verif.Props.Convergence
import Verif.Props.Failure
import Verif.Props.Special
import Verif.Props.Oscillate
import Verif.Props.ConvergeSup
import Verif.Props.Passes
import Verif.Props.Classes
import Verif.Props.Renumber
import Verif.Props.Documented
import Verif.Props.Support
import Verif.Props.Races
import Verif.Props.Threads
import Verif.Props.Deadlock
import Verif.Props.Refine
import Verif.Props.Crash
import Verif.Props.Programs
import Verif.Props.Counts
import Verif.Props.Limits
import Verif.Props.LimitsSharp
import Verif.Props.View
import Verif.Props.OverflowScale
import Verif.Props.UnknownFast
import Verif.Props.UnknownPrior
import Verif.Props.RangeNan
import Verif.Props.Primitives
import Verif.Props.Nested
import Verif.Props.Joint
import Verif.Props.Vote
import Verif.Props.SweepOver
import Verif.Props.LabelsSafe
import Verif.Props.ReportsSafe
import Verif.Props.LastingSafe
import Verif.Props.TaughtOver
import Verif.Props.MomentumZero
import Verif.Props.EndingSweep
import Verif.Props.TwinsNum
import Verif.Props.Repeat
import Verif.Props.Frequencies
import Verif.Props.Success
import Verif.Props.Variants
import Verif.Props.Centred
import Verif.Props.RepeatClassifier
import Verif.Props.Gauge
import Verif.Props.Drawn
import Verif.Props.Rise
import Verif.Props.Blank
import Verif.Props.Tower
import Verif.Props.Fade
import Verif.Props.Unseen
import Verif.Props.UnseenOnline
import Verif.Props.UnseenSecond
import Verif.Props.SemiTraining
import Verif.Props.Routed
import Verif.Props.Session
import Verif.Props.WeightBound
import Verif.Props.ChangingCorpora
import Verif.Props.SharedWords
