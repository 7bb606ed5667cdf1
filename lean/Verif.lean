import Verif.Py
import Verif.Model.Format
import Verif.Model.Edit
import Verif.Model.Weight
import Verif.Model.Similarity
import Verif.Model.Window
import Verif.Model.ML
import Verif.Model.Compute
import Verif.Model.Agreement
import Verif.Model.Data
import Verif.Model.Rounding
import Verif.Model.Rounded
import Verif.Tests.Vectors
import Verif.Tests.Samples
import Verif.Props.Format
import Verif.Props.Edit
import Verif.Props.Similarity
import Verif.Props.Window
import Verif.Props.WindowMetrics
import Verif.Props.ML
import Verif.Props.Compute
import Verif.Props.Agreement
import Verif.Props.AgreementRange
import Verif.Props.Data
import Verif.Props.DataFiles
import Verif.Props.DataFolders
import Verif.Props.Formula
import Verif.Props.Greedy
import Verif.Props.Symmetries
import Verif.Props.Rounding
import Verif.Props.RoundedMean
import Verif.Props.RoundedAgreement
import Verif.Props.Locality
import Verif.Props.Bound
import Verif.Props.Pipeline
import Verif.Props.Weights
import Verif.Props.DatasetFormat
import Verif.Model.Text
import Verif.Spec.Text
import Verif.Lemmas.Text
import Verif.Lemmas.Csv
import Verif.Props.Constructor
import Verif.Props.TsvText
import Verif.Props.FileNames
import Verif.Spec.Folders
import Verif.Lemmas.FoldersExact
import Verif.Props.FoldersExact
import Verif.Props.FolderText
import Verif.Model.JsonText
import Verif.Spec.JsonText
import Verif.Lemmas.JsonString
import Verif.Lemmas.JsonNumber
import Verif.Lemmas.JsonParse
import Verif.Lemmas.JsonLines
import Verif.Lemmas.JsonDump
import Verif.Lemmas.JsonCanonical
import Verif.Lemmas.JsonLoad
import Verif.Props.JsonText
import Verif.Model.JsonWide
import Verif.Spec.JsonWide
import Verif.Lemmas.JsonWide
import Verif.Props.JsonWide
import Verif.Props.JsonFolder
import Verif.Lemmas.AgreementRepeat
import Verif.Lemmas.Rearranged
import Verif.Props.AgreementOrder
import Verif.Props.Rearranged
import Verif.Spec.SaveLoad
import Verif.Lemmas.SaveLoad
import Verif.Props.SaveLoad
import Verif.Model.Package
import Verif.Spec.Package
import Verif.Lemmas.Package
import Verif.Props.Package
import Verif.Lemmas.AgreementS
import Verif.Props.AgreementS
import Verif.Model.Keys
import Verif.Spec.Names
import Verif.Lemmas.Names
import Verif.Lemmas.JsonWrite
import Verif.Props.Names
import Verif.Model.AnyArgs
import Verif.Spec.AnyArgs
import Verif.Lemmas.AnyArgs
import Verif.Props.AnyArgs
import Verif.Spec.NearMiss
import Verif.Lemmas.NearMiss
import Verif.Props.NearMiss
import Verif.Model.MatrixHeap
import Verif.Spec.MatrixHeap
import Verif.Lemmas.MatrixHeap
import Verif.Props.MatrixHeap
import Verif.Spec.Relabel
import Verif.Lemmas.Relabel
import Verif.Props.Relabel
import Verif.Spec.Wider
import Verif.Lemmas.Wider
import Verif.Props.Wider
import Verif.Props.Distance
import Verif.Lemmas.AgreementJoin
import Verif.Props.AgreementJoin
import Verif.Spec.Preferred
import Verif.Lemmas.Preferred
import Verif.Lemmas.Mirror
import Verif.Props.Mirror
import Verif.Spec.Transpose
import Verif.Lemmas.Transpose
import Verif.Props.Exchange
import Verif.Lemmas.MatrixTotals
import Verif.Props.Dice
import Verif.Model.RoundedML
import Verif.Spec.RoundedML
import Verif.Lemmas.RoundedML
import Verif.Lemmas.RoundedBed
import Verif.Props.RoundedML
import Verif.Model.MLState
import Verif.Spec.MLState
import Verif.Lemmas.MLState
import Verif.Lemmas.MLDict
import Verif.Props.MatrixErrors
import Verif.Lemmas.RoundedMLError
import Verif.Props.RoundedMLError
import Verif.Lemmas.WindowCost
import Verif.Props.WindowCost
import Verif.Props.DatasetWindow
import Verif.Lemmas.OneBoundary
import Verif.Lemmas.OneBoundarySteps
import Verif.Props.OneBoundary
import Verif.Lemmas.Joined
import Verif.Props.Joined
import Verif.Props.Nested
import Verif.Lemmas.Framed
import Verif.Props.Framed
import Verif.Spec.AgreementStep
import Verif.Lemmas.AgreementStep
import Verif.Props.AgreementStep
import Verif.Spec.Documented
import Verif.Props.Documented
import Verif.Spec.Chance
import Verif.Lemmas.Chance
import Verif.Props.Chance
import Verif.Props.TwoFormats
import Verif.Spec.CoderPairs
import Verif.Lemmas.CoderPairs
import Verif.Props.CoderPairs
import Verif.Props.AgreementOrderS
import Verif.Model.Keywords
import Verif.Spec.Keywords
import Verif.Lemmas.Keywords
import Verif.Props.Keywords
import Verif.Model.DatasetCopy
import Verif.Props.DatasetCopy
import Verif.Model.DatasetPair
import Verif.Props.DatasetPair
import Verif.Spec.Finer
import Verif.Lemmas.Finer
import Verif.Props.Finer
import Verif.Lemmas.FinerEdits
import Verif.Props.FinerScaled
import Verif.Spec.FinerAgreement
import Verif.Props.FinerAgreement
import Verif.Props.FinerMatrix
import Verif.Props.FinerBias
import Verif.Model.Enum
import Verif.Props.Enum
import Verif.Model.Files
import Verif.Props.Files
import Verif.Spec.Copies
import Verif.Props.Copies
import Verif.Props.CopiesKappa
import Verif.Props.CopiesSimilarity
