import Verif.Props.C01_Iteration
import Verif.Props.C02_Range
import Verif.Props.C03_Subtract
import Verif.Props.C04_Merge
import Verif.Props.C05_Orders
import Verif.Props.C06_BoxEqPoint
import Verif.Props.C07_History
import Verif.Props.C08_Disjoint
import Verif.Props.C09_FromRanges
import Verif.Props.C100_IdaJacobian
import Verif.Props.C101_IdaReplacement
import Verif.Props.C102_EquationAccesses
import Verif.Props.C103_AccessPaths
import Verif.Props.C104_Sparsity
import Verif.Props.C105_RoundTrip
import Verif.Props.C106_DerivativesMap
import Verif.Props.C107_Schedulers
import Verif.Props.C108_MatchingPass
import Verif.Props.C109_MatchedAccesses
import Verif.Props.C10_Queries
import Verif.Props.C110_SCCDetection
import Verif.Props.C111_Metadata
import Verif.Props.C112_IndexReduction
import Verif.Props.C113_FunctionNames
import Verif.Props.C114_RecordInlining
import Verif.Props.C115_ArrayMemory
import Verif.Props.C116_ComponentReads
import Verif.Props.C117_CallArguments
import Verif.Props.C118_ExternalCalls
import Verif.Props.C119_ExternalLowering
import Verif.Props.C11_Algebra
import Verif.Props.C11_Difference
import Verif.Props.C120_RawVariables
import Verif.Props.C121_DeclParser
import Verif.Props.C122_EqParser
import Verif.Props.C123_StmtParser
import Verif.Props.C12_Projections
import Verif.Props.C13_Compact
import Verif.Props.C14_Equality
import Verif.Props.C15_TreeSearch
import Verif.Props.C16_TreeInsert
import Verif.Props.C17_BulkLoad
import Verif.Props.C18_Remove
import Verif.Props.C19_DimensionAccess
import Verif.Props.C20_Combine
import Verif.Props.C21_Inverse
import Verif.Props.C22_Image
import Verif.Props.C23_InverseMap
import Verif.Props.C24_SetUnset
import Verif.Props.C25_Apply
import Verif.Props.C26_MatrixOps
import Verif.Props.C26_Points
import Verif.Props.C27_LocalMatching
import Verif.Props.C27_Several
import Verif.Props.C28_Matchable
import Verif.Props.C29_ApplyPath
import Verif.Props.C30_Match
import Verif.Props.C31_Filter
import Verif.Props.C32_ArrayGraph
import Verif.Props.C33_ScalarGraph
import Verif.Props.C34_Schedule
import Verif.Props.C35_Directions
import Verif.Props.C36_MergeDirections
import Verif.Props.C37_Components
import Verif.Props.C38_Mutual
import Verif.Props.C39_Pantelides
import Verif.Props.C40_FilterRoundTrip
import Verif.Props.C41_Visibility
import Verif.Props.C42_FilterBounds
import Verif.Props.C43_Comments
import Verif.Props.C44_Numbers
import Verif.Props.C45_Parallelize
import Verif.Props.C46_Paths
import Verif.Props.C47_Explicitate
import Verif.Props.C48_Derivative
import Verif.Props.C49_Hash
import Verif.Props.C50_CombineRanges
import Verif.Props.C51_GenericMap
import Verif.Props.C52_Printable
import Verif.Props.C53_BoxQueries
import Verif.Props.C54_Converse
import Verif.Props.C55_ExprSound
import Verif.Props.C56_ExprComplete
import Verif.Props.C57_ExprTotal
import Verif.Props.C58_OperationLowering
import Verif.Props.C59_ForStatements
import Verif.Props.C60_Statements
import Verif.Props.C61_ArrayConstructors
import Verif.Props.C62_VectorizedCalls
import Verif.Props.C63_VectorizationLoops
import Verif.Props.C64_ControlFlow
import Verif.Props.C65_Folding
import Verif.Props.C66_Ranges
import Verif.Props.C67_MathFunctions
import Verif.Props.C68_AccessSplit
import Verif.Props.C69_ScalarRanges
import Verif.Props.C70_SingleInductions
import Verif.Props.C71_EquationTemplates
import Verif.Props.C72_Promotion
import Verif.Props.C73_PromotedEquations
import Verif.Props.C74_Pruning
import Verif.Props.C75_Transformation
import Verif.Props.C76_CycleSolving
import Verif.Props.C77_DefaultValues
import Verif.Props.C78_ButcherTableaus
import Verif.Props.C79_RungeKuttaStep
import Verif.Props.C80_RungeKuttaControl
import Verif.Props.C81_EulerForward
import Verif.Props.C82_ViewMerge
import Verif.Props.C83_ViewFolding
import Verif.Props.C84_ViewLowering
import Verif.Props.C85_DerivativesMaterialization
import Verif.Props.C86_DerivativesInitialization
import Verif.Props.C87_CallCSE
import Verif.Props.C88_CallCSEEffect
import Verif.Props.C89_ReadOnlyPropagation
import Verif.Props.C90_StartEquations
import Verif.Props.C91_AlgorithmConversion
import Verif.Props.C92_StartValues
import Verif.Props.C93_FunctionInlining
import Verif.Props.C94_RuntimeChecks
import Verif.Props.C95_EquationFunctions
import Verif.Props.C96_ArrayLowering
import Verif.Props.C97_Distribution
import Verif.Props.C98_FunctionDerivative
import Verif.Props.C99_IdaPartition
