import Verif.Model.Scalar
import Verif.Props.C01_C06_Shapes
import Verif.Props.C02_C04_RuntimeIter
import Verif.Props.C07_C10_Buffers
import Verif.Props.C11_C12_Zip
import Verif.Props.C13_C16_SpecContract
import Verif.Props.C17_C18_Agreement
import Verif.Props.C19_Tensor
import Verif.Props.C20_C22_Errors
import Verif.Props.C23_C27_Contexts
import Verif.Props.C26_Caching
import Verif.Props.C28_C32_Derivatives
import Verif.Props.C33_AbsentTarget
import Verif.Props.C34_C35_Adjoints
import Verif.Props.C36_Repeat
import Verif.Props.C37_C38_Rendering
import Verif.Props.C39_C40_Dual
import Verif.Props.C41_Compile
import Verif.Props.C42_Store
import Verif.Props.C43_CtxParse
import Verif.Props.C44_Ids
import Verif.Props.C45_Special
import Verif.Props.C46_Precedence
import Verif.Props.C47_Elementary
import Verif.Props.C48_Typing
import Verif.Props.C49_DualNodes
import Verif.Props.C50_DeriveContains
import Verif.Props.C51_CtxMacro
import Verif.Props.C52_Substitution
import Verif.Props.C53_LinearExample
import Verif.Props.C54_LogisticExample
import Verif.Props.C55_CachingExample
import Verif.Props.C56_Notation
import Verif.Props.C57_Polynomial
import Verif.Props.C58_Benches
import Verif.Props.C59_Messages
import Verif.Props.C60_Contexts
import Verif.Props.C61_Rounding
import Verif.Props.C62_Scalars
import Verif.Props.C63_Total
import Verif.Props.C64_Symmetric
import Verif.Props.C65_Cost
import Verif.Props.C66_Programs
import Verif.Props.C67_ContextSource
import Verif.Props.C68_Source
import Verif.Props.C69_Abstraction
import Verif.Props.C70_VectorPrograms
import Verif.Props.C71_FormalDerivatives
import Verif.Props.C72_ForwardMode
import Verif.Props.C73_MixedDerivatives
import Verif.Props.C74_Precision
import Verif.Props.C75_LinearConverges
import Verif.Props.C76_LinearFloat
import Verif.Props.C77_Range
import Verif.Props.C78_LinearDouble
import Verif.Props.C79_LogisticLearns
import Verif.Props.C80_LogisticDouble
import Verif.Props.C81_LogisticLikely
import Verif.Props.C82_LinearBenches
import Verif.Props.C83_LogisticBenches
import Verif.Props.C84_LinearLearns
import Verif.Props.C85_ChainRule
import Verif.Props.C86_SignedZeros
import Verif.Props.C87_Unsafe
import Verif.Props.C88_LogisticRare
import Verif.Props.C89_LogisticLearnsDouble
import Verif.Props.C90_Nan
import Verif.Props.C91_Convex
import Verif.Props.C92_Batch
import Verif.Props.C93_Second
import Verif.Props.C94_Changes
import Verif.Props.C95_Laws
import Verif.Props.C96_Hessian
import Verif.Tests.Repo
import Verif.Tests.Cases
import Verif.Audit
