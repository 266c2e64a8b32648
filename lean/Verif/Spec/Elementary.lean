import Verif.Model.Node
import Mathlib.Analysis.SpecialFunctions.Pow.Real
import Mathlib.Analysis.SpecialFunctions.Gamma.Basic
import Mathlib.Analysis.SpecialFunctions.Arsinh
import Mathlib.Analysis.SpecialFunctions.Arcosh
import Mathlib.Analysis.SpecialFunctions.Artanh
import Mathlib.Analysis.SpecialFunctions.Trigonometric.Inverse
import Mathlib.Analysis.SpecialFunctions.Trigonometric.Arctan
/-!
# The elementary functions
-/

namespace Aegir.Spec

/-- `Named op f`: the operator is named after the function `f`. -/
inductive Named : UnOp → (ℝ → ℝ) → Prop
  | ln : Named .ln Real.log
  | exp : Named .exp Real.exp
  | gamma : Named .gamma Real.Gamma
  | digamma : Named .digamma (fun x => deriv Real.Gamma x / Real.Gamma x)
  | logGamma : Named .logGamma (fun x => Real.log (Real.Gamma x))
  | cos : Named .cos Real.cos
  | cosh : Named .cosh Real.cosh
  | acos : Named .acos Real.arccos
  | acosh : Named .acosh Real.arcosh
  | sin : Named .sin Real.sin
  | sinh : Named .sinh Real.sinh
  | asin : Named .asin Real.arcsin
  | asinh : Named .asinh Real.arsinh
  | tan : Named .tan Real.tan
  | tanh : Named .tanh Real.tanh
  | atan : Named .atan Real.arctan
  | atanh : Named .atanh Real.artanh

/-- `Inverse g f s`: on the set `s`, applying the operator `f` and then `g` changes nothing. -/
inductive Inverse : UnOp → UnOp → Set ℝ → Prop
  | ln : Inverse .ln .exp Set.univ
  | exp : Inverse .exp .ln (Set.Ioi 0)
  | sin : Inverse .sin .asin (Set.Icc (-1) 1)
  | asin : Inverse .asin .sin (Set.Icc (-(Real.pi / 2)) (Real.pi / 2))
  | cos : Inverse .cos .acos (Set.Icc (-1) 1)
  | acos : Inverse .acos .cos (Set.Icc 0 Real.pi)
  | tan : Inverse .tan .atan Set.univ
  | atan : Inverse .atan .tan (Set.Ioo (-(Real.pi / 2)) (Real.pi / 2))
  | sinh : Inverse .sinh .asinh Set.univ
  | asinh : Inverse .asinh .sinh Set.univ
  | cosh : Inverse .cosh .acosh (Set.Ici 1)
  | acosh : Inverse .acosh .cosh (Set.Ici 0)
  | tanh : Inverse .tanh .atanh (Set.Ioo (-1) 1)
  | atanh : Inverse .atanh .tanh Set.univ
  | negate : Inverse .negate .negate Set.univ
  | oneSub : Inverse .oneSub .oneSub Set.univ
  | addOne : Inverse .addOne .subOne Set.univ
  | subOne : Inverse .subOne .addOne Set.univ

end Aegir.Spec
