import Verif.Model.Dual
import Mathlib.Algebra.Polynomial.Derivative
import Mathlib.Algebra.MvPolynomial.PDeriv
/-!
# Programs over dual numbers
-/

namespace Aegir.Spec

/-- Straight-line programs with inputs `ι` over the operators of `Dual` (except products with a plain
value, see C40). -/
inductive Prog (ι F : Type) where
  | input (i : ι)
  | const (v : F)
  | neg (p : Prog ι F)
  | add (p q : Prog ι F)
  | addRef (p q : Prog ι F)
  | addV (p : Prog ι F) (v : F)
  | addRefV (p : Prog ι F) (v : F)
  | sub (p q : Prog ι F)
  | subRef (p q : Prog ι F)
  | subV (p : Prog ι F) (v : F)
  | subRefV (p : Prog ι F) (v : F)
  | mul (p q : Prog ι F)
  | mulRef (p q : Prog ι F)

variable {ι F : Type}

/-- Run the program on dual numbers. -/
def Prog.runDual [CommRing F] (x : ι → Dual F F) : Prog ι F → Dual F F
  | .input i => x i
  | .const v => Dual.constant .scalar v
  | .neg p => (p.runDual x).neg
  | .add p q => (p.runDual x).add (q.runDual x)
  | .addRef p q => (p.runDual x).addRef (q.runDual x)
  | .addV p v => (p.runDual x).addV v
  | .addRefV p v => (p.runDual x).addRefV v
  | .sub p q => (p.runDual x).sub (q.runDual x)
  | .subRef p q => (p.runDual x).subRef (q.runDual x)
  | .subV p v => (p.runDual x).subV v
  | .subRefV p v => (p.runDual x).subRefV v
  | .mul p q => (p.runDual x).mul (q.runDual x)
  | .mulRef p q => (p.runDual x).mulRef (q.runDual x)

/-- The value of the program in a commutative ring over `F`. -/
def Prog.run [CommRing F] {R : Type} [CommRing R] (lift : F → R) (x : ι → R) : Prog ι F → R
  | .input i => x i
  | .const v => lift v
  | .neg p => -p.run lift x
  | .add p q | .addRef p q => p.run lift x + q.run lift x
  | .addV p v | .addRefV p v => p.run lift x + lift v
  | .sub p q | .subRef p q => p.run lift x - q.run lift x
  | .subV p v | .subRefV p v => p.run lift x - lift v
  | .mul p q | .mulRef p q => p.run lift x * q.run lift x

/-- The polynomial that a program with one input denotes. -/
noncomputable def Prog.poly [CommRing F] (p : Prog Unit F) : Polynomial F :=
  p.run Polynomial.C fun _ => Polynomial.X

/-- The polynomial that a program denotes. -/
noncomputable def Prog.mvPoly [CommRing F] (p : Prog ι F) : MvPolynomial ι F :=
  p.run MvPolynomial.C MvPolynomial.X

/-- Programs without inputs. -/
def Prog.Closed : Prog ι F → Prop
  | .input _ => False
  | .const _ => True
  | .neg p | .addV p _ | .addRefV p _ | .subV p _ | .subRefV p _ => p.Closed
  | .add p q | .addRef p q | .sub p q | .subRef p q | .mul p q | .mulRef p q =>
      p.Closed ∧ q.Closed

end Aegir.Spec
