import Verif.Spec.Program
import Mathlib.Algebra.BigOperators.Group.Finset.Basic
/-!
# Programs with vectors

As in `Spec/Program`, but variables may be vectors of a common length, which can be added, subtracted,
negated and multiplied with each other to give numbers.
-/

namespace Aegir.Compile

open scoped BigOperators

/-- Values of the variables; each is a number or a vector. -/
structure VPoint where
  /-- numbers -/
  num : Id → ℝ
  /-- entries of vectors -/
  vec : Id → ℕ → ℝ

/-- The point with another value of the number `t`. -/
def VPoint.setNum (p : VPoint) (t : Id) (s : ℝ) : VPoint :=
  { p with num := fun i => if i = t then s else p.num i }

/-- The point with another value of entry `k` of the vector `t`. -/
def VPoint.setVec (p : VPoint) (t : Id) (k : ℕ) (s : ℝ) : VPoint :=
  { p with vec := fun i j => if i = t ∧ j = k then s else p.vec i j }

/-- What an expression with vectors means: a number, with the points at which no power is `0 ^ 0` (the
code takes it to be `0` when the base is a compressed zero, C19) and the points at which it may be
differentiated, or a vector. -/
inductive VMeaning
  | num (fn : VPoint → ℝ) (ok dom : VPoint → Prop)
  | vec (fn : VPoint → ℕ → ℝ)

/-- What a source expression means when vectors have length `N`, names have the meanings `ρ` and
numerals the values `num`. -/
inductive ComputesV (N : ℕ) (num : String → ℝ) (ρ : String → Option VMeaning) : Expr → VMeaning → Prop
  | path {p m} : ρ p = some m → ComputesV N num ρ (.path p) m
  | paren {e m} : ComputesV N num ρ e m → ComputesV N num ρ (.paren e) m
  -- vectors
  | addV {l r f g} : ComputesV N num ρ l (.vec f) → ComputesV N num ρ r (.vec g) →
      ComputesV N num ρ (.binary .add l r) (.vec fun p k => f p k + g p k)
  | subV {l r f g} : ComputesV N num ρ l (.vec f) → ComputesV N num ρ r (.vec g) →
      ComputesV N num ρ (.binary .sub l r) (.vec fun p k => f p k - g p k)
  | negV {e f} : ComputesV N num ρ e (.vec f) →
      ComputesV N num ρ (.methodCall e "neg" []) (.vec fun p k => -f p k)
  | dot {l r f g} : ComputesV N num ρ l (.vec f) → ComputesV N num ρ r (.vec g) →
      ComputesV N num ρ (.methodCall l "dot" [r])
        (.num (fun p => ∑ k ∈ Finset.range N, f p k * g p k) (fun _ => True) fun _ => True)
  -- numbers
  | float (t) : ComputesV N num ρ (.lit (.float t)) (.num (fun _ => num t) (fun _ => True) fun _ => True)
  | add {l r f g A B D E} : ComputesV N num ρ l (.num f A D) → ComputesV N num ρ r (.num g B E) →
      ComputesV N num ρ (.binary .add l r)
        (.num (fun p => f p + g p) (fun p => A p ∧ B p) fun p => D p ∧ E p)
  | sub {l r f g A B D E} : ComputesV N num ρ l (.num f A D) → ComputesV N num ρ r (.num g B E) →
      ComputesV N num ρ (.binary .sub l r)
        (.num (fun p => f p - g p) (fun p => A p ∧ B p) fun p => D p ∧ E p)
  | mul {l r f g A B D E} : ComputesV N num ρ l (.num f A D) → ComputesV N num ρ r (.num g B E) →
      ComputesV N num ρ (.binary .mul l r)
        (.num (fun p => f p * g p) (fun p => A p ∧ B p) fun p => D p ∧ E p)
  | square {l r f A D} : ComputesV N num ρ l (.num f A D) → IsTwo r →
      ComputesV N num ρ (.binary .bitXor l r) (.num (fun p => f p ^ 2) A D)
  /-- a power with a positive base -/
  | pow {l r f g A B D E} : ComputesV N num ρ l (.num f A D) → ComputesV N num ρ r (.num g B E) →
      ComputesV N num ρ (.binary .bitXor l r)
        (.num (fun p => f p ^ g p) (fun p => A p ∧ B p ∧ (f p ≠ 0 ∨ g p ≠ 0))
          fun p => D p ∧ E p ∧ 0 < f p)
  /-- a power with a positive whole number as exponent -/
  | natPow {l t f A D} {n : ℕ} : ComputesV N num ρ l (.num f A D) → num t = n → 1 ≤ n →
      ComputesV N num ρ (.binary .bitXor l (.lit (.float t)))
        (.num (fun p => f p ^ n) A fun p => D p ∧ (f p ≠ 0 ∨ 2 ≤ n))
  | abs {e f A D} : ComputesV N num ρ e (.num f A D) →
      ComputesV N num ρ (.methodCall e "abs" []) (.num (fun p => |f p|) A fun p => D p ∧ f p ≠ 0)
  | neg {e f A D} : ComputesV N num ρ e (.num f A D) →
      ComputesV N num ρ (.methodCall e "neg" []) (.num (fun p => -f p) A D)
  | ln {e f A D} : ComputesV N num ρ e (.num f A D) →
      ComputesV N num ρ (.methodCall e "ln" [])
        (.num (fun p => Real.log (f p)) A fun p => D p ∧ 0 < f p)
  | squared {e f A D} : ComputesV N num ρ e (.num f A D) →
      ComputesV N num ρ (.methodCall e "squared" []) (.num (fun p => f p ^ 2) A D)
  | sigmoid {e f A D} : ComputesV N num ρ e (.num f A D) →
      ComputesV N num ρ (.methodCall e "sigmoid" [])
        (.num (fun p => 1 / (1 + Real.exp (-f p))) A D)
  | sum {e f A D} : ComputesV N num ρ e (.num f A D) →
      ComputesV N num ρ (.methodCall e "sum" []) (.num f A D)
  | div {l r f g A B D E} : ComputesV N num ρ l (.num f A D) → ComputesV N num ρ r (.num g B E) →
      ComputesV N num ρ (.methodCall l "div" [r])
        (.num (fun p => f p / g p) (fun p => A p ∧ B p) fun p => D p ∧ E p ∧ g p ≠ 0)

/-- What names mean after a sequence of bindings. -/
inductive BindsV (N : ℕ) (num : String → ℝ) :
    (String → Option VMeaning) → List (String × Expr) → (String → Option VMeaning) → Prop
  | nil (ρ) : BindsV N num ρ [] ρ
  | cons {ρ ρ' p e m bs} : ComputesV N num ρ e m →
      BindsV N num (fun q => if q = p then some m else ρ q) bs ρ' → BindsV N num ρ ((p, e) :: bs) ρ'

/-- The buffer type of a variable: a vector or a number. -/
def kindTy (N : ℕ) : Bool → BTy
  | true => .array [N]
  | false => .scalar

/-- Its value. -/
def kindBuf (N : ℕ) (p : VPoint) (i : Id) : (k : Bool) → Buf ℝ (kindTy N k)
  | true => Buf.build (.array [N]) () fun ix => p.vec i (ix.headD 0)
  | false => p.num i

/-- The context that holds the point `p`, when the variables in `K` are vectors. -/
def vpointCtx (N : ℕ) (K : Id → Bool) (p : VPoint) : Ctx ℝ (fun i => kindTy N (K i)) :=
  fun i => some (kindBuf N p i (K i))

/-- The meaning of names that stand for variables. -/
def vcoords (K : Id → Bool) (names : String → Option Id) : String → Option VMeaning :=
  fun q => (names q).map fun i =>
    if K i then .vec fun p => p.vec i
    else .num (fun p => p.num i) (fun _ => True) fun _ => True

end Aegir.Compile
