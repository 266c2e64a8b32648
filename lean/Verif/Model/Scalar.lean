/-!
# Scalars

Rust: `Scalar` (`aegir/src/buffers/scalars.rs` L36-39) is `Copy + num_traits::Num + ..`; the
operators additionally ask for `num_traits::{real::Real, Float, Pow, FromPrimitive}` and
`special_fun::FloatSpecial`.

The arithmetic operators (`+ - * / neg 0 1`) are taken from the usual Lean operator classes, so
that a theorem can ask for exactly the algebraic laws it needs (none, a commutative ring, `ℝ`).
The remaining primitive operations of the Rust traits are collected in `ScalarFns`, without laws.
-/

namespace Aegir

/-- Primitive scalar functions used by aegir that are not arithmetic operators.
Sources: `num_traits::Zero::is_zero`, `PartialEq`/`PartialOrd` of the primitive types,
`num_traits::FromPrimitive::from_usize`, `num_traits::Pow`, `num_traits::real::Real`,
`num_traits::Float::infinity`, `special_fun::FloatSpecial`. No laws are assumed.
(Use sites: `ops/arithmetic/{unary,binary}.rs`, `ops/logarithmic.rs`, `ops/sigmoid.rs`,
`ops/special.rs`, `ops/trig.rs`, `buffers/arrays/contraction_ops.rs`.)
Simplification: one class for all functions, although Rust integers only offer some of them. -/
class ScalarFns (F : Type) where
  /-- `num_traits::Zero::is_zero` -/
  isZero : F → Bool
  /-- `PartialEq::eq` -/
  eqb : F → F → Bool
  /-- `PartialOrd::le` (`<=`) -/
  leb : F → F → Bool
  /-- `FromPrimitive::from_usize`; `none` when the value does not fit -/
  fromUsize : Nat → Option F
  /-- `Float::infinity()` -/
  infinity : F
  /-- `num_traits::Pow::pow` -/
  pow : F → F → F
  abs : F → F
  signum : F → F
  ln : F → F
  exp : F → F
  cos : F → F
  cosh : F → F
  acos : F → F
  acosh : F → F
  sin : F → F
  sinh : F → F
  asin : F → F
  asinh : F → F
  tan : F → F
  tanh : F → F
  atan : F → F
  atanh : F → F
  gamma : F → F
  digamma : F → F
  loggamma : F → F
  erf : F → F

end Aegir
