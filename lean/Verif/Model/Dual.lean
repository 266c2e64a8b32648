import Verif.Model.Buffer
/-!
# Dual numbers (`aegir/src/dual.rs`)

`variable`, `constant` and `conj` exist for all buffers. The operators need `std::ops` on the
components; of aegir's buffers only scalars have them, so value and adjoint are scalars `F` there
(simplification: one type instead of `V`, `A` and the `Output` types). `Clone` is the identity, and
the impls for `&V` and `&Dual` are modelled separately from the owned ones.
-/

namespace Aegir

/-- `Dual` (`dual.rs` L28-36). -/
structure Dual (V A : Type) where
  /-- `value` -/
  value : V
  /-- `adjoint` -/
  adjoint : A
deriving DecidableEq

namespace Dual
variable {F : Type}

/-- `Dual::variable` (`dual.rs` L40-47). -/
def variable' [One F] (τ : BTy) (b : Buf F τ) : Dual (Buf F τ) (Buf F τ) :=
  ⟨b, Buf.full τ (Buf.shape τ b) 1⟩

/-- `Dual::constant` (`dual.rs` L50-57) and `dual!` with one argument (L10-12). -/
def constant [Zero F] (τ : BTy) (b : Buf F τ) : Dual (Buf F τ) (Buf F τ) :=
  ⟨b, Buf.full τ (Buf.shape τ b) 0⟩

/-- `From<(V, A)>` (`dual.rs` L60-63) and `dual!` with two arguments (L13-18). -/
def ofPair {V A : Type} (p : V × A) : Dual V A := ⟨p.1, p.2⟩

/-- `Dual::map` (`dual.rs` L67-69). -/
def map {V A V' A' : Type} (d : Dual V A) (f : V → A → V' × A') : Dual V' A' :=
  ofPair (f d.value d.adjoint)

/-- `Dual::conj` (`dual.rs` L77-82). -/
def conj [Neg F] {V : Type} (τ : BTy) (d : Dual V (Buf F τ)) : Dual V (Buf F τ) :=
  ⟨d.value, Buf.map τ d.adjoint (fun a => -a)⟩

/-- `Neg for Dual` (`dual.rs` L95). -/
def neg [Neg F] (d : Dual F F) : Dual F F := d.map fun v a => (-v, -a)

/-- `Add<V> for Dual` (`dual.rs` L107-112). -/
def addV [Add F] (d : Dual F F) (rhs : F) : Dual F F := ⟨d.value + rhs, d.adjoint⟩

/-- `Add<&V> for Dual` (`dual.rs` L121-126). -/
def addRefV [Add F] (d : Dual F F) (rhs : F) : Dual F F := ⟨d.value + rhs, d.adjoint⟩

/-- `Add<Dual> for Dual` (`dual.rs` L136-141). -/
def add [Add F] (d rhs : Dual F F) : Dual F F :=
  ⟨d.value + rhs.value, d.adjoint + rhs.adjoint⟩

/-- `Add<&Dual> for Dual` (`dual.rs` L151-156). -/
def addRef [Add F] (d rhs : Dual F F) : Dual F F :=
  ⟨d.value + rhs.value, d.adjoint + rhs.adjoint⟩

/-- `Sub<V> for Dual` (`dual.rs` L168-173). -/
def subV [Sub F] (d : Dual F F) (rhs : F) : Dual F F := ⟨d.value - rhs, d.adjoint⟩

/-- `Sub<&V> for Dual` (`dual.rs` L182-187). -/
def subRefV [Sub F] (d : Dual F F) (rhs : F) : Dual F F := ⟨d.value - rhs, d.adjoint⟩

/-- `Sub<Dual> for Dual` (`dual.rs` L197-202). -/
def sub [Sub F] (d rhs : Dual F F) : Dual F F :=
  ⟨d.value - rhs.value, d.adjoint - rhs.adjoint⟩

/-- `Sub<&Dual> for Dual` (`dual.rs` L212-217). -/
def subRef [Sub F] (d rhs : Dual F F) : Dual F F :=
  ⟨d.value - rhs.value, d.adjoint - rhs.adjoint⟩

/-- `Mul<V> for Dual` (`dual.rs` L229-234); the adjoint is not scaled, as in the source. -/
def mulV [Mul F] (d : Dual F F) (rhs : F) : Dual F F := ⟨d.value * rhs, d.adjoint⟩

/-- `Mul<&V> for Dual` (`dual.rs` L243-248). -/
def mulRefV [Mul F] (d : Dual F F) (rhs : F) : Dual F F := ⟨d.value * rhs, d.adjoint⟩

/-- `Mul<Dual> for Dual` (`dual.rs` L260-265). -/
def mul [Add F] [Mul F] (d rhs : Dual F F) : Dual F F :=
  ⟨d.value * rhs.value, d.adjoint * rhs.value + rhs.adjoint * d.value⟩

/-- `Mul<&Dual> for Dual` (`dual.rs` L277-282). -/
def mulRef [Add F] [Mul F] (d rhs : Dual F F) : Dual F F :=
  ⟨d.value * rhs.value, d.adjoint * rhs.value + d.value * rhs.adjoint⟩

end Dual

end Aegir
