import Verif.Spec.Index
import Verif.Model.Zip
/-!
# Specification of pointwise combination

Only refers to the observations of a buffer: its extents and `get_unchecked`.
-/

namespace Aegir.Spec

variable {F A : Type}

/-- Index at which an operand with extents `ds` is read when the result is read at `ix`: a scalar
is read at its only index, everything else at `ix`. -/
def bIdx (ds : Dims) (ix : Idx) : Idx := if ds = [] then [] else ix

/-- `r` is the pointwise combination of `x` and `y` by `f`, left operand first, scalars broadcast
to every index. -/
def IsZip {a b c : BTy} (x : Buf F a) (y : Buf F b) (f : F → F → A) (r : Buf A c) : Prop :=
  BCast (Buf.dims a x) (Buf.dims b y) (Buf.dims c r) ∧
    ∀ ix, InBounds (Buf.dims c r) ix →
      ∃ u v, Buf.getU a x (bIdx (Buf.dims a x) ix) = some u ∧
        Buf.getU b y (bIdx (Buf.dims b y) ix) = some v ∧ Buf.getU c r ix = some (f u v)

/-- `r` has the entries of `x`, broadcast against extents `es`. -/
def IsBroadcast {a c : BTy} (x : Buf F a) (es : Dims) (r : Buf F c) : Prop :=
  BCast (Buf.dims a x) es (Buf.dims c r) ∧
    ∀ ix, InBounds (Buf.dims c r) ix →
      ∃ u, Buf.getU a x (bIdx (Buf.dims a x) ix) = some u ∧ Buf.getU c r ix = some u

/-- `X` gives the entries of `b`. -/
def Reads {τ : BTy} (b : Buf F τ) (X : Idx → F) : Prop :=
  ∀ ix, InBounds (Buf.dims τ b) ix → Buf.getU τ b ix = some (X ix)

/-- `xs` lists the entries of `b` in row-major order. -/
def IsEntries {τ : BTy} (b : Buf F τ) (xs : List F) : Prop :=
  (Shape.indices (Buf.dims τ b)).map (Buf.getU τ b) = xs.map some

end Aegir.Spec
