import Verif.Model.Shape
import Mathlib.Algebra.BigOperators.Group.List.Basic
import Mathlib.Data.List.Forall2
import Mathlib.Order.Basic
import Mathlib.Data.List.Lex
/-!
# Specification of indexing

Independent of the code: which indices a shape has, and in which order.
-/

namespace Aegir.Spec

/-- An index lies in a shape iff it has one component per axis, each below the extent. -/
def InBounds (ds : Dims) (ix : Idx) : Prop := List.Forall₂ (· < ·) ix ds

/-- Strict lexicographic order of indices of a shape (row-major order). -/
def LexLt (a b : Idx) : Prop := List.Lex (· < ·) a b

/-- `l` is *the* row-major enumeration of the indices of `ds`: it contains exactly the in-bounds
indices and is strictly increasing for the lexicographic order. -/
def IsRowMajor (ds : Dims) (l : List Idx) : Prop :=
  (∀ ix, ix ∈ l ↔ InBounds ds ix) ∧ l.Pairwise LexLt

/-- Broadcasting as a relation on dimensions: equal shapes, or a scalar with anything. -/
inductive BCast : Dims → Dims → Dims → Prop
  | same (ds) : BCast ds ds ds
  | left (ds) : BCast [] ds ds
  | right (ds) : BCast ds [] ds

end Aegir.Spec
