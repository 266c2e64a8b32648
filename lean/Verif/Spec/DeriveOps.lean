import Verif.Model.DeriveOps
/-!
# Operators with `#[derive(Contains)]`
-/

namespace Aegir.DeriveOps

/-- The attribute is `#[op]` (with or without arguments). -/
def IsOp (a : CtxParse.Attribute) : Prop := a.path = ⟨false, ["op"]⟩

/-- Exactly one attribute of the field is `#[op]`. -/
def Marked (f : Field) : Prop :=
  ∃ l a r, f.attrs = l ++ a :: r ∧ IsOp a ∧ ∀ b ∈ l ++ r, ¬ IsOp b

/-- The fields of the struct. -/
def Data.fields : Data → List Field
  | .named fs | .unnamed fs => fs
  | .unit | .other => []

/-- `self.acc` is the field at position `k`. -/
def Selects : Data → Accessor → Nat → Prop
  | .named fs, .name (some s), k => ∃ f, fs[k]? = some f ∧ f.name = some s
  | .unnamed fs, .index i, k => i = k ∧ k < fs.length
  | _, _, _ => False

/-- Named fields have distinct names; required by Rust (E0124). -/
def Data.Valid : Data → Prop
  | .named fs => (∀ f ∈ fs, f.name ≠ none) ∧ (fs.map (·.name)).Nodup
  | _ => True

end Aegir.DeriveOps
