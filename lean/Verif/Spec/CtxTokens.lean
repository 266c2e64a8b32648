import Verif.Model.CtxTokens
/-!
# How a context is written with `ctx_type!`
-/

namespace Aegir.CtxParse

/-- How a field is written. -/
inductive RawWritten : Raw → List Tok → Prop
  /-- `x: X` -/
  | plain (n i) : RawWritten ⟨none, n, i⟩ [.ident n, .colon, .ident i]
  /-- `cache x: X` -/
  | modified (m n i) : RawWritten ⟨some m, n, i⟩ [.ident m, .ident n, .colon, .ident i]

/-- How a list of fields is written: a comma after each, which may be missing after the last. -/
inductive RawsWritten : List Raw → List Tok → Prop
  | nil : RawsWritten [] []
  | last {r ts} : RawWritten r ts → RawsWritten [r] ts
  | cons {r rs ts ts'} : RawWritten r ts → RawsWritten rs ts' →
      RawsWritten (r :: rs) (ts ++ .comma :: ts')

/-- How a context is written: `Name { fields }`. -/
def StructWritten (name : String) (rs : List Raw) (ts : List Tok) : Prop :=
  ∃ us, RawsWritten rs us ∧ ts = [.ident name, .brace us]

/-- The only modifier is `cache`. -/
def Raw.Valid (r : Raw) : Prop := r.modifier = none ∨ r.modifier = some "cache"

/-- The type parameter of the struct for an identifier. -/
def paramTy (i : String) : Ty := .path false false [.mk ("__" ++ i) .none]

/-- The contents of a field after the struct has been constructed with the value `x`: caches start
empty. -/
def freshCell {F : Type} : (f : Store.Field) → Buf F f.ty → Store.Cell F f
  | ⟨_, true, _⟩, _ => none
  | ⟨_, false, _⟩, x => x

end Aegir.CtxParse
