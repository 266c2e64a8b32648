import Verif.Model.CtxParse
/-!
# `ctx!`
-/

namespace Aegir.CtxParse

/-- Rust accepts the struct `Ctx` with these fields and generic parameters, its accessors, and the
struct expression: no two fields have the same name (E0124), no two parameters either (E0403), no two
accessors are for the same identifier (E0119), the expression gives every field exactly once (E0062,
E0063, E0560), and no identifier is hidden by the struct itself. -/
def Accepted {α : Type} (fields : List Field) (generics : List String)
    (impls : List (String × CtxField)) (value : List (String × α)) : Prop :=
  (fields.map (·.name)).Nodup ∧ generics.Nodup ∧ (impls.map (·.1)).Nodup ∧
    (value.map fun p => some p.1).Perm (fields.map (·.name)) ∧ "Ctx" ∉ impls.map (·.1)

end Aegir.CtxParse
