import Verif.Model.CtxParse
/-!
# `#[derive(Contains)]` (`aegir_derive/src/ops.rs`)

Syntax trees as in `Verif.Model.CtxParse`. Tokens of the generated impl are kept as their parts: the
generic parameters, the bounds, and the operands of the disjunction. Spans, and the attributes,
visibilities and `where` clause of the struct are left out.
-/

namespace Aegir.DeriveOps

open CtxParse (Path Attribute Ty)

/-- `Error` (`ops.rs` L5-8). -/
inductive Error where
  | parseError
deriving DecidableEq

/-- `syn::Field` (shared with the parser of context structs). -/
abbrev Field := CtxParse.Field

/-- `syn::Data`: structs with named, unnamed and no fields, and enums and unions. -/
inductive Data where
  | named (fields : List Field)
  | unnamed (fields : List Field)
  | unit
  | other

/-- How the generated code selects a field: `self.name` or `self.0`. -/
inductive Accessor where
  | name (s : Option String)
  | index (i : Nat)
deriving DecidableEq

/-- `OpField` (`ops.rs` L31-36); `attributes` is empty (L10-11). -/
structure OpField where
  /-- `ty` -/
  ty : Ty
  /-- `accessor` -/
  accessor : Accessor

/-- `OpAttributes::try_from` (`ops.rs` L16-28). -/
def opAttributes (f : Field) : Res Error Unit :=
  if ((f.attrs.filterMap fun a => a.path.getIdent.filter fun id => id == "op")).length ≠ 1 then
    .err .parseError
  else .ok ()

/-- `Iterator::collect` into `Result<OpFields, _>` (`ops.rs` L63-67, L90, L109): the first error wins.
Fields are mapped with their positions (`enumerate`, L97). -/
def collect (k : Nat → Field → Res Error OpField) : Nat → List Field → Res Error (List OpField)
  | _, [] => .ok []
  | i, f :: fs => (k i f).bind fun o => (collect k (i + 1) fs).map (o :: ·)

/-- `parse_fields_named` (`ops.rs` L79-91). -/
def parseNamed (fields : List Field) : Res Error (List OpField) :=
  collect (fun _ f => (opAttributes f).map fun _ => ⟨f.ty, .name f.name⟩) 0 fields

/-- `parse_fields_unnamed` (`ops.rs` L93-110). -/
def parseUnnamed (fields : List Field) : Res Error (List OpField) :=
  collect (fun i f => (opAttributes f).map fun _ => ⟨f.ty, .index i⟩) 0 fields

/-- `OpFields::try_from` (`ops.rs` L112-119); `todo!()` panics. -/
def opFields : Data → Res Error (List OpField)
  | .named fs => parseNamed fs
  | .unnamed fs => parseUnnamed fs
  | .unit => .panic
  | .other => .panic

/-- `syn::DeriveInput`: the name, the generic parameters and the data. -/
structure Input where
  /-- `ident` -/
  name : String
  /-- `generics.params` -/
  params : List String
  /-- `data` -/
  data : Data

/-- The generated impl (`ops.rs` L149-153). -/
structure Impl where
  /-- parameters of the impl -/
  params : List String
  /-- the types bounded by `::aegir::Contains<I>`, besides the bounds of the struct -/
  bounds : List Ty
  /-- the struct with its own parameters -/
  self : String × List String
  /-- the operands `self._.contains(target)` of the disjunction -/
  predicate : List Accessor

/-- `expand_contains` (`ops.rs` L124-154), `OpFields::extend_generics` (L41-60). -/
def expandContains (ast : Input) : Res Error Impl :=
  (opFields ast.data).unwrap.map fun fs =>
    { params := ast.params ++ ["I"]
      bounds := fs.map (·.ty)
      self := (ast.name, ast.params)
      predicate := fs.map (·.accessor) }

/-- The value of `a || b || ..` (`ops.rs` L137-147), from left to right; the empty disjunction is no
expression. -/
def disjunction : List Bool → Option Bool
  | [] => none
  | [a] => some a
  | a :: b :: rest => if a then some true else disjunction (b :: rest)

end Aegir.DeriveOps
