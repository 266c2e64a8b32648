import Verif.Model.CtxParse
import Verif.Model.Store
/-!
# The tokens of `ctx_type!` and the struct they stand for

`ctx_type!(Name { field: Id, cache field: Id })` from its tokens (`aegir_derive/src/ctx/ctx_type.rs`
L55-97) to the struct whose accessors `Verif/Model/Store.lean` describes.
-/

namespace Aegir.CtxParse

/-- Input tokens, as far as `ctx_type.rs` L55-97 tells them apart. Keywords and `_`, which
`syn::Ident` does not accept, are `other`; so are groups in other delimiters. -/
inductive Tok where
  | ident (s : String)
  | colon | comma
  | brace (ts : List Tok)
  | other (s : String)

/-- `CtxFieldRaw::parse` (`ctx_type.rs` L55-79): the field and the remaining tokens; `none` is a syntax
error. A second identifier is the name, and the first then the modifier. -/
def parseRaw : List Tok → Option (Raw × List Tok)
  | .ident m :: .ident n :: .colon :: .ident i :: ts => some (⟨some m, n, i⟩, ts)
  | .ident n :: .colon :: .ident i :: ts => some (⟨none, n, i⟩, ts)
  | _ => none

/-- `parse_terminated` (`ctx_type.rs` L93): fields separated by commas, with or without a last one;
the first argument bounds the number of fields. -/
def parseRaws : Nat → List Tok → Option (List Raw)
  | _, [] => some []
  | 0, _ => none
  | n + 1, ts =>
      match parseRaw ts with
      | some (r, []) => some [r]
      | some (r, .comma :: ts') => (parseRaws n ts').map (r :: ·)
      | _ => none

/-- `Struct` (`ctx_type.rs` L81-84). -/
structure StructDef where
  /-- `ident` -/
  name : String
  /-- `fields` -/
  raws : List Raw

/-- `Struct::parse` (`ctx_type.rs` L86-97), with all tokens to be consumed (`Parser::parse`, L100). A
field has at least three tokens. -/
def parseStruct : List Tok → Option StructDef
  | [.ident n, .brace ts] => (parseRaws ts.length ts).map fun rs => ⟨n, rs⟩
  | _ => none

/-- The struct that `ctx_type!` declares (`ctx_type.rs` L133-138). -/
structure Declared where
  /-- `name` -/
  name : String
  /-- `generics` -/
  generics : List String
  /-- `fields_code` -/
  fields : List Field

/-- `ctx_type!` (`ctx_type.rs` L99-139): a syntax error or an invalid modifier is a panic (`unwrap`,
L100 and L103). -/
def ctxTypeMacro (ts : List Tok) : Res Empty Declared :=
  match parseStruct ts with
  | some d => (ctxType d.raws).map fun fs => ⟨d.name, ctxGenerics d.raws, fs⟩
  | none => .panic

/-- The fields in the call of `ctx_type!` that `ctx!` makes (`aegir/src/lib.rs` L117-120), for the keys
in order; the macro accepts one key or more. -/
def ctxTokens (lower : String → String) : List String → List Tok
  | [] => []
  | [key] => [.ident ("_" ++ lower key), .colon, .ident key]
  | key :: keys =>
      .ident ("_" ++ lower key) :: .colon :: .ident key :: .comma :: ctxTokens lower keys

/-- The call of `ctx_type!` in `ctx!` (`aegir/src/lib.rs` L120). -/
def ctxMacro (lower : String → String) (keys : List String) : Res Empty Declared :=
  ctxTypeMacro [.ident "Ctx", .brace (ctxTokens lower keys)]

/-- A parsed field (`aegir_derive/src/ctx/mod.rs` L1-10) as the store sees it: `number` numbers the
identifiers and `inst` says which buffers the types are. -/
def CtxField.slot (number : String → Id) (inst : Ty → BTy) (c : CtxField) : Store.Field :=
  ⟨c.ident.map number, c.isCache, inst c.bufferTy⟩

/-- `derive(Context)` on the declared struct (`derive.rs` L7-13, L267-280, L282-336), as the store sees
it. -/
def Declared.store (number : String → Id) (inst : Ty → BTy) (d : Declared) : Res Empty Store.Struct :=
  (extract d.fields).map fun cs => cs.map (·.slot number inst)

end Aegir.CtxParse
