import Verif.Model.Res
/-!
# Parsing context structs (`aegir_derive/src/ctx/{derive,ctx_type}.rs`)

Syntax trees as syn 1.0 delivers them, with identifiers and literals as their texts. `panic` is a
panic of the macro itself (`unwrap` on `None` inside `parse_id_attr`, a failing `parse_quote!`).
Spans, visibilities and generics of the struct are left out.
-/

namespace Aegir.CtxParse

/-- `syn::Path` without type arguments (attribute paths have none). -/
structure Path where
  /-- starts with `::` -/
  leading : Bool
  /-- the segments -/
  segments : List String
deriving DecidableEq

/-- `syn::Path::get_ident`. -/
def Path.getIdent (p : Path) : Option String :=
  match p with
  | ⟨false, [s]⟩ => some s
  | _ => none

mutual

/-- `syn::Meta`. -/
inductive Meta where
  | path (p : Path)
  | list (p : Path) (nested : List NestedMeta)
  | nameValue (p : Path) (lit : String)

/-- `syn::NestedMeta`. -/
inductive NestedMeta where
  | inner (m : Meta)
  | lit (l : String)

end

/-- `syn::Attribute`: its path and the result of `parse_meta` (`none` is a syntax error). -/
structure Attribute where
  /-- `path` -/
  path : Path
  /-- `parse_meta()` -/
  parsed : Option Meta

mutual

/-- `syn::Type`: a path type (does it have a `<T as ..>` prefix, does it start with `::`, its
segments) or anything else. -/
inductive Ty where
  | path (qself leading : Bool) (segments : List Seg)
  | other (text : String)

/-- `syn::PathSegment`. -/
inductive Seg where
  | mk (ident : String) (args : Args)

/-- `syn::PathArguments`; angle brackets with a flag for a trailing comma. -/
inductive Args where
  | none
  | angle (args : List GenArg) (trailing : Bool)
  | paren (text : String)

/-- `syn::GenericArgument`: a type, or a lifetime, constant, binding or constraint. -/
inductive GenArg where
  | type (t : Ty)
  | other (text : String)

end

/-- `syn::Field`. -/
structure Field where
  /-- `ident`, absent in tuple structs -/
  name : Option String
  /-- `attrs` -/
  attrs : List Attribute
  /-- `ty` -/
  ty : Ty

/-- `IdParseError` (`derive.rs` L16-25). -/
inductive IdError where
  | metaParseError | tooFewArguments | tooManyArguments | improper | literal | unsupported
deriving DecidableEq

/-- `AttrParseError` (`derive.rs` L43-47). -/
inductive AttrError where
  | invalidAttr
  | idAttr (e : IdError)
deriving DecidableEq

/-- `CtxFieldError` (`derive.rs` L107-114). -/
inductive FieldError where
  | parseError (e : AttrError)
  | noFieldId | tooManyIds | improperCacheType
deriving DecidableEq

/-- `parse_id_attr` (`derive.rs` L62-81). -/
def parseIdAttr (attr : Attribute) : Res IdError String :=
  match attr.parsed with
  | .none => .err .metaParseError
  | .some (.list _ []) => .err .tooFewArguments
  | .some (.list _ (_ :: _ :: _)) => .err .tooManyArguments
  | .some (.list _ [.inner (.path p)]) =>
      match p.getIdent with
      | .some s => .ok s
      | .none => .panic
  | .some (.list _ [.inner _]) => .err .improper
  | .some (.list _ [.lit _]) => .err .literal
  | .some _ => .err .unsupported

/-- `CtxAttr` (`derive.rs` L83-88). -/
inductive CtxAttr where
  | id (ident : String)
  | cache
  | unknown
deriving DecidableEq

/-- `CtxAttr::parse_attr` (`derive.rs` L91-103). -/
def parseAttr (attr : Attribute) : Res AttrError CtxAttr :=
  match attr.path.getIdent with
  | some ident =>
      if ident = "cache" then .ok .cache
      else if ident = "id" then ((parseIdAttr attr).map .id).mapErr .idAttr
      else .ok .unknown
  | none => .err .invalidAttr

/-- The `parse_quote!` in `parse_ty_cache` (`derive.rs` L145): the generic arguments are printed,
separated by commas, and read as path segments separated by `::`. That works for nothing and for a
single path type that starts with a segment; anything else contains a token which is no path segment,
and `parse_quote!` panics. -/
def reparse (args : List GenArg) (trailing : Bool) : Option (List Seg) :=
  match args, trailing with
  | [], _ => some []
  | [.type (.path false false segs)], false => some segs
  | _, _ => none

/-- `parse_ty_cache` (`derive.rs` L130-156). -/
def parseTyCache (ty : Ty) : Res FieldError Ty :=
  match ty with
  | .path qself leading (.mk ident args :: _) =>
      if ident = "Option" then
        match args with
        | .angle as trailing =>
            match reparse as trailing with
            | some segs => .ok (.path qself leading segs)
            | none => .panic
        | _ => .err .improperCacheType
      else .err .improperCacheType
  | _ => .err .improperCacheType

/-- `CtxField` (`aegir_derive/src/ctx/mod.rs` L1-10). -/
structure CtxField where
  /-- `name` -/
  name : String
  /-- `ty` -/
  ty : Ty
  /-- `buffer_ty` -/
  bufferTy : Ty
  /-- `ident` -/
  ident : Option String
  /-- `is_cache` -/
  isCache : Bool

/-- `collect::<Result<Vec<_>, _>>` over the attributes: stops at the first failure
(`derive.rs` L164-168). -/
def parseAttrs : List Attribute → Res AttrError (List CtxAttr)
  | [] => .ok []
  | a :: as => (parseAttr a).bind fun k => (parseAttrs as).map (k :: ·)

/-- The loop over the parsed attributes (`derive.rs` L170-179); the state is `is_cache` and
`field_ident`. -/
def scan : List CtxAttr → Bool × Option String → Res FieldError (Bool × Option String)
  | [], st => .ok st
  | .unknown :: ks, st => scan ks st
  | .cache :: ks, (_, o) => scan ks (true, o)
  | .id x :: ks, (c, o) => if o.isSome then .err .tooManyIds else scan ks (c, some x)

/-- `parse_field` (`derive.rs` L158-201). -/
def parseField (field : Field) : Res FieldError CtxField :=
  match field.name with
  | none => .err .noFieldId
  | some name =>
      ((parseAttrs field.attrs).mapErr .parseError).bind fun valid =>
        (scan valid (false, none)).bind fun (isCache, ident) =>
          if isCache && ident.isNone then .err .noFieldId
          else
            (if isCache then parseTyCache field.ty else .ok field.ty).map fun bufferTy =>
              { name, ty := field.ty, bufferTy, ident, isCache }

/-- `syn::Data`. -/
inductive Data where
  | struct (fields : List Field)
  | enum | union

/-- `FieldExtractor::fields` (`derive.rs` L267-280): every field must parse (`unwrap`). -/
def extract : List Field → Res Empty (List CtxField)
  | [] => .ok []
  | f :: fs =>
      match parseField f with
      | .ok c => (extract fs).map (c :: ·)
      | _ => .panic

/-- The `Read`/`Write` impls of a struct (`expand`, `derive.rs` L7-13, and `ctx_struct_impl`,
L282-336): one pair for each field with an identifier. -/
def expand : Data → Res Empty (List (String × CtxField))
  | .struct fields => (extract fields).map fun cs =>
      cs.filterMap fun c => c.ident.map fun i => (i, c)
  | .enum | .union => .panic

/-- `CtxFieldRaw` (`ctx_type.rs` L18-23). -/
structure Raw where
  /-- `modifier` -/
  modifier : Option String
  /-- `name` -/
  name : String
  /-- `ident` -/
  ident : String

/-- `CtxFieldRaw::normalise` (`ctx_type.rs` L26-52); the error is `InvalidModifier`. -/
def Raw.normalise (r : Raw) : Res String CtxField :=
  let go (isCache : Bool) : CtxField :=
    let bufferTy : Ty := .path false false [.mk ("__" ++ r.ident) .none]
    let ty : Ty :=
      if isCache then .path false false [.mk "Option" (.angle [.type bufferTy] false)] else bufferTy
    { name := r.name, ty, bufferTy, ident := some r.ident, isCache }
  match r.modifier with
  | none => .ok (go false)
  | some m => if m = "cache" then .ok (go true) else .err m

/-- A path of one segment. -/
def Path.ofIdent (s : String) : Path := ⟨false, [s]⟩

/-- The field that `ctx_type!` emits (`ctx_type.rs` L104-116); `none` is the `unwrap` at L105 on a
missing identifier. -/
def CtxField.emit (c : CtxField) : Option Field :=
  c.ident.map fun i =>
    let id : Attribute :=
      ⟨.ofIdent "id", some (.list (.ofIdent "id") [.inner (.path (.ofIdent i))])⟩
    let cache : Attribute := ⟨.ofIdent "cache", some (.path (.ofIdent "cache"))⟩
    { name := some c.name
      attrs := if c.isCache then [cache, id] else [id]
      ty := c.ty }

/-- `ctx_type!` (`ctx_type.rs` L99-139): the fields of the struct it declares. -/
def ctxType : List Raw → Res Empty (List Field)
  | [] => .ok []
  | r :: rs =>
      match r.normalise with
      | .ok c =>
          match c.emit with
          | some f => (ctxType rs).map (f :: ·)
          | none => .panic
      | _ => .panic

/-- `ctx!` (`aegir/src/lib.rs` L117-126): the fields it passes to `ctx_type!`; `paste` turns
`[<_ $key:lower>]` into an underscore and the key in lower case (`lower` is `str::to_lowercase`). -/
def ctxRaws (lower : String → String) (keys : List String) : List Raw :=
  keys.map fun key => ⟨none, "_" ++ lower key, key⟩

/-- The struct expression of `ctx!` (`aegir/src/lib.rs` L122-124): field names and values. -/
def ctxLiteral {α : Type} (lower : String → String) (kvs : List (String × α)) :
    List (String × α) :=
  kvs.map fun kv => ("_" ++ lower kv.1, kv.2)

/-- The generic parameters of the struct that `ctx_type!` declares (`ctx_type.rs` L34-40, L119-130). -/
def ctxGenerics (raws : List Raw) : List String := raws.map fun r => "__" ++ r.ident

/-- Reading an identifier from a struct value (`derive.rs` L209-214, L225-230, L298-333): the impl for
the identifier, then `self.name`. Without impl the call does not compile (`none`). Buffers of different
types are values of one type `α` here. -/
def readImpl {α : Type} (impls : List (String × CtxField)) (value : List (String × α)) (i : String) :
    Option α :=
  (impls.find? fun p => p.1 = i).bind fun p => value.lookup p.2.name

end Aegir.CtxParse
