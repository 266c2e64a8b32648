import Verif.Model.Eval
/-!
# Derived contexts (`aegir_derive/src/ctx/derive.rs`)

The `Read` and `Write` impls that `#[derive(Context)]` generates for a struct. In Rust every
identifier has its own impl, selected at compile time; here they are selected by `Struct.find`.
-/

namespace Aegir.Store

variable {F : Type}

/-- A parsed field (`CtxField`, `aegir_derive/src/ctx/mod.rs` L1-10): its `#[id]`, whether it is a
`#[cache]`, and its buffer type. Field names are positions. -/
structure Field where
  /-- `ident` -/
  id : Option Id
  /-- `is_cache` -/
  cache : Bool
  /-- `buffer_ty` -/
  ty : BTy

/-- The contents of a field: `Option<B>` for cache fields, `B` for the others
(`aegir_derive/src/ctx/derive.rs` L158-201). -/
def Cell (F : Type) (f : Field) : Type :=
  match f.cache with
  | true => Option (Buf F f.ty)
  | false => Buf F f.ty

/-- The generated `read_spec` (`derive.rs` L209-214, L225-230; `into_spec` of a buffer is `Raw`). -/
def readSpec : (f : Field) → Cell F f → Option (BSpec F f.ty)
  | ⟨_, true, _⟩, x => Option.map .raw x
  | ⟨_, false, _⟩, x => some (.raw x)

/-- The generated `read_shape` (`derive.rs` L216-221, L232-237). -/
def readShape : (f : Field) → Cell F f → Option (Shp f.ty)
  | ⟨_, true, ty⟩, x => Option.map (Buf.shape ty) x
  | ⟨_, false, ty⟩, x => some (Buf.shape ty x)

/-- The generated `read` (`derive.rs` L320-322). -/
def read [Zero F] (f : Field) (x : Cell F f) : Option (Buf F f.ty) := (readSpec f x).map BSpec.unwrap

/-- The generated `write` (`derive.rs` L247-250, L254-257): the new contents. -/
def write : (f : Field) → Cell F f → Buf F f.ty → Cell F f
  | ⟨_, true, _⟩, _, v => some v
  | ⟨_, false, _⟩, _, v => v

/-- A struct: its fields in order. -/
abbrev Struct := List Field

/-- A value of the struct: the contents of each field. -/
abbrev State (F : Type) (S : Struct) := (k : Fin S.length) → Cell F S[k]

/-- The impls for `i` are those of this field (`derive.rs` L298-333); `none`: there is no impl. -/
def Struct.find (S : Struct) (i : Id) : Option (Fin S.length) :=
  (List.finRange S.length).find? fun k => S[k].id = some i

/-- `Read::Buffer` of the impl (`derive.rs` L317). Identifiers without impl have no buffer type;
`.scalar` is a placeholder. -/
def Struct.tyAt (S : Struct) : Option (Fin S.length) → BTy
  | some k => S[k].ty
  | none => .scalar

/-- The buffer types of the identifiers. -/
def Struct.types (S : Struct) (i : Id) : BTy := S.tyAt (S.find i)

/-- `read` by the impl at the position. -/
def readAt [Zero F] {S : Struct} (s : State F S) : (o : Option (Fin S.length)) →
    Option (Buf F (S.tyAt o))
  | some k => read S[k] (s k)
  | none => none

/-- `read_spec` by the impl at the position. -/
def readSpecAt {S : Struct} (s : State F S) : (o : Option (Fin S.length)) →
    Option (BSpec F (S.tyAt o))
  | some k => readSpec S[k] (s k)
  | none => none

/-- `read_shape` by the impl at the position. -/
def readShapeAt {S : Struct} (s : State F S) : (o : Option (Fin S.length)) →
    Option (Shp (S.tyAt o))
  | some k => readShape S[k] (s k)
  | none => none

/-- `write` by the impl at the position: assigns one field of `self`. -/
def writeAt {S : Struct} (s : State F S) : (o : Option (Fin S.length)) → Buf F (S.tyAt o) → State F S
  | some k, v => fun j => if h : j = k then h ▸ write S[k] (s k) v else s j
  | none, _ => s

/-- `Read::read` (`aegir/src/lib.rs` L92). -/
def State.read [Zero F] {S : Struct} (s : State F S) (i : Id) : Option (Buf F (S.types i)) :=
  readAt s (S.find i)

/-- `Read::read_spec` (`aegir/src/lib.rs` L95-97, overridden by the derived impl). -/
def State.readSpec {S : Struct} (s : State F S) (i : Id) : Option (BSpec F (S.types i)) :=
  readSpecAt s (S.find i)

/-- `Read::read_shape` (`aegir/src/lib.rs` L100-104, overridden by the derived impl). -/
def State.readShape {S : Struct} (s : State F S) (i : Id) : Option (Shp (S.types i)) :=
  readShapeAt s (S.find i)

/-- `Write::write` (`aegir/src/lib.rs` L108). -/
def State.write {S : Struct} (s : State F S) (i : Id) (v : Buf F (S.types i)) : State F S :=
  writeAt s (S.find i) v

/-- `Write::write_spec` (`aegir/src/lib.rs` L110-112). -/
def State.writeSpec [Zero F] {S : Struct} (s : State F S) (i : Id) (v : BSpec F (S.types i)) :
    State F S :=
  s.write i v.unwrap

end Aegir.Store
