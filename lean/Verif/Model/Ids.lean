/-!
# The `ids!` macro (`aegir_derive/src/ids.rs`) and the built-in identifiers

Tokens, the declarations they are parsed to, and the items generated for them. Doc strings and spans
are left out; an identifier or string is its text.
-/

namespace Aegir.Ids

/-- Input tokens, as far as `ids.rs` L61-94 tells them apart. -/
inductive Tok where
  | ident (s : String)
  | str (s : String)
  | colons | comma
  | other (s : String)
deriving DecidableEq

/-- `DataIdentifier` (`ids.rs` L5-8). -/
structure Decl where
  /-- `type_id` -/
  name : String
  /-- `symbol` -/
  symbol : Option String
deriving DecidableEq, Repr

/-- `DataIdentifier::parse` (`ids.rs` L61-87): the declaration and the remaining tokens; `none` is a
syntax error. -/
def parseDecl : List Tok → Option (Decl × List Tok)
  | .ident n :: .colons :: .ident s :: ts => some (⟨n, some s⟩, ts)
  | .ident n :: .colons :: .str s :: ts => some (⟨n, some s⟩, ts)
  | .ident _ :: .colons :: _ => none
  | .ident n :: ts => some (⟨n, none⟩, ts)
  | _ => none

/-- `parse_separated_nonempty`, with all tokens to be consumed (`ids.rs` L92-94); the first argument
bounds the number of declarations. -/
def parseFrom : Nat → List Tok → Option (List Decl)
  | 0, _ => none
  | n + 1, ts =>
      match parseDecl ts with
      | some (d, []) => some [d]
      | some (d, .comma :: ts') => (parseFrom n ts').map (d :: ·)
      | _ => none

/-- The declarations of an `ids!` invocation; `none` is the panic of `unwrap` (`ids.rs` L94). A
declaration has at least one token. -/
def parse (ts : List Tok) : Option (List Decl) := parseFrom (ts.length + 1) ts

/-- Generated items (`ids.rs` L11-58). -/
inductive Item where
  /-- the unit struct with derived `PartialEq` (L11-25) -/
  | struct (name : String)
  /-- `impl Identifier` (L27-31) -/
  | identifier (name : String)
  /-- `impl Display`, with the format string passed to `write!` (L33-46) -/
  | display (name : String) (format : String)
  /-- `impl PartialEq<other> for name` with a constant result (L48-58) -/
  | partialEq (name other : String) (result : Bool)
deriving DecidableEq

/-- The format string of `impl_display` (`ids.rs` L35-36). `stringify!(type_id)` is the text
`type_id`, not the name of the identifier. -/
def Decl.format (d : Decl) : String := d.symbol.getD "type_id"

/-- The items for one declaration (`ids.rs` L98-108). -/
def items (ds : List Decl) (d : Decl) : List Item :=
  [.struct d.name, .identifier d.name, .display d.name d.format] ++
    (ds.filter fun d' => d'.name ≠ d.name).map fun d' => .partialEq d.name d'.name false

/-- `expand` (`ids.rs` L91-111) after parsing. -/
def expand (ds : List Decl) : List Item := ds.flatMap (items ds)

/-- `==` between values of the types `s` and `t`: the derived impl of a unit struct is always true;
`none`: no impl (`ids.rs` L20, L48-58, L104-108). -/
def eq (is : List Item) (s t : String) : Option Bool :=
  if s = t then
    if .struct s ∈ is then some true else none
  else
    is.findSome? fun
      | .partialEq a b r => if a = s ∧ b = t then some r else none
      | _ => none

/-- What `write!(f, "..")` writes for a format string without arguments: doubled braces stand for
single ones; `none`: a single brace, which is a placeholder or an error (`ids.rs` L41; the rules of `std::fmt`). -/
def format : List Char → Option (List Char)
  | [] => some []
  | '{' :: '{' :: cs => (format cs).map ('{' :: ·)
  | '}' :: '}' :: cs => (format cs).map ('}' :: ·)
  | '{' :: _ => none
  | '}' :: _ => none
  | c :: cs => (format cs).map (c :: ·)

/-- `Display` of a value of type `s` (`ids.rs` L33-46). -/
def display (is : List Item) (s : String) : Option String :=
  (is.findSome? fun
    | .display a f => if a = s then some f else none
    | _ => none).bind fun f => (format f.toList).map String.ofList

/-- The identifiers of `aegir::ids` (`aegir/src/lib.rs` L64-79). -/
def builtin : List Decl :=
  [⟨"A", "a"⟩, ⟨"B", "b"⟩, ⟨"C", "c"⟩, ⟨"D", "d"⟩, ⟨"E", "e"⟩, ⟨"F", "f"⟩, ⟨"G", "g"⟩, ⟨"H", "h"⟩,
   ⟨"I", "i"⟩, ⟨"J", "j"⟩, ⟨"K", "k"⟩, ⟨"L", "l"⟩, ⟨"M", "m"⟩, ⟨"N", "n"⟩, ⟨"O", "o"⟩, ⟨"P", "p"⟩,
   ⟨"Q", "q"⟩, ⟨"R", "r"⟩, ⟨"S", "s"⟩, ⟨"T", "t"⟩, ⟨"U", "u"⟩, ⟨"V", "v"⟩, ⟨"W", "w"⟩, ⟨"X", "x"⟩,
   ⟨"Y", "y"⟩, ⟨"Z", "z"⟩,
   ⟨"Alpha", "α"⟩, ⟨"Beta", "β"⟩, ⟨"Gamma", "γ"⟩, ⟨"Delta", "δ"⟩,
   ⟨"Epsilon", "ε"⟩, ⟨"Zeta", "ζ"⟩, ⟨"Eta", "η"⟩, ⟨"Theta", "θ"⟩,
   ⟨"Iota", "ι"⟩, ⟨"Kappa", "κ"⟩, ⟨"Lambda", "λ"⟩, ⟨"Mu", "μ"⟩,
   ⟨"Nu", "ν"⟩, ⟨"Xi", "ξ"⟩, ⟨"Omicron", "ο"⟩, ⟨"Pi", "π"⟩,
   ⟨"Rho", "ρ"⟩, ⟨"Sigma", "ς"⟩, ⟨"Tau", "σ"⟩, ⟨"Upsilon", "τ"⟩,
   ⟨"Phi", "φ"⟩, ⟨"Chi", "χ"⟩, ⟨"Psi", "ψ"⟩, ⟨"Omega", "ω"⟩]

end Aegir.Ids
