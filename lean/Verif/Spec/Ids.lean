import Verif.Model.Ids
/-!
# What `ids!` is supposed to do
-/

namespace Aegir.Ids

/-- How a declaration is written. -/
inductive Written : Decl → List Tok → Prop
  /-- `X` -/
  | plain (n) : Written ⟨n, none⟩ [.ident n]
  /-- `X::x` -/
  | ident (n s) : Written ⟨n, some s⟩ [.ident n, .colons, .ident s]
  /-- `X::"x"` -/
  | str (n s) : Written ⟨n, some s⟩ [.ident n, .colons, .str s]

/-- How a list of declarations is written: separated by commas, at least one. -/
inductive WrittenList : List Decl → List Tok → Prop
  | one {d ts} : Written d ts → WrittenList [d] ts
  | cons {d ds ts ts'} : Written d ts → WrittenList ds ts' →
      WrittenList (d :: ds) (ts ++ .comma :: ts')

/-- The text that an identifier should have: its symbol, or its name if none is given. -/
def Decl.text (d : Decl) : String := d.symbol.getD d.name

/-- The text contains no braces. -/
def Braceless (s : String) : Prop := '{' ∉ s.toList ∧ '}' ∉ s.toList

end Aegir.Ids
