import Verif.Model.Fmt
/-!
# Vocabulary about rendered expressions
-/

namespace Aegir.Spec

/-- A name that cannot be confused with the notation: not empty, without blanks, brackets, commas,
bars and carets, and not starting with a minus sign, the digits `1` and `2`, an angle bracket or
the symbol for Euler's number. -/
def GoodName (s : String) : Prop :=
  (∀ ch ∈ s.toList, ch ∉ [' ', '(', ')', ',', '⟩', '|', '^']) ∧
    ∃ ch cs, s.toList = ch :: cs ∧ ch ∉ ['-', '1', '2', '⟨', '𝑒']

/-- Operators whose rendering starts with a prefix that binds weaker than `^` in the code's eyes
but is not bracketed. -/
def BaseOk {F : Type} : Node F → Prop
  | .un .negate _ | .un .double _ | .un .exp _ | .power _ _ => False
  | _ => True

/-- Expressions without constants and derivatives, without `AddOne` (rendered like `OneSub`),
`ArcSin` (rendered like `ArcCos`), `XLnX` and `Rabbit` (rendered like a product), and without
powers of powers, exponentials, negated and doubled expressions. -/
def Readable {F : Type} : Node F → Prop
  | .var _ => True
  | .add l r | .sub l r | .mul l r | .div l r => Readable l ∧ Readable r
  | .power l r => BaseOk l ∧ Readable l ∧ Readable r
  | .contract k l r => k ≤ 2 ∧ Readable l ∧ Readable r
  | .un op n => op ∉ [.addOne, .asin, .xlnx, .rabbit] ∧ Readable n
  | _ => False

end Aegir.Spec
