import Verif.Model.Store
/-!
# Lawful stores
-/

namespace Aegir.Store

variable {F : Type}

/-- No two fields have the same identifier: Rust rejects two impls of `Read<I>` (E0119). -/
def Coherent (S : Struct) : Prop :=
  ∀ (j k : Fin S.length) i, S[j].id = some i → S[k].id = some i → j = k

/-- `i` is the identifier of field `k`. -/
def Owns (S : Struct) (k : Fin S.length) (i : Id) : Prop := S[k].id = some i

/-- The field is a cache field and holds `None`. -/
def Blank : (f : Field) → Cell F f → Prop
  | ⟨_, true, ty⟩, x => (x : Option (Buf F ty)) = none
  | ⟨_, false, _⟩, _ => False

/-- Assignments to the struct, by value or by specification. -/
inductive Op (F : Type) (S : Struct) where
  | write (i : Id) (v : Buf F (S.types i))
  | writeSpec (i : Id) (v : BSpec F (S.types i))

/-- The identifier assigned to. -/
def Op.target {S : Struct} : Op F S → Id
  | .write i _ | .writeSpec i _ => i

/-- The value assigned. -/
def Op.value [Zero F] {S : Struct} : (o : Op F S) → Buf F (S.types o.target)
  | .write _ v => v
  | .writeSpec _ v => v.unwrap

/-- One assignment. -/
def Op.run [Zero F] {S : Struct} (s : State F S) : Op F S → State F S
  | .write i v => s.write i v
  | .writeSpec i v => s.writeSpec i v

/-- A sequence of assignments. -/
def runAll [Zero F] {S : Struct} (s : State F S) (ops : List (Op F S)) : State F S :=
  ops.foldl Op.run s

end Aegir.Store
