import Verif.Model.Scalar
import Verif.Model.Zip
/-!
# `Spec`, the compressed buffer (`aegir/src/buffers/spec.rs`)

Named `BSpec` here because `Spec` is the namespace of the specifications.
-/

namespace Aegir

/-- `enum Spec<B>` (`spec.rs` L41-64). -/
inductive BSpec (F : Type) (τ : BTy) : Type where
  | raw (b : Buf F τ)
  | full (s : Shp τ) (x : F)
  | diagonal (s : Shp τ) (x : F)

namespace BSpec
variable {F A : Type} {τ : BTy}

/-- `Shaped for Spec` (`spec.rs` L75-80). -/
def shape : BSpec F τ → Shp τ
  | raw b => Buf.shape τ b
  | full s _ => s
  | diagonal s _ => s

/-- `Spec::unwrap` (`spec.rs` L92-98). -/
def unwrap [Zero F] : BSpec F τ → Buf F τ
  | raw b => b
  | full s x => Buf.full τ s x
  | diagonal s x => Buf.diagonal τ s x

/-- `Spec::map` (`spec.rs` L111-130). -/
def map [Zero F] (f : F → A) : BSpec F τ → BSpec A τ
  | raw b => raw (Buf.map τ b f)
  | full s x => full s (f x)
  | diagonal s x => raw (Buf.build τ s (fun ix => if Shape.isDiagonal ix then f x else f 0))

/-- `Spec::zip_map` (`spec.rs` L145-165). -/
def zipMap [Zero F] {a b c : BTy} (z : ZipImpl a b c) (x : BSpec F a) (y : BSpec F b)
    (f : F → F → A) : Except IncShapes (BSpec A c) :=
  match x, y with
  | full sx fx, full sy fy => (z.broadcast sx sy).map (fun sz => full sz (f fx fy))
  | lhs, rhs => (Buf.zipMap z lhs.unwrap rhs.unwrap f).map raw

/-- `Spec::zeroes` (`spec.rs` L169). -/
def zeroes [Zero F] (s : Shp τ) : BSpec F τ := full s 0

/-- `Spec::ones` (`spec.rs` L173). -/
def ones [One F] (s : Shp τ) : BSpec F τ := full s 1

/-- `Spec::eye` (`spec.rs` L177). -/
def eye [One F] (s : Shp τ) : BSpec F τ := diagonal s 1

end BSpec

end Aegir
