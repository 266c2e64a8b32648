import Verif.Model.Eval
/-!
# Texts of shapes and errors

`Display` for the shapes and for the error types (`errors.rs`, `buffers/shapes/mod.rs`,
`buffers/shapes/compiled.rs`, `buffers/shapes/runtime.rs`, `meta/mod.rs`). Texts are `String`s; a
formatter that refuses a write is not modelled.
-/

namespace Aegir

/-- One extent after another with a separator between them: the loop of `impl_fixed!(@dim_string)`
(`compiled.rs` L74-84) and of the `Debug` text of a Rust array (standard library). -/
def extents (sep : String) (d : Nat) : Dims → String
  | [] => toString d
  | e :: es => toString d ++ (sep ++ extents sep e es)

/-- `{:?}` of `[usize; DIM]` (standard library), used by `SDynamic` (`runtime.rs` L67). -/
def debugArray : Dims → String
  | [] => "[]"
  | d :: ds => "[" ++ extents ", " d ds ++ "]"

/-- `Display` for the shapes: `S0` (`compiled.rs` L27-29), `S1` (L69-71), `S2` to `S6` (L73-85,
L126-130), `SDynamic` (`runtime.rs` L65-69). -/
def ShapeV.display : ShapeV → String
  | .fixed [] => "S0"
  | .fixed (d :: ds) => extents " × " d ds
  | .dyn ds => "SDynamic(" ++ debugArray ds ++ ")"

/-- `Display` for `IncompatibleShapes` (`shapes/mod.rs` L25-33). -/
def incText (l r : ShapeV) : String :=
  "Buffer shapes are incompatible: " ++ l.display ++ " vs " ++ r.display ++ "."

/-- `Display` for `SourceError` (`meta/mod.rs` L48-56); `dbg` is the `Debug` text of an
identifier. -/
def sourceText (dbg : Id → String) (i : Id) : String :=
  "No variable found with identifier " ++ dbg i ++ "."

/-- `Display` for the errors of evaluation: `UnaryError` (`errors.rs` L36-46) and `BinaryError`
(L79-91) show the error they carry and nothing else, `NoError` (L12-14) has no value. Only
`SDynamic` shapes can be incompatible (`runtime.rs` L36-45, see `C59_cause`), so the shapes of an
`output` error are shown as such. -/
def EvalErr.display (dbg : Id → String) : EvalErr → String
  | .undefined i => sourceText dbg i
  | .left e => e.display dbg
  | .right e => e.display dbg
  | .output s => incText (.dyn s.left) (.dyn s.right)

end Aegir
