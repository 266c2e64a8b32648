import Verif.Model.Array
import Verif.Model.MultiProduct
/-!
# Buffers (`aegir/src/buffers/{mod,scalars,tuples,vecs}.rs`)

Buffer types of the crate: scalars, nested arrays, pairs, `Vec`. The trait impls are modelled by
functions that branch on the type, one branch per impl.
-/

namespace Aegir

/-- The buffer types implementing `Buffer`: `F` (`scalars.rs` L49), arrays (`arrays/buffer.rs`),
`(F, F)` (`tuples.rs` L47), `Vec<F>` (`vecs.rs` L48). -/
inductive BTy where
  | scalar
  | array (ds : Dims)
  | tuple
  | vec
deriving DecidableEq, Repr

/-- Array impls exist for ranks 1 to 5 (`arrays/buffer.rs` L73-189). -/
def BTy.valid : BTy → Bool
  | .array ds => decide (1 ≤ ds.length) && decide (ds.length ≤ 5)
  | _ => true

/-- Values of a buffer type over the scalar type `F`. -/
abbrev Buf (F : Type) : BTy → Type
  | .scalar => F
  | .array ds => NArr F ds
  | .tuple => F × F
  | .vec => List F

/-- `Shaped::Shape`: all shapes are fixed by the type except `SDynamic<1>` of `Vec`
(`scalars.rs` L44, `arrays/buffer.rs` L42, `tuples.rs` L42, `vecs.rs` L43). -/
abbrev Shp : BTy → Type
  | .scalar => Unit
  | .array _ => Unit
  | .tuple => Unit
  | .vec => Nat

/-- The extents of a shape value. -/
def Shp.dims : (τ : BTy) → Shp τ → Dims
  | .scalar, _ => []
  | .array ds, _ => ds
  | .tuple, _ => [2]
  | .vec, n => [n]

/-- The shape value of a fixed-shape type. -/
def Shp.ofFixed : (τ : BTy) → τ ≠ .vec → Shp τ
  | .scalar, _ => ()
  | .array _, _ => ()
  | .tuple, _ => ()
  | .vec, h => absurd rfl h

instance Shp.decEq : (τ : BTy) → DecidableEq (Shp τ)
  | .scalar => inferInstanceAs (DecidableEq Unit)
  | .array _ => inferInstanceAs (DecidableEq Unit)
  | .tuple => inferInstanceAs (DecidableEq Unit)
  | .vec => inferInstanceAs (DecidableEq Nat)

namespace Buf
variable {F A : Type}

/-- `Shaped::shape` (`scalars.rs` L46, `arrays/buffer.rs` L44, `tuples.rs` L44, `vecs.rs` L45). -/
def shape : (τ : BTy) → Buf F τ → Shp τ
  | .scalar, _ => ()
  | .array _, _ => ()
  | .tuple, _ => ()
  | .vec, (a : List F) => a.length

/-- The extents of a buffer. -/
def dims (τ : BTy) (b : Buf F τ) : Dims := Shp.dims τ (shape τ b)

/-- `Class::build` (`scalars.rs` L17, `arrays/buffer.rs` L21, `tuples.rs` L17, `vecs.rs` L20-22). -/
def build : (τ : BTy) → Shp τ → (Idx → F) → Buf F τ
  | .scalar, _, f => f []
  | .array ds, _, f => NArr.build ds f
  | .tuple, _, f => (f [0], f [1])
  | .vec, n, f => (List.range n).map (fun i => f [i])

/-- `Class::full`: default (`mod.rs` L169) for scalars, overridden in `arrays/buffer.rs` L38,
`tuples.rs` L38, `vecs.rs` L39. -/
def full : (τ : BTy) → Shp τ → F → Buf F τ
  | .scalar, s, x => build .scalar s (fun _ => x)
  | .array ds, _, x => NArr.full ds x
  | .tuple, _, x => (x, x)
  | .vec, n, x => List.replicate n x

/-- One step of the `build_subset` loop of tuples (`tuples.rs` L27-33): indices other than 0 and 1
are ignored. -/
def tupleStep (active : Idx → F) (buf : F × F) (ix : Idx) : F × F :=
  if ix = [0] then (active [0], buf.2)
  else if ix = [1] then (buf.1, active [1])
  else buf

/-- `Class::build_subset` (`scalars.rs` L19-32, `arrays/buffer.rs` L25-36, `tuples.rs` L19-36,
`vecs.rs` L24-37); `none` is an out-of-bounds panic. -/
def buildSubset : (τ : BTy) → Shp τ → F → List Idx → (Idx → F) → Option (Buf F τ)
  | .scalar, s, base, ixs, active =>
      match ixs with
      | [] => some (full .scalar s base)
      | _ :: _ => some (full .scalar s (active []))
  | .array ds, _, base, ixs, active => NArr.buildSubset ds base ixs active
  | .tuple, s, base, ixs, active => some (ixs.foldl (tupleStep active) (full .tuple s base))
  | .vec, n, base, ixs, active =>
      ixs.foldlM (fun (buf : List F) ix =>
        match ix with
        | [i] => if i < buf.length then some (buf.set i (active [i])) else none
        | _ => none) (full .vec n base)

/-- `Class::diagonal` (`mod.rs` L215-223). -/
def diagonal [Zero F] (τ : BTy) (s : Shp τ) (x : F) : Buf F τ :=
  build τ s (fun ix => if Shape.isDiagonal ix then x else 0)

/-- `Class::zeroes` (`mod.rs` L180). -/
def zeroes [Zero F] (τ : BTy) (s : Shp τ) : Buf F τ := full τ s 0

/-- `Class::ones` (`mod.rs` L191). -/
def ones [One F] (τ : BTy) (s : Shp τ) : Buf F τ := full τ s 1

/-- `Class::identity` (`mod.rs` L247-249). -/
def identity [Zero F] [One F] (τ : BTy) (s : Shp τ) : Buf F τ := diagonal τ s 1

/-- `Buffer::get_unchecked` (`scalars.rs` L57, `arrays/buffer.rs` L53, `tuples.rs` L61-67,
`vecs.rs` L54); `none` is a panic. -/
def getU : (τ : BTy) → Buf F τ → Idx → Option F
  | .scalar, x, ix => if ix = [] then some x else none
  | .array ds, a, ix => NArr.getU ds a ix
  | .tuple, t, ix => if ix = [0] then some t.1 else if ix = [1] then some t.2 else none
  | .vec, (a : List F), ix =>
      match ix with
      | [i] => a[i]?
      | _ => none

/-- `Buffer::get`: overridden for scalars (`scalars.rs` L55) and tuples (`tuples.rs` L53-59),
otherwise the default (`mod.rs` L282-288). The outer `none` is a panic. For scalars the index is
`()`, i.e. `[]`. -/
def get : (τ : BTy) → Buf F τ → Idx → Option (Option F)
  | .scalar, x, ix => some (if ix = [] then some x else none)
  | .tuple, t, ix => some (if ix = [0] then some t.1 else if ix = [1] then some t.2 else none)
  | .array ds, a, ix =>
      if Shape.contains (dims (.array ds) a) ix then (getU (.array ds) a ix).map some
      else some none
  | .vec, a, ix =>
      if Shape.contains (dims .vec a) ix then (getU .vec a ix).map some else some none

/-- `Buffer::map` (`scalars.rs` L59, `arrays/buffer.rs` L55, `tuples.rs` L69, `vecs.rs` L56). -/
def map : (τ : BTy) → Buf F τ → (F → A) → Buf A τ
  | .scalar, x, f => f x
  | .array ds, a, f => NArr.map ds a f
  | .tuple, t, f => (f t.1, f t.2)
  | .vec, (a : List F), f => a.map f

/-- `Buffer::map_ref` (`scalars.rs` L61, `arrays/buffer.rs` L57, `tuples.rs` L71, `vecs.rs`
L58-60). -/
def mapRef : (τ : BTy) → Buf F τ → (F → A) → Buf A τ
  | .scalar, x, f => f x
  | .array ds, a, f => NArr.mapRef ds a f
  | .tuple, t, f => (f t.1, f t.2)
  | .vec, (a : List F), f => a.map f

/-- `Buffer::mutate` (`scalars.rs` L63, `arrays/buffer.rs` L59, `tuples.rs` L73-76, `vecs.rs`
L62-66). -/
def mutate : (τ : BTy) → Buf F τ → (F → F) → Buf F τ
  | .scalar, x, f => f x
  | .array ds, a, f => NArr.mutate ds a f
  | .tuple, t, f =>
      let t : F × F := (f t.1, t.2)
      (t.1, f t.2)
  | .vec, (a : List F), f =>
      (List.range a.length).foldl
        (fun (self : List F) i =>
          match self[i]? with
          | some x => self.set i (f x)
          | none => self) a

/-- `Buffer::fold` (`scalars.rs` L65, `arrays/buffer.rs` L61-67, `tuples.rs` L78, `vecs.rs`
L68-70). -/
def fold : (τ : BTy) → Buf F τ → A → (A → F → A) → A
  | .scalar, x, init, f => f init x
  | .array ds, a, init, f => NArr.fold ds a init f
  | .tuple, t, init, f => f (f init t.1) t.2
  | .vec, (a : List F), init, f => a.foldl f init

/-- `Buffer::fold`, default body (`mod.rs` L362-366): fold over `shape().indices()` of
`get_unchecked`; `none` is a panic. (All impls in the crate override it.) -/
def foldDefault (τ : BTy) (b : Buf F τ) (init : A) (f : A → F → A) : Option A :=
  (Shape.indices (dims τ b)).foldlM (fun acc ix => (getU τ b ix).map (f acc)) init

/-- `Buffer::map_ref`, default body (`mod.rs` L328-333): `build(shape, |ix| f(get_unchecked(ix)))`,
expressed with an already dereferenced reader `g` of the buffer. -/
def mapRefDefault (τ : BTy) (b : Buf F τ) (g : Idx → F) (f : F → A) : Buf A τ :=
  build τ (shape τ b) (fun ix => f (g ix))

/-- `Buffer::sum` (`mod.rs` L379). -/
def sum [Zero F] [Add F] (τ : BTy) (b : Buf F τ) : F := fold τ b 0 (fun init el => init + el)

end Buf

end Aegir
