import Verif.Model.Buffer
/-!
# Zip operations (`aegir/src/buffers/mod.rs` L411-517, `scalars.rs`, `tuples.rs`, `vecs.rs`,
`arrays/zip_ops.rs`)
-/

namespace Aegir

/-- The `ZipMap<R> for L` impls: `ss` (`scalars.rs` L81), `tt` (`tuples.rs` L95), `vv`/`vs`/`sv`
(`vecs.rs` L101/L147/L170), `aa`/`as`/`sa` (`arrays/zip_ops.rs` L63/L93/L123). The third index is
the output type. -/
inductive ZipImpl : BTy → BTy → BTy → Type
  | ss : ZipImpl .scalar .scalar .scalar
  | tt : ZipImpl .tuple .tuple .tuple
  | vv : ZipImpl .vec .vec .vec
  | vs : ZipImpl .vec .scalar .vec
  | sv : ZipImpl .scalar .vec .vec
  | aa (ds : Dims) : ZipImpl (.array ds) (.array ds) (.array ds)
  | as (ds : Dims) : ZipImpl (.array ds) .scalar (.array ds)
  | sa (ds : Dims) : ZipImpl .scalar (.array ds) (.array ds)

/-- Impl lookup as done by the trait solver. -/
def zipImpl? : (a b : BTy) → Option (Σ c, ZipImpl a b c)
  | .scalar, .scalar => some ⟨_, .ss⟩
  | .tuple, .tuple => some ⟨_, .tt⟩
  | .vec, .vec => some ⟨_, .vv⟩
  | .vec, .scalar => some ⟨_, .vs⟩
  | .scalar, .vec => some ⟨_, .sv⟩
  | .array ds, .array es => if h : ds = es then some ⟨.array ds, h ▸ ZipImpl.aa ds⟩ else none
  | .array ds, .scalar => some ⟨_, .as ds⟩
  | .scalar, .array ds => some ⟨_, .sa ds⟩
  | _, _ => none

/-- The impl with the operands swapped; it exists for every pair (`Add`/`Sub`/`Mul` require it,
`ops/arithmetic/binary.rs` L207, L343, L479). -/
def ZipImpl.symm {a b c : BTy} : ZipImpl a b c → ZipImpl b a c
  | .ss => .ss
  | .tt => .tt
  | .vv => .vv
  | .vs => .sv
  | .sv => .vs
  | .aa ds => .aa ds
  | .as ds => .sa ds
  | .sa ds => .as ds

/-- Broadcast of the shapes of a zippable pair (`shapes/compiled.rs`, `shapes/runtime.rs`,
`Broadcast` impls picked by the pair). -/
def ZipImpl.broadcast {a b c : BTy} : ZipImpl a b c → Shp a → Shp b → Except IncShapes (Shp c)
  | .ss, _, _ => .ok ()
  | .tt, _, _ => .ok ()
  | .vv, (n : Nat), (m : Nat) =>
      if [n] = [m] then .ok (show Shp .vec from n) else .error ⟨[n], [m]⟩
  | .vs, n, _ => .ok n
  | .sv, _, m => .ok m
  | .aa _, _, _ => .ok ()
  | .as _, _, _ => .ok ()
  | .sa _, _, _ => .ok ()

namespace Buf
variable {F A : Type}

/-- `ZipMap::zip_map` (`scalars.rs` L85-91, `tuples.rs` L99-105, `vecs.rs` L105-127, L151-159,
L174-182, `arrays/zip_ops.rs` L67-73, L97-103, L127-133). -/
def zipMap {a b c : BTy} : ZipImpl a b c → Buf F a → Buf F b → (F → F → A) →
    Except IncShapes (Buf A c)
  | .ss, x, y, f => .ok (f x y)
  | .tt, x, y, f => .ok (f x.1 y.1, f x.2 y.2)
  | .vv, (x : List F), (y : List F), f =>
      if [x.length] ≠ [y.length] then .error ⟨[x.length], [y.length]⟩
      else .ok (show List A from (x.zip y).map (fun p => f p.1 p.2))
  | .vs, (x : List F), y, f => .ok (show List A from x.map (fun xi => f xi y))
  | .sv, x, (y : List F), f => .ok (show List A from y.map (fun yi => f x yi))
  | .aa ds, x, y, f => .ok (NArr.zipMapSelf ds x y f)
  | .as ds, x, y, f => .ok (NArr.zipMapFieldR ds x y f)
  | .sa ds, x, y, f => .ok (NArr.zipMapFieldL ds x y f)

/-- `ZipMut` impls: arrays with arrays, arrays with scalars (`arrays/zip_ops.rs` L11-31). -/
inductive ZipMutImpl : BTy → BTy → Type
  | aa (ds : Dims) : ZipMutImpl (.array ds) (.array ds)
  | as (ds : Dims) : ZipMutImpl (.array ds) .scalar

/-- `ZipMut::zip_mut` (`arrays/zip_ops.rs` L13-19, L24-30): always `Ok`, returns the mutated
`self`. -/
def zipMut {a b : BTy} : ZipMutImpl a b → Buf F a → Buf F b → (F → F → F) →
    Except IncShapes (Buf F a)
  | .aa ds, x, y, f => .ok (NArr.zipMutSelf ds x y f)
  | .as ds, x, y, f => .ok (NArr.zipMutFieldR ds x y f)

/-- `ZipMap::zip_map_id`: default (`mod.rs` L462-468) except arrays on the left, which use
`zip_mut` (`arrays/zip_ops.rs` L76-82, L106-112). -/
def zipMapId {a b c : BTy} : ZipImpl a b c → Buf F a → Buf F b → (F → F → F) →
    Except IncShapes (Buf F c)
  | .aa ds, x, y, f => zipMut (.aa ds) x y f
  | .as ds, x, y, f => zipMut (.as ds) x y f
  | .ss, x, y, f => zipMap .ss x y f
  | .tt, x, y, f => zipMap .tt x y f
  | .vv, x, y, f => zipMap .vv x y f
  | .vs, x, y, f => zipMap .vs x y f
  | .sv, x, y, f => zipMap .sv x y f
  | .sa ds, x, y, f => zipMap (.sa ds) x y f

/-- `ZipMap::zip_shape` (`scalars.rs` L94-99, `tuples.rs` L108-113, `vecs.rs` L130-144, L162-167,
L185-190, `arrays/zip_ops.rs` L85-90, L115-120, L136-141). -/
def zipShape {a b c : BTy} : ZipImpl a b c → Buf F a → Shp b → Except IncShapes (Buf F c)
  | .ss, x, _ => .ok x
  | .tt, x, _ => .ok x
  | .vv, (x : List F), (m : Nat) =>
      if [x.length] ≠ [m] then .error ⟨[x.length], [m]⟩ else .ok (show List F from x)
  | .vs, x, _ => .ok x
  | .sv, x, m => .ok (full .vec m x)
  | .aa _, x, _ => .ok x
  | .as _, x, _ => .ok x
  | .sa ds, x, s => .ok (full (.array ds) s x)

/-- `ZipFold` impls (`scalars.rs` L68, `tuples.rs` L81, `vecs.rs` L73, `arrays/zip_ops.rs` L169,
L185). -/
inductive ZipFoldImpl : BTy → BTy → Type
  | ss : ZipFoldImpl .scalar .scalar
  | tt : ZipFoldImpl .tuple .tuple
  | vv : ZipFoldImpl .vec .vec
  | aa (ds : Dims) : ZipFoldImpl (.array ds) (.array ds)
  | as (ds : Dims) : ZipFoldImpl (.array ds) .scalar

/-- The `zip_map` impl for the same pair of types. -/
def ZipFoldImpl.toZip {a b : BTy} : ZipFoldImpl a b → ZipImpl a b a
  | .ss => .ss
  | .tt => .tt
  | .vv => .vv
  | .aa ds => .aa ds
  | .as ds => .as ds

/-- `ZipFold::zip_fold` (`scalars.rs` L69-78, `tuples.rs` L82-92, `vecs.rs` L74-98,
`arrays/zip_ops.rs` L171-182, L187-198). -/
def zipFold {a b : BTy} : ZipFoldImpl a b → Buf F a → Buf F b → A → (A → F × F → A) →
    Res IncShapes A
  | .ss, x, y, init, f => .ok (f init (x, y))
  | .tt, x, y, init, f => .ok (f (f init (x.1, y.1)) (x.2, y.2))
  | .vv, (x : List F), (y : List F), init, f =>
      if x.length = y.length then
        Res.ofOption ((List.range x.length).foldlM
          (fun acc i => (x[i]?).bind (fun xi => (y[i]?).map (fun yi => f acc (xi, yi)))) init)
      else .err ⟨[x.length], [y.length]⟩
  | .aa ds, x, y, init, f => Res.ofOption (NArr.zipFoldSelf ds x y init f)
  | .as ds, x, y, init, f => Res.ofOption (NArr.zipFoldFieldR ds x y init f)

end Buf

end Aegir
