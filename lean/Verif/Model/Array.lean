import Verif.Model.Shape
import Verif.Model.Res
/-!
# Nested fixed-size arrays (`aegir/src/buffers/arrays/{buffer,zip_ops}.rs`)

The macros generate one impl per rank 1..5 in which rank `k+1` is implemented with rank `k`; the
model is the recursion over the list of extents, with rank 0 being a scalar. Ranks above 5 have no
impl in Rust; theorems proved for all ranks cover ranks 1..5.
-/

namespace Aegir

/-- `[..[F; Dk]..; D1]` with extents `[D1, .., Dk]` (`arrays/buffer.rs` L74, L93, ..). -/
def NArr (F : Type) : Dims → Type
  | [] => F
  | d :: ds => Vector (NArr F ds) d

namespace NArr
variable {F A B : Type}

/-- `a[i]` for `i < D1` (array indexing). -/
def row {d : Nat} {ds : Dims} (a : NArr F (d :: ds)) (i : Fin d) : NArr F ds := Vector.get a i

/-- `a[i] = x` for `i < D1` (array assignment). -/
def setRow {d : Nat} {ds : Dims} (a : NArr F (d :: ds)) (i : Fin d) (x : NArr F ds) :
    NArr F (d :: ds) := Vector.set a i.val x i.isLt

/-- `array_init::array_init(f)` (`arrays/buffer.rs` L76, L95). -/
def mkRows {d : Nat} {ds : Dims} (f : Fin d → NArr F ds) : NArr F (d :: ds) := Vector.ofFn f

/-- `Class::build` (`arrays/buffer.rs` L21, L76, L95, ..: nested `array_init`). -/
def build : (ds : Dims) → (Idx → F) → NArr F ds
  | [], f => f []
  | _ :: ds, f => mkRows (fun i => build ds (fun ix => f (i.val :: ix)))

/-- `Class::full` (`arrays/buffer.rs` L38, L78, L97, ..: `[[val; D2]; D1]`). -/
def full : (ds : Dims) → F → NArr F ds
  | [], x => x
  | _ :: ds, x => mkRows (fun _ => full ds x)

/-- `Buffer::get_unchecked` (`arrays/buffer.rs` L53, L81, L100: `self[ix[0]][ix[1]]..`);
`none` is the out-of-bounds panic. -/
def getU : (ds : Dims) → NArr F ds → Idx → Option F
  | [], x, [] => some x
  | [], _, _ :: _ => none
  | _ :: _, _, [] => none
  | d :: ds, a, i :: ix => if h : i < d then getU ds (a.row ⟨i, h⟩) ix else none

/-- The assignment `buf[ix[0]][ix[1]].. = v` (`arrays/buffer.rs` L77, L96, ..); `none` is the
out-of-bounds panic. -/
def setU : (ds : Dims) → NArr F ds → Idx → F → Option (NArr F ds)
  | [], _, [], v => some v
  | [], _, _ :: _, _ => none
  | _ :: _, _, [], _ => none
  | d :: ds, a, i :: ix, v =>
      if h : i < d then
        (setU ds (a.row ⟨i, h⟩) ix v).map (fun x => a.setRow ⟨i, h⟩ x)
      else none

/-- `Class::build_subset` (`arrays/buffer.rs` L25-36): a loop of assignments over `full`. -/
def buildSubset (ds : Dims) (base : F) (ixs : List Idx) (active : Idx → F) : Option (NArr F ds) :=
  ixs.foldlM (fun buf ix => setU ds buf ix (active ix)) (full ds base)

/-- `Buffer::map` (`arrays/buffer.rs` L55, L83, L102). -/
def map : (ds : Dims) → NArr F ds → (F → A) → NArr A ds
  | [], x, f => f x
  | _ :: ds, a, f => mkRows (fun i => map ds (a.row i) f)

/-- `Buffer::map_ref` (`arrays/buffer.rs` L57: `array_init(|i| self[i].map_ref(&f))`). -/
def mapRef : (ds : Dims) → NArr F ds → (F → A) → NArr A ds
  | [], x, f => f x
  | _ :: ds, a, f => mkRows (fun i => mapRef ds (a.row i) f)

/-- `Buffer::mutate` (`arrays/buffer.rs` L59, L84-88, L103-107): a loop that overwrites entry by
entry. -/
def mutate : (ds : Dims) → NArr F ds → (F → F) → NArr F ds
  | [], x, f => f x
  | d :: ds, a, f =>
      (List.finRange d).foldl
        (fun (self : NArr F (d :: ds)) i => self.setRow i (mutate ds (self.row i) f)) a

/-- `Buffer::fold` (`arrays/buffer.rs` L61-67). -/
def fold : (ds : Dims) → NArr F ds → A → (A → F → A) → A
  | [], x, init, f => f init x
  | d :: ds, a, init, f =>
      (List.finRange d).foldl (fun init i => fold ds (a.row i) init f) init

/-- `ZipMut::zip_mut` with an array of the same type (`arrays/zip_ops.rs` L37-43, L207-213). -/
def zipMutSelf : (ds : Dims) → NArr F ds → NArr F ds → (F → F → F) → NArr F ds
  | [], x, y, f => f x y
  | d :: ds, a, b, f =>
      (List.finRange d).foldl
        (fun (self : NArr F (d :: ds)) i =>
          self.setRow i (zipMutSelf ds (self.row i) (b.row i) f)) a

/-- `ZipMut::zip_mut` with a scalar on the right (`arrays/zip_ops.rs` L44-50, L214-220). -/
def zipMutFieldR : (ds : Dims) → NArr F ds → F → (F → F → F) → NArr F ds
  | [], x, y, f => f x y
  | d :: ds, a, y, f =>
      (List.finRange d).foldl
        (fun (self : NArr F (d :: ds)) i =>
          self.setRow i (zipMutFieldR ds (self.row i) y f)) a

/-- `ZipMap::zip_map` with an array of the same type (`arrays/zip_ops.rs` L148-152, L225-227). -/
def zipMapSelf : (ds : Dims) → NArr F ds → NArr B ds → (F → B → A) → NArr A ds
  | [], x, y, f => f x y
  | _ :: ds, a, b, f => mkRows (fun i => zipMapSelf ds (a.row i) (b.row i) f)

/-- `ZipMap::zip_map` with a scalar on the right (`arrays/zip_ops.rs` L153-157, L228-230). -/
def zipMapFieldR : (ds : Dims) → NArr F ds → B → (F → B → A) → NArr A ds
  | [], x, y, f => f x y
  | _ :: ds, a, y, f => mkRows (fun i => zipMapFieldR ds (a.row i) y f)

/-- `ZipMap::zip_map` of a scalar with an array on the right. Rank 1 (`arrays/zip_ops.rs`
L231-233) applies `f(self, rhs[i])`; rank 2 and above (L158-162) calls `rhs[i].zip_map(&self, &f)`,
i.e. the array-with-scalar version on the rows, as written in the source. Both operands have the
same scalar type. -/
def zipMapFieldL : (ds : Dims) → F → NArr F ds → (F → F → A) → NArr A ds
  | [], x, y, f => f x y
  | [_], x, b, f => mkRows (ds := []) (fun i => f x (b.row i))
  | _ :: e :: ds, x, b, f => mkRows (fun i => zipMapFieldR (e :: ds) (b.row i) x f)

/-- `ZipFold::zip_fold` with an array of the same type (`arrays/zip_ops.rs` L169-183): a loop over
`shape().indices()` with unchecked reads; `none` is a panic. -/
def zipFoldSelf (ds : Dims) (a : NArr F ds) (b : NArr B ds) (acc : A) (f : A → F × B → A) :
    Option A :=
  (Shape.indices ds).foldlM
    (fun acc ix => (getU ds a ix).bind (fun x => (getU ds b ix).map (fun y => f acc (x, y)))) acc

/-- `ZipFold::zip_fold` with a scalar on the right (`arrays/zip_ops.rs` L185-199). -/
def zipFoldFieldR (ds : Dims) (a : NArr F ds) (y : B) (acc : A) (f : A → F × B → A) : Option A :=
  (Shape.indices ds).foldlM (fun acc ix => (getU ds a ix).map (fun x => f acc (x, y))) acc

end NArr

end Aegir
