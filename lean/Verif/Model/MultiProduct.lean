import Verif.Model.Shape
/-!
# Runtime index iterator (`aegir/src/buffers/shapes/multi_product.rs`)
-/

namespace Aegir.MultiProduct

/-- `std::ops::Range<usize>`: `start..end`. -/
structure Range where
  start : Nat
  stop : Nat
deriving DecidableEq, Repr

/-- `Range::next` (std): yields `start` and advances while `start < end`. -/
def Range.next (r : Range) : Option Nat × Range :=
  if r.start < r.stop then (some r.start, { r with start := r.start + 1 }) else (none, r)

/-- `Range::count` (std): number of remaining elements. -/
def Range.count (r : Range) : Nat := r.stop - r.start

/-- `MultiProductIter` (L28-33). -/
structure Axis where
  cur : Option Nat
  iter : Range
  iterOrig : Range
deriving DecidableEq, Repr

/-- `MultiProductIter::iterate` (L36). -/
def Axis.iterate (a : Axis) : Axis :=
  let (c, it) := a.iter.next
  { a with cur := c, iter := it }

/-- `MultiProductIter::reset` (L38). -/
def Axis.reset (a : Axis) : Axis := { a with iter := a.iterOrig }

/-- `MultiProductIter::in_progress` (L40). -/
def Axis.inProgress (a : Axis) : Bool := a.cur.isSome

/-- `MultiProductIterState` (L43-46). -/
inductive IterState where
  | startOfIter
  | midIter (onFirstIter : Bool)
deriving DecidableEq, Repr

/-- `MultiProduct<DIM>` (L49): the axes in declaration order. -/
structure MIter where
  axes : List Axis
deriving DecidableEq, Repr

/-- `MultiProduct::new` (L52-58). -/
def new (sizes : Dims) : MIter :=
  ⟨sizes.map (fun s => ⟨none, ⟨0, s⟩, ⟨0, s⟩⟩)⟩

/-- `MultiProduct::iterate_last` (L60-99). The slice is passed in reverse order, so that
`split_last_mut` is `cons`; the mutated slice is returned next to the result. -/
def iterateLast : List Axis → IterState → Bool × List Axis
  | [], st =>
      (match st with
        | .startOfIter => false
        | .midIter onFirst => onFirst, [])
  | last :: rest, st =>
      let onFirst := match st with
        | .startOfIter => !last.inProgress
        | .midIter b => b
      let last := if !onFirst then last.iterate else last
      if last.inProgress then (true, last :: rest)
      else
        let (more, rest) := iterateLast rest (.midIter onFirst)
        if more then
          let last := last.reset.iterate
          (last.inProgress, last :: rest)
        else (false, last :: rest)

/-- `MultiProduct::curr_iterator` (L102-104); `none` is the `unwrap` panic. -/
def currIterator (m : MIter) : Option Idx := m.axes.mapM (fun a => a.cur)

/-- `MultiProduct::in_progress` (L108-114). -/
def inProgress (m : MIter) : Bool :=
  match m.axes.getLast? with
  | some last => last.inProgress
  | none => false

/-- Outcome of one call of `Iterator::next`. -/
inductive NextRes where
  /-- `Some(index)` -/
  | item (ix : Idx)
  /-- `None` -/
  | done
  /-- the `unwrap` in `curr_iterator` panicked -/
  | panic
deriving DecidableEq, Repr

/-- `Iterator::next` (L120-126). -/
def next (m : MIter) : NextRes × MIter :=
  let (more, axes) := iterateLast m.axes.reverse .startOfIter
  let m' : MIter := ⟨axes.reverse⟩
  if more then
    match currIterator m' with
    | some ix => (.item ix, m')
    | none => (.panic, m')
  else (.done, m')

/-- `Iterator::count` (L128-151), in unbounded arithmetic. -/
def count (m : MIter) : Nat :=
  if m.axes.isEmpty then 0
  else if !inProgress m then
    m.axes.foldl (fun acc a => acc * a.iter.count) 1
  else
    m.axes.foldl (fun acc a => acc * a.iterOrig.count + a.iter.count) 0

/-- `SizeHint` (L3). -/
abbrev SizeHint := Nat × Option Nat

/-- `usize::saturating_add` for machine words with maximum `W`. -/
def satAdd (W a b : Nat) : Nat := min W (a + b)
/-- `usize::saturating_mul` for machine words with maximum `W`. -/
def satMul (W a b : Nat) : Nat := min W (a * b)
/-- `usize::checked_add` for machine words with maximum `W`. -/
def chkAdd (W a b : Nat) : Option Nat := if a + b ≤ W then some (a + b) else none
/-- `usize::checked_mul` for machine words with maximum `W`. -/
def chkMul (W a b : Nat) : Option Nat := if a * b ≤ W then some (a * b) else none

/-- `size_hint_add` (L6-14). -/
def sizeHintAdd (W : Nat) (a b : SizeHint) : SizeHint :=
  (satAdd W a.1 b.1,
   match a.2, b.2 with
   | some x, some y => chkAdd W x y
   | _, _ => none)

/-- `size_hint_mul` (L17-26). -/
def sizeHintMul (W : Nat) (a b : SizeHint) : SizeHint :=
  (satMul W a.1 b.1,
   match a.2, b.2 with
   | some x, some y => chkMul W x y
   | some 0, none => some 0
   | none, some 0 => some 0
   | _, _ => none)

/-- `Range::<usize>::size_hint` (std): exact. -/
def Range.sizeHint (r : Range) : SizeHint := (r.count, some r.count)

/-- `Iterator::size_hint` (L153-179) for machine words with maximum `W`. -/
def sizeHint (W : Nat) (m : MIter) : SizeHint :=
  if m.axes.isEmpty then (0, some 0)
  else if !inProgress m then
    m.axes.foldl (fun acc a => sizeHintMul W acc a.iter.sizeHint) (1, some 1)
  else
    m.axes.foldl
      (fun acc a => sizeHintAdd W (sizeHintMul W acc a.iterOrig.sizeHint) a.iter.sizeHint)
      (0, some 0)

/-- Result of the `k`-th call (from 0) of `next` on an iterator. -/
def nth : Nat → MIter → NextRes
  | 0, m => (next m).1
  | k + 1, m => nth k (next m).2

/-- State after `k` calls of `next`. -/
def after : Nat → MIter → MIter
  | 0, m => m
  | k + 1, m => after k (next m).2

end Aegir.MultiProduct
