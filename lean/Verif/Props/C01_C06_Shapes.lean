import Verif.Lemmas.Shape
import Mathlib.Data.List.NodupEquivFin
import Mathlib.Data.Fintype.EquivFin
/-!
# C01, C05, C06: shapes

Property theorems about `Shape::indices`/`contains`/`cardinality`, `Concat`/`Split` and
`Broadcast`.
-/

namespace Aegir.Props

open Spec

/-! ## C01 Fixed-shape index enumeration is exact -/

/-- `contains` decides "one component per axis, each below the extent". -/
theorem C01_contains_iff (ds : Dims) (ix : Idx) :
    Shape.contains ds ix = true ↔ InBounds ds ix := contains_iff

/-- `indices()` is the row-major enumeration: it yields exactly the in-bounds indices, in strictly
increasing lexicographic order (hence each once). -/
theorem C01_indices_rowMajor (ds : Dims) : IsRowMajor ds (Shape.indices ds) :=
  ⟨fun _ => mem_indices, pairwise_indices ds⟩

/-- Every index accepted by `contains` is yielded, nothing else, and nothing twice. -/
theorem C01_indices_exact (ds : Dims) :
    (∀ ix, ix ∈ Shape.indices ds ↔ Shape.contains ds ix = true) ∧ (Shape.indices ds).Nodup :=
  ⟨fun _ => mem_indices.trans contains_iff.symm, nodup_indices ds⟩

/-- `cardinality()` is the number of indices yielded and the product of the extents. -/
theorem C01_cardinality (ds : Dims) :
    Shape.cardinality ds = (Shape.indices ds).length ∧ Shape.cardinality ds = ds.prod :=
  ⟨(length_indices ds).symm, cardinality_eq_prod ds⟩

/-- The row-major enumeration is unique, so the two clauses above determine the list. -/
theorem C01_rowMajor_unique (ds : Dims) (l : List Idx) (h : IsRowMajor ds l) :
    l = Shape.indices ds := by
  have hn : l.Nodup :=
    h.2.imp (fun {a b} hab (e : a = b) => lexLt_irrefl a (by rw [e] at hab ⊢; exact hab))
  have hperm : l.Perm (Shape.indices ds) :=
    (List.perm_ext_iff_of_nodup hn (nodup_indices ds)).2
      (fun ix => (h.1 ix).trans mem_indices.symm)
  refine List.Perm.eq_of_pairwise (le := LexLt) ?_ h.2 (pairwise_indices ds) hperm
  intro a b _ _ hab hba
  exact absurd (List.lex_trans (r := (· < ·)) (fun h1 h2 => lt_trans h1 h2) hab hba)
    (lexLt_irrefl a)

example : Shape.indices [2, 3] = [[0,0],[0,1],[0,2],[1,0],[1,1],[1,2]] := by decide
example : InBounds [2, 3] [1, 2] ∧ ¬ InBounds [2, 3] [2, 0] :=
  ⟨by simp [InBounds], by simp [InBounds]⟩

/-- `is_equivalent` decides whether the indices of the two shapes can be put in one-to-one
correspondence. -/
theorem C01_equivalent (ds es : Dims) :
    Shape.isEquivalent ds es = true ↔ Nonempty ({ix // InBounds ds ix} ≃ {ix // InBounds es ix}) := by
  have key : ∀ ds : Dims, Nonempty ({ix // InBounds ds ix} ≃ Fin (Shape.cardinality ds)) := fun ds => by
    have h := C01_indices_exact ds
    have hc := (C01_cardinality ds).1
    rw [hc]
    refine ⟨(Equiv.subtypeEquivRight fun ix => ?_).trans (List.Nodup.getEquiv _ h.2).symm⟩
    rw [h.1]
    exact (C01_contains_iff ds ix).symm
  obtain ⟨f⟩ := key ds
  obtain ⟨g⟩ := key es
  rw [Shape.isEquivalent, beq_iff_eq, ← Fin.equiv_iff_eq]
  exact ⟨fun ⟨h⟩ => ⟨(f.trans h).trans g.symm⟩, fun ⟨h⟩ => ⟨(f.symm.trans h).trans g⟩⟩

/-- A matrix and a vector. -/
example : Shape.isEquivalent [2, 3] [6] = true := rfl
example : ¬ Nonempty ({ix // InBounds [2, 2] ix} ≃ {ix // InBounds [5] ix}) :=
  fun h => absurd ((C01_equivalent _ _).2 h) (by decide)

/-- `DIM` is the number of components of every index, and it adds up under concatenation;
`is_scalar`, `is_vector` and `is_matrix` hold of the shapes with as many extents. -/
theorem C01_dim (ds es : Dims) :
    (∀ ix ∈ Shape.indices ds, ix.length = Shape.dim ds) ∧
      Shape.dim (Shape.concat ds es) = Shape.dim ds + Shape.dim es ∧
      (Shape.isScalar ds = true ↔ ds = []) ∧
      (Shape.isVector ds = true ↔ ∃ a, ds = [a]) ∧
      (Shape.isMatrix ds = true ↔ ∃ a b, ds = [a, b]) := by
  refine ⟨fun ix h => (mem_indices.1 h).length_eq, List.length_append, ?_, ?_, ?_⟩
  · simp [Shape.isScalar, Shape.dim]
  · simp [Shape.isVector, Shape.dim, List.length_eq_one_iff]
  · simp [Shape.isMatrix, Shape.dim, List.length_eq_two]

example : Shape.isMatrix [2, 3] = true ∧ [1, 2] ∈ Shape.indices [2, 3] := by decide

/-! ## C05 Concatenation and splitting -/

/-- `contains` of the concatenated shape on the concatenated index is the conjunction, for
indices of the right rank. -/
theorem C05_contains_concat (ds es : Dims) (ix jx : Idx) (hi : ix.length = ds.length) :
    Shape.contains (Shape.concat ds es) (Shape.concatIndices ix jx) = true ↔
      (InBounds ds ix ∧ InBounds es jx) := by
  rw [contains_iff, Shape.concat, Shape.concatIndices, InBounds, InBounds, InBounds]
  constructor
  · intro h
    have h1 := List.forall₂_take_append _ _ _ h
    have h2 := List.forall₂_drop_append _ _ _ h
    rw [List.take_left' hi] at h1
    rw [List.drop_left' hi] at h2
    exact ⟨h1, h2⟩
  · rintro ⟨h1, h2⟩
    exact List.rel_append h1 h2

/-- Cardinality of a concatenation multiplies. -/
theorem C05_cardinality_concat (ds es : Dims) :
    Shape.cardinality (Shape.concat ds es) = Shape.cardinality ds * Shape.cardinality es := by
  simp [cardinality_eq_prod, Shape.concat]

/-- The indices of a concatenation are exactly the row-major pairs of indices of the parts. -/
theorem C05_indices_concat (ds es : Dims) :
    Shape.indices (Shape.concat ds es) =
      (Shape.indices ds).flatMap
        (fun ix => (Shape.indices es).map (fun jx => Shape.concatIndices ix jx)) := by
  induction ds with
  | nil => simp [Shape.concat, Shape.concatIndices]
  | cons d ds ih =>
    simp only [Shape.concat, Shape.concatIndices, List.cons_append] at ih ⊢
    rw [indices_cons, ih, indices_cons]
    simp [List.flatMap_assoc, List.flatMap_map, List.map_flatMap, Function.comp_def]

/-- Concatenation of indices is injective on indices of the right rank. -/
theorem C05_concatIndices_injective (ix ix' jx jx' : Idx) (h : ix.length = ix'.length)
    (he : Shape.concatIndices ix jx = Shape.concatIndices ix' jx') : ix = ix' ∧ jx = jx' :=
  List.append_inj he h

/-- `split` is a right inverse of `concat`: whenever `split` is available, concatenating the parts
gives back the shape (and the same for indices), so no information is lost. -/
theorem C05_split_concat (ds ls rs : Dims) (h : Shape.split ds = some (ls, rs)) :
    Shape.concat ls rs = ds ∧ Shape.concatOkFixed ls rs = true := by
  unfold Shape.split at h
  split at h <;> simp_all [Shape.concat, Shape.concatOkFixed] <;> obtain ⟨rfl, rfl⟩ := h <;> simp

theorem C05_splitIndex_concat (ix l r : Idx) (h : Shape.splitIndex ix = some (l, r)) :
    Shape.concatIndices l r = ix := by
  unfold Shape.splitIndex at h
  split at h <;> simp_all [Shape.concatIndices] <;> obtain ⟨rfl, rfl⟩ := h <;> simp

/-- `split` undoes `concat` for the symmetric parts it is declared for (`S1 ++ S1`, `S2 ++ S2`),
and `split_index` undoes `concat_indices` on the corresponding indices. -/
theorem C05_concat_split (ds es : Dims) (ix jx : Idx)
    (h : (ds.length = 1 ∧ es.length = 1) ∨ (ds.length = 2 ∧ es.length = 2))
    (hi : ix.length = ds.length) (hj : jx.length = es.length) :
    Shape.split (Shape.concat ds es) = some (ds, es) ∧
      Shape.splitIndex (Shape.concatIndices ix jx) = some (ix, jx) := by
  rcases h with ⟨h1, h2⟩ | ⟨h1, h2⟩
  · rw [h1] at hi; rw [h2] at hj
    obtain ⟨a, rfl⟩ := List.length_eq_one_iff.1 h1
    obtain ⟨b, rfl⟩ := List.length_eq_one_iff.1 h2
    obtain ⟨c, rfl⟩ := List.length_eq_one_iff.1 hi
    obtain ⟨d, rfl⟩ := List.length_eq_one_iff.1 hj
    exact ⟨rfl, rfl⟩
  · rw [h1] at hi; rw [h2] at hj
    obtain ⟨a, a', rfl⟩ := List.length_eq_two.1 h1
    obtain ⟨b, b', rfl⟩ := List.length_eq_two.1 h2
    obtain ⟨c, c', rfl⟩ := List.length_eq_two.1 hi
    obtain ⟨d, d', rfl⟩ := List.length_eq_two.1 hj
    exact ⟨rfl, rfl⟩

/-- Splitting preserves membership: an index lies in a splittable shape iff its halves lie in the
halves of the shape. -/
theorem C05_contains_split (ds ls rs : Dims) (ix l r : Idx) (h : Shape.split ds = some (ls, rs))
    (hx : Shape.splitIndex ix = some (l, r)) (hlen : ix.length = ds.length) :
    Shape.contains ds ix = true ↔ (InBounds ls l ∧ InBounds rs r) := by
  have h1 := (C05_split_concat ds ls rs h).1
  have h2 := C05_splitIndex_concat ix l r hx
  rw [← h1, ← h2]
  refine C05_contains_concat ls rs l r ?_
  unfold Shape.split at h
  unfold Shape.splitIndex at hx
  split at h <;> split at hx <;> simp_all <;> obtain ⟨rfl, rfl⟩ := h <;> obtain ⟨rfl, rfl⟩ := hx <;>
    simp at hlen ⊢

example : Shape.split [2, 3, 4, 5] = some ([2, 3], [4, 5]) ∧
    Shape.splitIndex [1, 2, 3, 4] = some ([1, 2], [3, 4]) := ⟨rfl, rfl⟩

/-- The pairs of ranks for which `compiled.rs` L274-338 has an impl, invocation by invocation. -/
def concatRanks : List (Nat × Nat) :=
  [(0, 0), (0, 1), (0, 2), (0, 3), (0, 4), (0, 5),
   (1, 0), (1, 1), (1, 2), (1, 3), (1, 4), (1, 5),
   (2, 0), (2, 1), (2, 2), (2, 3), (2, 4),
   (3, 0), (3, 1), (3, 2), (3, 3),
   (4, 0), (4, 1), (4, 2),
   (5, 0), (5, 1)]

/-- The bounds on the ranks describe the list of impls. -/
theorem C05_concat_impls (ds es : Dims) :
    Shape.concatOkFixed ds es = true ↔ (ds.length, es.length) ∈ concatRanks := by
  simp only [Shape.concatOkFixed, Bool.and_eq_true, decide_eq_true_eq]
  generalize ds.length = a
  generalize es.length = b
  constructor
  · rintro ⟨⟨h1, h2⟩, h3⟩
    have key : ∀ a ∈ List.range 6, ∀ b ∈ List.range 6, a + b ≤ 6 → (a, b) ∈ concatRanks := by decide
    exact key a (List.mem_range.2 (by omega)) b (List.mem_range.2 (by omega)) h3
  · intro h
    have key : ∀ p ∈ concatRanks, (p.1 ≤ 5 ∧ p.2 ≤ 5) ∧ p.1 + p.2 ≤ 6 := by decide
    exact key _ h

/-- Hence the two ways of bracketing three shapes are either both possible and equal, or the ranks are
too large: if one is possible then so is the other, unless a middle result of rank 6 is needed. -/
theorem C05_concat_assoc (ds es fs : Dims) (h1 : Shape.concatOkFixed ds es = true)
    (h2 : Shape.concatOkFixed (Shape.concat ds es) fs = true) :
    Shape.concatOkFixed es fs = true ∧
      (Shape.concatOkFixed ds (Shape.concat es fs) = true ↔ es.length + fs.length ≤ 5) ∧
      Shape.concat (Shape.concat ds es) fs = Shape.concat ds (Shape.concat es fs) := by
  simp only [Shape.concatOkFixed, Bool.and_eq_true, decide_eq_true_eq, Shape.concat,
    List.length_append] at *
  exact ⟨by omega, by omega, List.append_assoc _ _ _⟩

example : Shape.concatOkFixed [2, 3] [4] = true ∧
    Shape.concatOkFixed (Shape.concat [2, 3] [4]) [5, 6] = true := by decide

/-! ## C06 Broadcasting is lawful -/

/-- A successful broadcast computes the mathematical broadcast of the dimensions. -/
theorem C06_broadcast_sound (a b c : ShapeV) (h : broadcast a b = some (.ok c)) :
    BCast a.dims b.dims c.dims := by
  unfold broadcast at h
  split at h <;> simp_all [ShapeV.dims] <;> try (first | (subst h; simp) | skip)
  all_goals first
    | exact BCast.same _
    | exact BCast.left _
    | exact BCast.right _
    | (obtain ⟨⟨rfl, rfl⟩, rfl⟩ := h; exact BCast.same _)
    | (split at h
       · simp_all; obtain ⟨_, rfl⟩ := h; exact BCast.same _
       · simp_all)

/-- Broadcasting with the scalar shape returns the other shape, on either side. -/
theorem C06_scalar_unit (a : ShapeV) :
    broadcast (.fixed []) a = some (.ok a) ∧ broadcast a (.fixed []) = some (.ok a) := by
  cases a with
  | fixed ds => cases ds <;> simp [broadcast]
  | dyn ds => simp [broadcast]

/-- Broadcasting a shape with itself returns it. -/
theorem C06_idempotent (a : ShapeV) : broadcast a a = some (.ok a) := by
  cases a with
  | fixed ds => cases ds <;> simp [broadcast]
  | dyn ds => simp [broadcast]

/-- Two runtime shapes of the same rank broadcast iff they are equal; otherwise the error carries
both shapes in call order. -/
theorem C06_dynamic (ds es : Dims) (h : ds.length = es.length) :
    (ds = es → broadcast (.dyn ds) (.dyn es) = some (.ok (.dyn ds))) ∧
      (ds ≠ es → broadcast (.dyn ds) (.dyn es) = some (.error ⟨ds, es⟩)) := by
  constructor
  · rintro rfl; simp [broadcast]
  · intro hne; simp [broadcast, h, hne]

/-- Failure happens only for two different runtime shapes; broadcasting involving a fixed shape
never fails at run time. -/
theorem C06_error_only_dynamic (a b : ShapeV) (e : IncShapes)
    (h : broadcast a b = some (.error e)) :
    a = .dyn e.left ∧ b = .dyn e.right ∧ e.left ≠ e.right := by
  unfold broadcast at h
  split at h <;> (try split at h) <;> (try split at h) <;> simp_all
  subst h; simp_all

/-- Swapping the operands gives the same shape or the reversed error. -/
theorem C06_comm (a b : ShapeV) :
    broadcast b a = (broadcast a b).map (fun r => r.mapError IncShapes.reverse) := by
  cases a with
  | fixed ds =>
    cases b with
    | fixed es =>
      cases ds <;> cases es <;> simp [broadcast, Except.mapError]
      rename_i d ds e es
      by_cases h : d = e ∧ ds = es
      · obtain ⟨rfl, rfl⟩ := h; simp
      · have h' : ¬ (e = d ∧ es = ds) := by rintro ⟨rfl, rfl⟩; exact h ⟨rfl, rfl⟩
        simp [h, h']
    | dyn es => cases ds <;> simp [broadcast, Except.mapError]
  | dyn ds =>
    cases b with
    | fixed es => cases es <;> simp [broadcast, Except.mapError]
    | dyn es =>
      by_cases hl : ds.length = es.length
      · by_cases h : ds = es
        · subst h; simp [broadcast, Except.mapError]
        · have h' : ¬ es = ds := fun e => h e.symm
          simp [broadcast, hl, h, h', Except.mapError, IncShapes.reverse]
      · have hl' : ¬ es.length = ds.length := fun e => hl e.symm
        simp [broadcast, hl, hl']

/-- `IncompatibleShapes::reverse` is an involution. -/
theorem C06_reverse_involutive (e : IncShapes) : e.reverse.reverse = e := rfl

example : broadcast (.dyn [2]) (.dyn [3]) = some (.error ⟨[2], [3]⟩) := by decide
example : broadcast (.fixed []) (.dyn [3]) = some (.ok (.dyn [3])) := by decide

end Aegir.Props
