import Verif.Spec.Index
import Mathlib.Tactic.Ring
import Mathlib.Data.List.Induction
/-! Helper lemmas about shapes. -/

namespace Aegir

open Spec

theorem cardinality_eq_prod (ds : Dims) : Shape.cardinality ds = ds.prod := by
  rw [Shape.cardinality, List.prod_eq_foldl]

theorem indices_snoc (ds : Dims) (d : Nat) :
    Shape.indices (ds ++ [d]) = Shape.iproductStep (Shape.indices ds) d := by
  simp [Shape.indices, List.foldl_append]

@[simp] theorem indices_nil : Shape.indices [] = [[]] := rfl

theorem mem_iproductStep {l : List Idx} {d : Nat} {ix : Idx} :
    ix ∈ Shape.iproductStep l d ↔ ∃ ix' ∈ l, ∃ j < d, ix = ix' ++ [j] := by
  simp [Shape.iproductStep, eq_comm]

theorem inBounds_snoc {ds : Dims} {d : Nat} {ix : Idx} :
    InBounds (ds ++ [d]) ix ↔ ∃ ix', InBounds ds ix' ∧ ∃ j < d, ix = ix' ++ [j] := by
  constructor
  · intro h
    have ha := List.forall₂_take_append _ _ _ h
    have hb := List.forall₂_drop_append _ _ _ h
    have hsplit := List.take_append_drop ds.length ix
    generalize ix.take ds.length = a at *
    generalize ix.drop ds.length = b at *
    subst hsplit
    cases hb with
    | cons h1 h2 => cases h2; exact ⟨a, ha, _, h1, rfl⟩
  · rintro ⟨a, ha, j, hj, rfl⟩
    exact List.rel_append ha (List.Forall₂.cons hj List.Forall₂.nil)

theorem mem_indices {ds : Dims} {ix : Idx} : ix ∈ Shape.indices ds ↔ InBounds ds ix := by
  induction ds using List.reverseRecOn generalizing ix with
  | nil => simp [InBounds]
  | append_singleton ds d ih =>
    rw [indices_snoc, mem_iproductStep, inBounds_snoc]
    simp only [ih]

theorem inBounds_length {ds : Dims} {ix : Idx} (h : InBounds ds ix) : ix.length = ds.length :=
  List.Forall₂.length_eq h

theorem lex_snoc {a b : Idx} {i j : Nat} (hl : a.length = b.length)
    (h : LexLt a b ∨ (a = b ∧ i < j)) : LexLt (a ++ [i]) (b ++ [j]) := by
  rcases h with h | ⟨rfl, h⟩
  · unfold LexLt at *
    induction h with
    | nil => simp at hl
    | cons _ ih => exact List.Lex.cons (ih (by simpa using hl))
    | rel h => exact List.Lex.rel h
  · unfold LexLt
    induction a with
    | nil => exact List.Lex.rel h
    | cons x xs ih => exact List.Lex.cons (ih rfl)

theorem pairwise_indices (ds : Dims) : (Shape.indices ds).Pairwise LexLt := by
  induction ds using List.reverseRecOn with
  | nil => simp
  | append_singleton ds d ih =>
    rw [indices_snoc, Shape.iproductStep, List.pairwise_flatMap]
    constructor
    · intro ix _
      rw [List.pairwise_map]
      exact (List.pairwise_lt_range (n := d)).imp (fun h => lex_snoc rfl (Or.inr ⟨rfl, h⟩))
    · have hlen : ∀ ix ∈ Shape.indices ds, ix.length = ds.length :=
        fun ix h => inBounds_length (mem_indices.1 h)
      refine List.Pairwise.imp_of_mem ?_ ih
      intro a b ha hb hab x hx y hy
      simp only [List.mem_map] at hx hy
      obtain ⟨i, _, rfl⟩ := hx
      obtain ⟨j, _, rfl⟩ := hy
      exact lex_snoc ((hlen a ha).trans (hlen b hb).symm) (Or.inl hab)

theorem lexLt_irrefl (a : Idx) : ¬ LexLt a a := by
  unfold LexLt
  induction a with
  | nil => intro h; cases h
  | cons x xs ih =>
    intro h
    cases h with
    | cons h => exact ih h
    | rel h => exact lt_irrefl _ h

theorem nodup_indices (ds : Dims) : (Shape.indices ds).Nodup :=
  (pairwise_indices ds).imp (fun {a b} h (hab : a = b) => lexLt_irrefl a (by rw [hab] at h ⊢; exact h))

theorem length_iproductStep (l : List Idx) (d : Nat) :
    (Shape.iproductStep l d).length = l.length * d := by
  induction l with
  | nil => simp [Shape.iproductStep]
  | cons a l ih =>
    simp only [Shape.iproductStep, List.flatMap_cons, List.length_append, List.length_map,
      List.length_range, List.length_cons] at *
    rw [ih]; ring

theorem length_indices (ds : Dims) : (Shape.indices ds).length = Shape.cardinality ds := by
  induction ds using List.reverseRecOn with
  | nil => rfl
  | append_singleton ds d ih =>
    rw [indices_snoc, length_iproductStep, ih]
    simp [Shape.cardinality, List.foldl_append]

theorem contains_iff {ds : Dims} {ix : Idx} : Shape.contains ds ix = true ↔ InBounds ds ix := by
  unfold Shape.contains InBounds
  induction ix generalizing ds with
  | nil => cases ds <;> simp
  | cons i ix ih =>
    cases ds with
    | nil => simp
    | cons d ds =>
      have := @ih ds
      simp only [Bool.and_eq_true, beq_iff_eq] at this
      simp only [List.length_cons, List.zip_cons_cons, List.all_cons, Bool.and_eq_true, beq_iff_eq,
        List.forall₂_cons, ← this, decide_eq_true_eq, Nat.add_right_cancel_iff]
      tauto

/-- The enumeration, by recursion on the first axis. -/
theorem indices_cons (d : Nat) (ds : Dims) :
    Shape.indices (d :: ds) =
      (List.range d).flatMap (fun i => (Shape.indices ds).map (fun ix => i :: ix)) := by
  induction ds using List.reverseRecOn with
  | nil =>
    simp [Shape.indices, Shape.iproductStep, List.map_eq_flatMap]
  | append_singleton ds e ih =>
    rw [← List.cons_append, indices_snoc, ih, indices_snoc]
    simp [Shape.iproductStep, List.flatMap_assoc, List.flatMap_map, List.map_flatMap, Function.comp_def]

end Aegir
