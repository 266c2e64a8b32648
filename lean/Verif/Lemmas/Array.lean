import Verif.Model.Array
import Verif.Lemmas.Shape
import Mathlib.Data.List.FinRange
/-! Helper lemmas about nested arrays. -/

namespace Aegir

open Spec

namespace NArr
variable {F A B : Type}

@[simp] theorem row_mkRows {d : Nat} {ds : Dims} (f : Fin d → NArr F ds) (i : Fin d) :
    (mkRows f).row i = f i := by
  have h : (Vector.ofFn f)[i.val] = f i := by simp
  exact h

theorem row_setRow {d : Nat} {ds : Dims} (a : NArr F (d :: ds)) (i j : Fin d) (x : NArr F ds) :
    (a.setRow i x).row j = if j = i then x else a.row j := by
  have key : ∀ (v : Vector (NArr F ds) d),
      (v.set i.val x i.isLt).get j = if j = i then x else v.get j := by
    intro v
    have h1 : (v.set i.val x i.isLt).get j = (v.set i.val x i.isLt)[j.val] := rfl
    have h2 : v.get j = v[j.val] := rfl
    rw [h1, h2, Vector.getElem_set]
    by_cases h : j = i
    · simp [h]
    · simp [h, Fin.val_inj, Ne.symm h]
  exact key a

theorem ext_rows {d : Nat} {ds : Dims} {a b : NArr F (d :: ds)} (h : ∀ i, a.row i = b.row i) :
    a = b := by
  apply Vector.ext
  intro i hi
  exact h ⟨i, hi⟩

/-- Every loop `for i in 0..d { self[i] = g(i, self[i]) }` is a pointwise update. -/
theorem row_loop_set {d : Nat} {ds : Dims} (g : Fin d → NArr F ds → NArr F ds) (l : List (Fin d))
    (hl : l.Nodup) (a : NArr F (d :: ds)) (j : Fin d) :
    (l.foldl (fun (self : NArr F (d :: ds)) i => self.setRow i (g i (self.row i))) a).row j =
      if j ∈ l then g j (a.row j) else a.row j := by
  induction l generalizing a with
  | nil => simp
  | cons i l ih =>
    rw [List.foldl_cons, ih (List.nodup_cons.1 hl).2, row_setRow]
    have hnot : i ∉ l := (List.nodup_cons.1 hl).1
    by_cases hij : j = i
    · subst hij; simp [hnot]
    · simp [hij]

theorem loop_set {d : Nat} {ds : Dims} (g : Fin d → NArr F ds → NArr F ds) (a : NArr F (d :: ds)) :
    (List.finRange d).foldl (fun (self : NArr F (d :: ds)) i => self.setRow i (g i (self.row i))) a
      = mkRows (fun i => g i (a.row i)) := by
  apply ext_rows
  intro i
  rw [row_loop_set g _ (List.nodup_finRange d)]
  simp

theorem inBounds_cons {d : Nat} {ds : Dims} {i : Nat} {ix : Idx} :
    InBounds (d :: ds) (i :: ix) ↔ i < d ∧ InBounds ds ix := List.forall₂_cons

theorem getU_cons {d : Nat} {ds : Dims} (a : NArr F (d :: ds)) (i : Nat) (ix : Idx) (h : i < d) :
    getU (d :: ds) a (i :: ix) = getU ds (a.row ⟨i, h⟩) ix := by
  simp [getU, h]

theorem getU_isSome_iff {ds : Dims} (a : NArr F ds) (ix : Idx) :
    (getU ds a ix).isSome ↔ InBounds ds ix := by
  induction ds generalizing ix with
  | nil =>
    cases ix with
    | nil => exact iff_of_true rfl List.Forall₂.nil
    | cons => simp [getU, InBounds]
  | cons d ds ih =>
    cases ix with
    | nil => simp [getU, InBounds]
    | cons i ix =>
      rw [inBounds_cons]
      by_cases h : i < d
      · rw [getU_cons a i ix h, ih]; simp [h]
      · simp [getU, h]

theorem getU_none {ds : Dims} (a : NArr F ds) (ix : Idx) (h : ¬ InBounds ds ix) :
    getU ds a ix = none := by
  rw [← Option.not_isSome_iff_eq_none, getU_isSome_iff]; exact h

theorem ext {ds : Dims} {a b : NArr F ds} (h : ∀ ix, InBounds ds ix → getU ds a ix = getU ds b ix) :
    a = b := by
  induction ds with
  | nil =>
    have := h [] (by simp [InBounds])
    exact Option.some.inj this
  | cons d ds ih =>
    apply ext_rows
    intro i
    apply ih
    intro ix hix
    have := h (i.val :: ix) (inBounds_cons.2 ⟨i.isLt, hix⟩)
    rwa [getU_cons a i ix i.isLt, getU_cons b i ix i.isLt] at this

theorem getU_build {ds : Dims} (f : Idx → F) (ix : Idx) (h : InBounds ds ix) :
    getU ds (build ds f) ix = some (f ix) := by
  induction ds generalizing f ix with
  | nil => cases h; simp [getU, build]
  | cons d ds ih =>
    cases h with
    | cons hi hix =>
      rw [getU_cons _ _ _ hi, build]
      rw [row_mkRows, ih _ _ hix]

theorem getU_full {ds : Dims} (x : F) (ix : Idx) (h : InBounds ds ix) :
    getU ds (full ds x) ix = some x := by
  induction ds generalizing ix with
  | nil => cases h; simp [getU, full]
  | cons d ds ih =>
    cases h with
    | cons hi hix =>
      rw [getU_cons _ _ _ hi, full]
      rw [row_mkRows, ih _ hix]

theorem getU_map {ds : Dims} (a : NArr F ds) (f : F → A) (ix : Idx) :
    getU ds (map ds a f) ix = (getU ds a ix).map f := by
  induction ds generalizing ix with
  | nil => cases ix <;> rfl
  | cons d ds ih =>
    cases ix with
    | nil => simp [getU]
    | cons i ix =>
      by_cases h : i < d
      · rw [getU_cons _ _ _ h, getU_cons _ _ _ h, map]
        rw [row_mkRows, ih]
      · simp [getU, h]

theorem mapRef_eq_map {ds : Dims} (a : NArr F ds) (f : F → A) : mapRef ds a f = map ds a f := by
  induction ds with
  | nil => rfl
  | cons d ds ih =>
    rw [mapRef, map]
    simp only [ih]

theorem mutate_eq_map {ds : Dims} (a : NArr F ds) (f : F → F) : mutate ds a f = map ds a f := by
  induction ds with
  | nil => rfl
  | cons d ds ih =>
    rw [mutate, map, loop_set (fun _ x => mutate ds x f)]
    simp only [ih]

theorem zipMutSelf_eq {ds : Dims} (a b : NArr F ds) (f : F → F → F) :
    zipMutSelf ds a b f = zipMapSelf ds a b f := by
  induction ds with
  | nil => rfl
  | cons d ds ih =>
    rw [zipMutSelf, zipMapSelf, loop_set (fun i x => zipMutSelf ds x (b.row i) f)]
    simp [ih]

theorem zipMutFieldR_eq {ds : Dims} (a : NArr F ds) (y : F) (f : F → F → F) :
    zipMutFieldR ds a y f = zipMapFieldR ds a y f := by
  induction ds with
  | nil => rfl
  | cons d ds ih =>
    rw [zipMutFieldR, zipMapFieldR, loop_set (fun _ x => zipMutFieldR ds x y f)]
    simp [ih]

theorem getU_zipMapSelf {ds : Dims} (a : NArr F ds) (b : NArr B ds) (f : F → B → A) (ix : Idx)
    (h : InBounds ds ix) :
    ∃ x y, getU ds a ix = some x ∧ getU ds b ix = some y ∧
      getU ds (zipMapSelf ds a b f) ix = some (f x y) := by
  induction ds generalizing ix with
  | nil => cases h; exact ⟨a, b, rfl, rfl, rfl⟩
  | cons d ds ih =>
    cases h with
    | cons hi hix =>
      rw [getU_cons _ _ _ hi, getU_cons _ _ _ hi, getU_cons _ _ _ hi, zipMapSelf, row_mkRows]
      exact ih _ _ _ hix

theorem zipMapFieldR_eq_map {ds : Dims} (a : NArr F ds) (y : B) (f : F → B → A) :
    zipMapFieldR ds a y f = map ds a (fun x => f x y) := by
  induction ds with
  | nil => rfl
  | cons d ds ih =>
    rw [zipMapFieldR, map]
    simp only [ih]

/-- Scalar on the left, rank at most 1: `f(scalar, entry)`. -/
theorem zipMapFieldL_rank1 {ds : Dims} (hr : ds.length ≤ 1) (x : F) (b : NArr F ds)
    (f : F → F → A) : zipMapFieldL ds x b f = map ds b (fun y => f x y) := by
  match ds, hr with
  | [], _ => rfl
  | [d], _ =>
    rw [zipMapFieldL, map]
    rfl

/-- Scalar on the left, rank at least 2: the arguments are swapped. -/
theorem zipMapFieldL_rank2 {ds : Dims} (hr : 2 ≤ ds.length) (x : F) (b : NArr F ds)
    (f : F → F → A) : zipMapFieldL ds x b f = map ds b (fun y => f y x) := by
  match ds, hr with
  | d :: e :: ds, _ =>
    rw [zipMapFieldL, map]
    simp only [zipMapFieldR_eq_map]

/-- The entries in row-major order. -/
def entries : (ds : Dims) → NArr F ds → List F
  | [], x => [x]
  | d :: ds, a => (List.finRange d).flatMap (fun i => entries ds (a.row i))

theorem entries_spec {ds : Dims} (a : NArr F ds) :
    (Shape.indices ds).map (getU ds a) = (entries ds a).map some := by
  induction ds with
  | nil => rfl
  | cons d ds ih =>
    rw [indices_cons, entries, List.map_flatMap, List.map_flatMap]
    have hr : List.range d = (List.finRange d).map Fin.val := by
      simp
    rw [hr, List.flatMap_map]
    congr 1
    funext i
    rw [← ih, List.map_map]
    apply List.map_congr_left
    intro ix _
    simp only [Function.comp]
    exact getU_cons a i.val ix i.isLt

theorem fold_eq_foldl {ds : Dims} (a : NArr F ds) (init : A) (f : A → F → A) :
    fold ds a init f = (entries ds a).foldl f init := by
  induction ds generalizing init with
  | nil => rfl
  | cons d ds ih =>
    rw [fold, entries, List.foldl_flatMap]
    congr 1
    funext acc i
    rw [ih]

theorem setU_isSome {ds : Dims} (a : NArr F ds) (ix : Idx) (v : F) :
    (setU ds a ix v).isSome ↔ InBounds ds ix := by
  induction ds generalizing ix with
  | nil =>
    cases ix with
    | nil => exact iff_of_true rfl List.Forall₂.nil
    | cons => simp [setU, InBounds]
  | cons d ds ih =>
    cases ix with
    | nil => simp [setU, InBounds]
    | cons i ix =>
      rw [inBounds_cons, setU]
      by_cases h : i < d
      · simp [h, ih]
      · simp [h]

theorem getU_setU {ds : Dims} (a b : NArr F ds) (ix jx : Idx) (v : F) (h : setU ds a ix v = some b)
    (hj : InBounds ds jx) : getU ds b jx = if jx = ix then some v else getU ds a jx := by
  induction ds generalizing ix jx with
  | nil =>
    cases hj
    cases ix with
    | nil =>
      have h : v = b := Option.some.inj h
      subst h; simp [getU]
    | cons i ix => simp [setU] at h
  | cons d ds ih =>
    cases ix with
    | nil => simp [setU] at h
    | cons i ix =>
      rw [setU] at h
      by_cases hi : i < d
      · simp only [hi, dif_pos, Option.map_eq_some_iff] at h
        obtain ⟨x, hx, rfl⟩ := h
        cases hj with
        | @cons j _ jx _ hjd hjx =>
          rw [getU_cons _ _ _ hjd, getU_cons _ _ _ hjd]
          by_cases hij : j = i
          · subst hij
            rw [row_setRow, if_pos rfl, ih _ _ _ _ hx hjx]
            simp
          · rw [row_setRow, if_neg (by simpa using hij)]
            simp [hij]
      · simp [hi] at h

end NArr

end Aegir
