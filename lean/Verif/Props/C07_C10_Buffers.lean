import Verif.Lemmas.Buffer
import Verif.Spec.Zip
/-!
# C07-C10: buffers
-/

namespace Aegir.Props

open Spec

variable {F A : Type}

/-! ## C07 build/get round trip -/

/-- A freshly built buffer has the requested shape. -/
theorem C07_shape_build (τ : BTy) (s : Shp τ) (f : Idx → F) : Buf.shape τ (Buf.build τ s f) = s :=
  Buf.shape_build τ s f

/-- `get` after `build`: `Some(f(ix))` inside the shape, `None` outside, never a panic. -/
theorem C07_get_build (τ : BTy) (s : Shp τ) (f : Idx → F) (ix : Idx) :
    (InBounds (Shp.dims τ s) ix → Buf.get τ (Buf.build τ s f) ix = some (some (f ix))) ∧
      (¬ InBounds (Shp.dims τ s) ix → Buf.get τ (Buf.build τ s f) ix = some none) := by
  refine ⟨fun h => ?_, fun h => ?_⟩
  · rw [Buf.get_eq, Buf.getU_build _ _ _ _ h]
  · rw [Buf.get_eq, Buf.getU_none]
    rwa [Buf.dims_build]

/-- `get` never panics, and is `Some` exactly on the indices accepted by `contains`. -/
theorem C07_get_total (τ : BTy) (b : Buf F τ) (ix : Idx) :
    ∃ r, Buf.get τ b ix = some r ∧ (r.isSome ↔ Shape.contains (Buf.dims τ b) ix = true) := by
  refine ⟨_, Buf.get_eq τ b ix, ?_⟩
  rw [Buf.getU_isSome_iff, contains_iff]

/-- `get_unchecked` panics exactly outside the shape; inside it agrees with `get`. -/
theorem C07_get_unchecked (τ : BTy) (b : Buf F τ) (ix : Idx) :
    Buf.get τ b ix = some (Buf.getU τ b ix) ∧
      (Buf.getU τ b ix = none ↔ ¬ InBounds (Buf.dims τ b) ix) := by
  refine ⟨Buf.get_eq τ b ix, ?_⟩
  rw [← Buf.getU_isSome_iff, Option.not_isSome_iff_eq_none]

/-- Two buffers of the same type and shape that agree on every contained index are equal. -/
theorem C07_ext (τ : BTy) (a b : Buf F τ) (hs : Buf.shape τ a = Buf.shape τ b)
    (h : ∀ ix, InBounds (Buf.dims τ a) ix → Buf.get τ a ix = Buf.get τ b ix) : a = b := by
  refine Buf.ext τ a b hs (fun ix hix => ?_)
  have := h ix hix
  rw [Buf.get_eq, Buf.get_eq] at this
  exact Option.some.inj this

/-- Every buffer is rebuilt from its own reader. -/
theorem C07_build_get (τ : BTy) (b : Buf F τ) (f : Idx → F)
    (h : ∀ ix, InBounds (Buf.dims τ b) ix → Buf.get τ b ix = some (some (f ix))) :
    Buf.build τ (Buf.shape τ b) f = b := by
  refine C07_ext τ _ _ (Buf.shape_build _ _ _) (fun ix hix => ?_)
  rw [Buf.dims_build] at hix
  rw [(C07_get_build τ _ f ix).1 hix, h ix hix]

/-- `full`, `zeroes`, `ones`, `diagonal`, `identity` entry by entry. -/
theorem C07_special_builders [Zero F] [One F] (τ : BTy) (s : Shp τ) (x : F) (ix : Idx)
    (h : InBounds (Shp.dims τ s) ix) :
    Buf.get τ (Buf.full τ s x) ix = some (some x) ∧
      Buf.get τ (Buf.zeroes τ s : Buf F τ) ix = some (some 0) ∧
      Buf.get τ (Buf.ones τ s : Buf F τ) ix = some (some 1) ∧
      ((∀ i ∈ ix, ∀ j ∈ ix, i = j) →
        Buf.get τ (Buf.diagonal τ s x) ix = some (some x) ∧
          Buf.get τ (Buf.identity τ s : Buf F τ) ix = some (some 1)) ∧
      (¬ (∀ i ∈ ix, ∀ j ∈ ix, i = j) →
        Buf.get τ (Buf.diagonal τ s x) ix = some (some 0) ∧
          Buf.get τ (Buf.identity τ s : Buf F τ) ix = some (some 0)) := by
  have hd : Shape.isDiagonal ix = true ↔ ∀ i ∈ ix, ∀ j ∈ ix, i = j := by
    cases ix with
    | nil => simp [Shape.isDiagonal]
    | cons a ix =>
      simp only [Shape.isDiagonal, List.all_eq_true, beq_iff_eq]
      constructor
      · intro h i hi j hj
        have key : ∀ x ∈ a :: ix, a = x := by
          intro x hx
          rcases List.mem_cons.1 hx with rfl | hx
          · rfl
          · exact h x hx
        rw [← key i hi, ← key j hj]
      · intro h x hx
        exact h a List.mem_cons_self x (List.mem_cons_of_mem _ hx)
  have hfull : ∀ y : F, Buf.get τ (Buf.full τ s y) ix = some (some y) := fun y => by
    rw [Buf.get_eq, Buf.getU_full _ _ _ _ h]
  refine ⟨hfull x, hfull 0, hfull 1, fun h' => ?_, fun h' => ?_⟩
  · rw [← hd] at h'
    simp [Buf.identity, Buf.diagonal, Buf.get_eq, Buf.getU_build _ _ _ _ h, h']
  · rw [← hd] at h'
    simp [Buf.identity, Buf.diagonal, Buf.get_eq, Buf.getU_build _ _ _ _ h, h']

/-- The special builders have the requested shape. -/
theorem C07_special_shapes [Zero F] [One F] (τ : BTy) (s : Shp τ) (x : F) :
    Buf.shape τ (Buf.full τ s x) = s ∧ Buf.shape τ (Buf.zeroes τ s : Buf F τ) = s ∧
      Buf.shape τ (Buf.ones τ s : Buf F τ) = s ∧ Buf.shape τ (Buf.diagonal τ s x) = s ∧
      Buf.shape τ (Buf.identity τ s : Buf F τ) = s :=
  ⟨Buf.shape_full _ _ _, Buf.shape_full _ _ _, Buf.shape_full _ _ _, Buf.shape_build _ _ _,
    Buf.shape_build _ _ _⟩

example : Buf.get (.array [2, 3]) (Buf.build (.array [2, 3]) () (fun ix => ix.sum)) [1, 2]
    = some (some 3) := rfl
example : Buf.get .vec (Buf.build .vec (2 : Nat) (fun ix => ix.sum)) [2] = some none := rfl

/-! ## C08 build_subset writes exactly the subset -/

/-- All indices inside the shape, in any order and with repetitions: no panic, the requested shape,
`active(ix)` on the subset and `base` elsewhere. -/
theorem C08_build_subset (τ : BTy) (s : Shp τ) (base : F) (ixs : List Idx) (active : Idx → F)
    (h : ∀ ix ∈ ixs, InBounds (Shp.dims τ s) ix) :
    ∃ b, Buf.buildSubset τ s base ixs active = some b ∧ Buf.shape τ b = s ∧
      ∀ jx, InBounds (Shp.dims τ s) jx →
        Buf.getU τ b jx = some (if jx ∈ ixs then active jx else base) := by
  cases τ with
  | scalar =>
    cases ixs with
    | nil =>
      refine ⟨base, rfl, rfl, fun jx hjx => ?_⟩
      have : jx = [] := Buf.inBounds_nil.1 hjx
      subst this; rfl
    | cons ix ixs =>
      have hix : ix = [] := Buf.inBounds_nil.1 (h ix List.mem_cons_self)
      refine ⟨active [], rfl, rfl, fun jx hjx => ?_⟩
      have : jx = [] := Buf.inBounds_nil.1 hjx
      subst this; subst hix; simp [Buf.getU]
  | array ds =>
    obtain ⟨b, hb, hb'⟩ := Buf.narr_loop (NArr.full ds base) ixs active h
    refine ⟨b, hb, rfl, fun jx hjx => ?_⟩
    refine (hb' jx hjx).trans ?_
    have hfull : NArr.getU ds (NArr.full ds base) jx = some base := NArr.getU_full base jx hjx
    rw [hfull]
    split <;> rfl
  | tuple =>
    refine ⟨_, rfl, rfl, fun jx hjx => ?_⟩
    have ⟨h1, h2⟩ := Buf.tuple_loop (base, base) ixs active
    rcases Buf.inBounds_two.1 hjx with rfl | rfl
    · exact congrArg some h1
    · exact congrArg some h2
  | vec =>
    have hlen : (List.replicate s base).length = s := List.length_replicate
    obtain ⟨b, hb, hbl, hb'⟩ := Buf.vec_loop (List.replicate s base) ixs active
      (by rw [hlen]; exact h)
    refine ⟨b, hb, hbl.trans hlen, fun jx hjx => ?_⟩
    obtain ⟨j, hj, rfl⟩ := Buf.inBounds_one.1 hjx
    refine (hb' j (by rw [hlen]; exact hj)).trans ?_
    have : (List.replicate s base)[j]? = some base := List.getElem?_replicate_of_lt hj
    rw [this]
    split <;> rfl

/-- Arrays and `Vec`: an out-of-range index in the subset panics. -/
theorem C08_out_of_range_panics (τ : BTy) (s : Shp τ) (base : F) (ixs : List Idx)
    (active : Idx → F) (hτ : τ = .vec ∨ ∃ ds, τ = .array ds) (ix : Idx) (hix : ix ∈ ixs)
    (hout : ¬ InBounds (Shp.dims τ s) ix) : Buf.buildSubset τ s base ixs active = none := by
  rcases hτ with rfl | ⟨ds, rfl⟩
  · have key : ∀ (n : Nat) (a : List F), a.length = n → ¬ InBounds [n] ix →
        ixs.foldlM (fun (buf : List F) ix =>
          match ix with
          | [i] => if i < buf.length then some (buf.set i (active [i])) else none
          | _ => none) a = none := by
      intro n
      clear hout
      induction ixs with
      | nil => simp at hix
      | cons jx ixs ih =>
        intro a ha hout
        rw [List.foldlM_cons]
        rcases List.mem_cons.1 hix with rfl | hix'
        · split
          · rename_i i
            have : ¬ i < a.length := fun hlt => hout (Buf.inBounds_one.2 ⟨i, by omega, rfl⟩)
            simp [this]
          · rfl
        · split
          · rename_i i
            by_cases hlt : i < a.length
            · simp only [hlt, if_true]
              exact ih hix' _ (by simpa using ha) hout
            · simp [hlt]
          · rfl
    exact key s (List.replicate s base) List.length_replicate hout
  · have key : ∀ a : NArr F ds,
        ixs.foldlM (fun buf ix => NArr.setU ds buf ix (active ix)) a = none := by
      induction ixs with
      | nil => simp at hix
      | cons jx ixs ih =>
        intro a
        rw [List.foldlM_cons]
        rcases List.mem_cons.1 hix with rfl | hix'
        · have : NArr.setU ds a ix (active ix) = none := by
            rw [← Option.not_isSome_iff_eq_none, NArr.setU_isSome]; exact hout
          rw [this]; rfl
        · cases NArr.setU ds a jx (active jx) with
          | none => rfl
          | some a' => exact ih hix' a'
    exact key _

/-- Tuples silently ignore out-of-range indices: the result is that of the in-range part. -/
theorem C08_tuple_ignores (s : Shp .tuple) (base : F) (ixs : List Idx) (active : Idx → F) :
    ∃ b, Buf.buildSubset .tuple s base ixs active = some b ∧
      Buf.getU .tuple b [0] = some (if [0] ∈ ixs then active [0] else base) ∧
      Buf.getU .tuple b [1] = some (if [1] ∈ ixs then active [1] else base) := by
  have ⟨h1, h2⟩ := Buf.tuple_loop (base, base) ixs active
  exact ⟨_, rfl, congrArg some h1, congrArg some h2⟩

example : Buf.buildSubset (.array [2]) () (0 : Nat) [[1], [1]] (fun _ => 7)
    = some (Buf.build (.array [2]) () (fun ix => if ix = [1] then 7 else 0)) := rfl
example : Buf.buildSubset .vec (2 : Nat) (0 : Nat) [[2]] (fun _ => 7) = none := rfl

/-! ## C09 map, map_ref and mutate agree -/

/-- All three apply `f` to every entry and keep the shape. -/
theorem C09_map_pointwise (τ : BTy) (b : Buf F τ) (f : F → A) (ix : Idx) :
    Buf.getU τ (Buf.map τ b f) ix = (Buf.getU τ b ix).map f ∧
      Buf.shape τ (Buf.map τ b f) = Buf.shape τ b :=
  ⟨Buf.getU_map τ b f ix, Buf.shape_map τ b f⟩

theorem C09_mapRef_eq_map (τ : BTy) (b : Buf F τ) (f : F → A) :
    Buf.mapRef τ b f = Buf.map τ b f := Buf.mapRef_eq_map τ b f

theorem C09_mutate_eq_map (τ : BTy) (b : Buf F τ) (f : F → F) :
    Buf.mutate τ b f = Buf.map τ b f := Buf.mutate_eq_map τ b f

/-- The default body of `map_ref` agrees with the overriding impls. -/
theorem C09_mapRef_default (τ : BTy) (b : Buf F τ) (g : Idx → F) (f : F → A)
    (hg : ∀ ix, InBounds (Buf.dims τ b) ix → Buf.getU τ b ix = some (g ix)) :
    Buf.mapRefDefault τ b g f = Buf.mapRef τ b f := by
  rw [Buf.mapRef_eq_map]
  refine Buf.ext τ _ _ ?_ (fun ix h => ?_)
  · rw [Buf.mapRefDefault, Buf.shape_build, Buf.shape_map]
  · rw [Buf.mapRefDefault, Buf.dims_build] at h
    rw [Buf.mapRefDefault, Buf.getU_build _ _ _ _ h, Buf.getU_map, hg ix h]; rfl

/-- Functor laws. -/
theorem C09_map_functor {B : Type} (τ : BTy) (b : Buf F τ) (f : F → A) (g : A → B) :
    Buf.map τ b id = b ∧ Buf.map τ (Buf.map τ b f) g = Buf.map τ b (fun x => g (f x)) :=
  ⟨Buf.map_id τ b, Buf.map_map τ b f g⟩

example : Buf.mutate .vec ([1, 2, 3] : List Nat) (· + 10) = [11, 12, 13] := rfl
example : Buf.mutate (.array [2, 2]) (Buf.build (.array [2, 2]) () (fun ix => ix.sum)) (· * 10)
    = Buf.build (.array [2, 2]) () (fun ix => ix.sum * 10) := rfl

/-! ## C10 fold visits every element once, in row-major order -/

/-- `fold` is the left fold over the entries listed in the order of `shape().indices()`. -/
theorem C10_fold_rowMajor (τ : BTy) (b : Buf F τ) (init : A) (f : A → F → A) :
    ∃ xs, IsEntries b xs ∧ Buf.fold τ b init f = xs.foldl f init :=
  ⟨Buf.entries τ b, Buf.entries_spec τ b, Buf.fold_eq_foldl τ b init f⟩

/-- The list of entries is determined by the buffer, so the theorem above pins the result. -/
theorem C10_entries_unique (τ : BTy) (b : Buf F τ) (xs ys : List F) (hx : IsEntries b xs)
    (hy : IsEntries b ys) : xs = ys :=
  List.map_injective_iff.2 (Option.some_injective F) (hx.symm.trans hy)

/-- The trait's default `fold` body (fold over `indices()` of `get_unchecked`) never panics and
agrees with every override. -/
theorem C10_default_fold (τ : BTy) (b : Buf F τ) (init : A) (f : A → F → A) :
    Buf.foldDefault τ b init f = some (Buf.fold τ b init f) := Buf.foldDefault_eq τ b init f

/-- `sum` adds the entries in index order, starting from zero. -/
theorem C10_sum [Zero F] [Add F] (τ : BTy) (b : Buf F τ) (xs : List F) (h : IsEntries b xs) :
    Buf.sum τ b = xs.foldl (· + ·) 0 := by
  obtain ⟨ys, hy, hf⟩ := C10_fold_rowMajor τ b (0 : F) (fun init el => init + el)
  rw [C10_entries_unique τ b xs ys h hy]; exact hf

example : Buf.fold (.array [2, 2]) (Buf.build (.array [2, 2]) () id) [] (fun acc x => acc ++ [x])
    = [[0,0],[0,1],[1,0],[1,1]] := rfl

end Aegir.Props
