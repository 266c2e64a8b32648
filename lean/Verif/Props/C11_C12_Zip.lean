import Verif.Lemmas.Zip
/-!
# C11-C12: zip operations
-/

namespace Aegir.Props

open Spec

variable {F A : Type}

/-! ## C11 zip_map combines pointwise, operands in order

Full statement: for every impl, `zip_map(x, y, f) = Ok(r)` implies `IsZip x y f r`. The code
violates it for a scalar on the left of an array of rank ≥ 2 (see `C11_violation`). -/

/-- Pointwise, in order, scalars broadcast: for every impl other than scalar-with-array of
rank ≥ 2, and for every impl when `f` is symmetric. Missing: scalar-with-array of rank ≥ 2 and a
non-symmetric `f`, where the claim is false. -/
theorem C11_zip_pointwise_partial {a b c : BTy} (z : ZipImpl a b c) (x : Buf F a) (y : Buf F b)
    (f : F → F → A) (r : Buf A c)
    (hord : (a = .scalar → ∀ ds, b = .array ds → ds.length ≤ 1) ∨ ∀ u v, f u v = f v u)
    (h : Buf.zipMap z x y f = .ok r) : IsZip x y f r := by
  have := Buf.zipMap_isZip z x y f r h
  rcases hord with hord | hcomm
  · have hsw : z.swaps = false := by
      cases z with
      | sa ds => have := hord rfl ds rfl; simp [ZipImpl.swaps]; omega
      | _ => rfl
    rwa [ZipImpl.eff_of_not_swaps z hsw] at this
  · rwa [ZipImpl.eff_comm z f hcomm] at this

/-- `zip_map` succeeds exactly when the shapes broadcast, whatever `f` is. -/
theorem C11_zip_ok_iff {a b c : BTy} (z : ZipImpl a b c) (x : Buf F a) (y : Buf F b)
    (f : F → F → A) :
    (∃ r, Buf.zipMap z x y f = .ok r) ↔ ∃ ds, BCast (Buf.dims a x) (Buf.dims b y) ds := by
  constructor
  · rintro ⟨r, hr⟩
    exact ⟨_, (Buf.zipMap_isZip z x y f r hr).1⟩
  · rintro ⟨ds, hds⟩
    cases h : Buf.zipMap z x y f with
    | ok r => exact ⟨r, rfl⟩
    | error e => exact absurd hds ((Buf.zipMap_error z x y f e h).2 ds)

/-- The error reports both shapes, left first. -/
theorem C11_zip_error {a b c : BTy} (z : ZipImpl a b c) (x : Buf F a) (y : Buf F b)
    (f : F → F → A) (e : IncShapes) (h : Buf.zipMap z x y f = .error e) :
    e = ⟨Buf.dims a x, Buf.dims b y⟩ := (Buf.zipMap_error z x y f e h).1

/-- The pointwise combination is unique, so `C11_zip_pointwise_partial` determines the result. -/
theorem C11_zip_unique {a b c : BTy} (x : Buf F a) (y : Buf F b) (f : F → F → A)
    (r r' : Buf A c) (h : IsZip x y f r) (h' : IsZip x y f r') : r = r' := by
  refine Buf.isZip_unique x y f r r' h h' ?_
  cases c with
  | vec =>
    have h1 := h.1; have h2 := h'.1
    have key : ∀ p q d e : Dims, BCast p q d → BCast p q e → d = e := by
      intro p q d e h1 h2
      cases h1 <;> cases h2 <;> rfl
    have h3 : [List.length r] = [List.length r'] := key _ _ _ _ h1 h2
    show List.length r = List.length r'
    simpa using h3
  | _ => rfl

/-- What the code computes for a scalar on the left of an array of rank ≥ 2: operands swapped. -/
theorem C11_violation (ds : Dims) (hds : 2 ≤ ds.length) (x : Buf F .scalar)
    (y : Buf F (.array ds)) (f : F → F → A) :
    ∃ r, Buf.zipMap (.sa ds) x y f = .ok r ∧ IsZip x y (fun u v => f v u) r := by
  refine ⟨_, rfl, ?_⟩
  have := Buf.zipMap_isZip (.sa ds) x y f _ rfl
  simpa [ZipImpl.eff, ZipImpl.swaps, hds] using this

/-- Concrete witness: `5.zip_map([[1]], |a, b| a - b)` holds `1 - 5`, not `5 - 1`. -/
theorem C11_violation_witness :
    ∃ r, Buf.zipMap (.sa [1, 1]) (5 : ℤ) (Buf.build (.array [1, 1]) () (fun _ => 1)) (· - ·) = .ok r ∧
      Buf.getU (.array [1, 1]) r [0, 0] = some (-4) ∧
      ¬ IsZip (a := .scalar) (b := .array [1, 1]) (5 : ℤ)
        (Buf.build (.array [1, 1]) () (fun _ => 1)) (· - ·) r := by
  refine ⟨_, rfl, rfl, fun h => ?_⟩
  obtain ⟨u, v, hu, hv, hr⟩ := h.2 [0, 0] (by
    show InBounds [1, 1] [0, 0]
    simp [InBounds])
  cases hu; cases hv
  have : (some (-4) : Option ℤ) = some (5 - 1) := hr
  exact absurd this (by decide)

example : ∃ r, Buf.zipMap .vv (show Buf ℤ .vec from [1, 2]) (show Buf ℤ .vec from [10, 20]) (· - ·)
    = .ok r ∧ r = [-9, -18] := ⟨_, rfl, rfl⟩
example : Buf.zipMap .vv (show Buf ℤ .vec from [1, 2]) (show Buf ℤ .vec from [10]) (· - ·)
    = .error ⟨[2], [1]⟩ := rfl

/-! ## C12 the zip operations agree -/

/-- `zip_map_id` = `zip_map`. -/
theorem C12_zipMapId {a b c : BTy} (z : ZipImpl a b c) (x : Buf F a) (y : Buf F b)
    (f : F → F → F) : Buf.zipMapId z x y f = Buf.zipMap z x y f := Buf.zipMapId_eq z x y f

/-- `zip_mut` leaves in `self` the pointwise combination and never fails. -/
theorem C12_zipMut {a b : BTy} (z : Buf.ZipMutImpl a b) (x : Buf F a) (y : Buf F b)
    (f : F → F → F) : ∃ r, Buf.zipMut z x y f = .ok r ∧ IsZip x y f r := by
  cases z with
  | aa ds =>
    refine ⟨NArr.zipMapSelf ds x y f, Buf.zipMut_eq (.aa ds) x y f, ?_⟩
    exact C11_zip_pointwise_partial (.aa ds) x y f _ (.inl (by simp)) rfl
  | as ds =>
    refine ⟨NArr.zipMapFieldR ds x y f, Buf.zipMut_eq (.as ds) x y f, ?_⟩
    exact C11_zip_pointwise_partial (.as ds) x y f _ (.inl (by simp)) rfl

/-- `zip_fold` is the fold, in row-major order, over the entries of `zip_map(|a, b| (a, b))`; it
never panics and fails exactly when `zip_map` does, with the same error. -/
theorem C12_zipFold {a b : BTy} (z : Buf.ZipFoldImpl a b) (x : Buf F a) (y : Buf F b) (init : A)
    (f : A → F × F → A) :
    (∀ e, Buf.zipMap z.toZip x y (fun u v => (u, v)) = .error e → Buf.zipFold z x y init f = .err e) ∧
    (∀ r, Buf.zipMap z.toZip x y (fun u v => (u, v)) = .ok r →
      IsZip x y (fun u v => (u, v)) r ∧
      ∃ ps, IsEntries r ps ∧ Buf.zipFold z x y init f = .ok (ps.foldl f init)) := by
  rw [Buf.zipFold_eq]
  refine ⟨fun e he => by rw [he]; rfl, fun r hr => ⟨?_, Buf.entries a r, Buf.entries_spec a r, ?_⟩⟩
  · refine C11_zip_pointwise_partial z.toZip x y _ r (.inl ?_) hr
    cases z <;> simp
  · rw [hr]; rfl

/-- `zip_shape` broadcasts `self` against the given shape: same entries, broadcast extents. -/
theorem C12_zipShape_entries {a b c : BTy} (z : ZipImpl a b c) (x : Buf F a) (s : Shp b)
    (r : Buf F c) (h : Buf.zipShape z x s = .ok r) : IsBroadcast x (Shp.dims b s) r :=
  Buf.zipShape_isBroadcast z x s r h

/-- `zip_shape` against the shape of `y` succeeds or fails exactly as `zip_map` with `y` does, with
the same error, and is `zip_map` with "take the left operand". -/
theorem C12_zipShape {a b c : BTy} (z : ZipImpl a b c) (x : Buf F a) (y : Buf F b)
    (f : F → F → A) :
    (∀ e, Buf.zipMap z x y f = .error e ↔ Buf.zipShape z x (Buf.shape b y) = .error e) ∧
    (∀ r, Buf.zipShape z x (Buf.shape b y) = .ok r → IsZip x y (fun u _ => u) r ∧
      ∀ r', Buf.zipMap z x y f = .ok r' → Buf.shape c r' = Buf.shape c r) := by
  have h1 := Buf.broadcast_eq z x y f
  have h2 := Buf.broadcast_eq z x y (z.eff (fun u _ => u))
  rw [Buf.zipShape_eq]
  refine ⟨fun e => ?_, fun r hr => ⟨?_, fun r' hr' => ?_⟩⟩
  · constructor
    · intro he
      rw [he] at h1; rw [h1] at h2
      cases h : Buf.zipMap z x y (z.eff (fun u _ => u)) with
      | ok r => rw [h] at h2; cases h2
      | error e' => rw [h] at h2; cases h2; rfl
    · intro he
      rw [he] at h2; rw [h2] at h1
      cases h : Buf.zipMap z x y f with
      | ok r => rw [h] at h1; cases h1
      | error e' => rw [h] at h1; cases h1; rfl
  · have := Buf.zipMap_isZip z x y _ r hr
    have heff : z.eff (z.eff (fun u (_ : F) => u)) = fun u _ => u := by
      unfold ZipImpl.eff; split <;> rfl
    rwa [heff] at this
  · rw [hr'] at h1; rw [hr] at h2; rw [h1] at h2
    exact Except.ok.inj h2

/-- `Broadcast` of the shapes predicts the outcome of `zip_map`. -/
theorem C12_broadcast {a b c : BTy} (z : ZipImpl a b c) (x : Buf F a) (y : Buf F b)
    (f : F → F → A) :
    z.broadcast (Buf.shape a x) (Buf.shape b y) = (Buf.zipMap z x y f).map (Buf.shape c) :=
  Buf.broadcast_eq z x y f

example : Buf.zipFold .vv (show Buf ℕ .vec from [1, 2]) (show Buf ℕ .vec from [10, 20]) 0
    (fun acc p => acc + p.1 * p.2) = .ok 50 := rfl
example : Buf.zipShape .sv (7 : ℕ) (3 : ℕ) = .ok (show Buf ℕ .vec from [7, 7, 7]) := rfl

end Aegir.Props
