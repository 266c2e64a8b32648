import Verif.Model.Contract
import Verif.Lemmas.Zip
import Verif.Spec.Scalar
import Verif.Spec.Contraction
import Mathlib.Algebra.BigOperators.Ring.Finset
import Mathlib.Tactic.Ring
/-! Helper lemmas about specs and contractions. -/

namespace Aegir

open Spec

variable {F A : Type}

namespace Buf

/-- The entry at `ix` (zero outside the shape). -/
def read [Zero F] {τ : BTy} (b : Buf F τ) (ix : Idx) : F := (getU τ b ix).getD 0

theorem getU_read [Zero F] {τ : BTy} (b : Buf F τ) (ix : Idx) (h : InBounds (dims τ b) ix) :
    getU τ b ix = some (read b ix) := by
  obtain ⟨x, hx⟩ := getU_some τ b ix h
  rw [read, hx]; rfl

theorem read_build [Zero F] {τ : BTy} (s : Shp τ) (f : Idx → F) (ix : Idx)
    (h : InBounds (Shp.dims τ s) ix) : read (build τ s f) ix = f ix := by
  rw [read, getU_build τ s f ix h]; rfl

theorem read_full [Zero F] {τ : BTy} (s : Shp τ) (x : F) (ix : Idx)
    (h : InBounds (Shp.dims τ s) ix) : read (full τ s x) ix = x := by
  rw [read, getU_full τ s x ix h]; rfl

theorem read_diagonal [Zero F] {τ : BTy} (s : Shp τ) (x : F) (ix : Idx)
    (h : InBounds (Shp.dims τ s) ix) :
    read (diagonal τ s x) ix = if Shape.isDiagonal ix then x else 0 := by
  rw [diagonal, read_build _ _ _ h]

theorem build_read [Zero F] {τ : BTy} (b : Buf F τ) : build τ (shape τ b) (read b) = b := by
  refine ext τ _ _ (shape_build _ _ _) (fun ix h => ?_)
  rw [dims_build] at h
  rw [getU_build _ _ _ _ h, getU_read b ix h]

theorem build_congr {τ : BTy} (s : Shp τ) (f g : Idx → F)
    (h : ∀ ix, InBounds (Shp.dims τ s) ix → f ix = g ix) : build τ s f = build τ s g := by
  refine ext τ _ _ ?_ (fun ix hix => ?_)
  · rw [shape_build, shape_build]
  · rw [dims_build] at hix
    rw [getU_build _ _ _ _ hix, getU_build _ _ _ _ hix, h ix hix]

/-- A buffer is the build of any function that agrees with its entries. -/
theorem eq_build {τ : BTy} (b : Buf F τ) (s : Shp τ) (f : Idx → F) (hs : shape τ b = s)
    (h : ∀ ix, InBounds (Shp.dims τ s) ix → getU τ b ix = some (f ix)) : b = build τ s f := by
  subst hs
  refine ext τ _ _ (shape_build _ _ _).symm (fun ix hix => ?_)
  rw [getU_build _ _ _ _ hix]
  exact h ix hix

end Buf

namespace BSpec

theorem shape_unwrap [Zero F] {τ : BTy} (x : BSpec F τ) : Buf.shape τ x.unwrap = x.shape := by
  cases x with
  | raw b => rfl
  | full s v => exact Buf.shape_full τ s v
  | diagonal s v => exact Buf.shape_build τ s _

theorem unwrap_map [Zero F] [Zero A] {τ : BTy} (x : BSpec F τ) (f : F → A) :
    (x.map f).unwrap = Buf.map τ x.unwrap f := by
  cases x with
  | raw b => rfl
  | full s v => exact (Buf.map_full τ s v f).symm
  | diagonal s v =>
    show Buf.build τ s _ = Buf.map τ (Buf.build τ s _) f
    rw [Buf.map_build]
    congr 1
    funext ix
    split <;> rfl

end BSpec

theorem zipMap_full [Zero F] {a b c : BTy} (z : ZipImpl a b c) (sx : Shp a) (sy : Shp b) (fx fy : F)
    (f : F → F → A) :
    Buf.zipMap z (Buf.full a sx fx) (Buf.full b sy fy) f =
      (z.broadcast sx sy).map (fun sz => Buf.full c sz (z.eff f fx fy)) := by
  have hb := Buf.broadcast_eq z (Buf.full a sx fx) (Buf.full b sy fy) f
  rw [Buf.shape_full, Buf.shape_full] at hb
  rw [hb]
  cases h : Buf.zipMap z (Buf.full a sx fx) (Buf.full b sy fy) f with
  | error e => rfl
  | ok r =>
    refine congrArg Except.ok ?_
    have hz := Buf.zipMap_isZip z _ _ f r h
    refine Buf.ext c _ _ (Buf.shape_full _ _ _).symm (fun ix hix => ?_)
    obtain ⟨u, v, hu, hv, hr⟩ := hz.2 ix hix
    rw [hr, Buf.getU_full _ _ _ _ hix]
    rw [Buf.dims_full] at hu hv
    have hbx : InBounds (Shp.dims a sx) (bIdx (Shp.dims a sx) ix) := by
      have := (Buf.getU_isSome_iff a (Buf.full a sx fx) (bIdx (Shp.dims a sx) ix)).1 (by rw [hu]; rfl)
      rwa [Buf.dims_full] at this
    have hby : InBounds (Shp.dims b sy) (bIdx (Shp.dims b sy) ix) := by
      have := (Buf.getU_isSome_iff b (Buf.full b sy fy) (bIdx (Shp.dims b sy) ix)).1 (by rw [hv]; rfl)
      rwa [Buf.dims_full] at this
    rw [Buf.getU_full _ _ _ _ hbx] at hu
    rw [Buf.getU_full _ _ _ _ hby] at hv
    cases hu; cases hv; rfl

/-! ## Dense contraction -/

theorem sumLoop_some [AddCommMonoid F] (n : Nat) (g : Nat → Option F) (h : Nat → F)
    (hg : ∀ k, k < n → g k = some (h k)) : sumLoop n g = some (∑ k ∈ Finset.range n, h k) := by
  unfold sumLoop
  induction n with
  | zero => simp
  | succ n ih =>
    rw [List.range_succ, List.foldlM_append, ih (fun k hk => hg k (by omega))]
    simp [hg n (by omega), Finset.sum_range_succ]

theorem sumLoop_none [AddCommMonoid F] (n : Nat) (g : Nat → Option F) (k : Nat) (hk : k < n)
    (hg : g k = none) : sumLoop n g = none := by
  unfold sumLoop
  induction n with
  | zero => omega
  | succ n ih =>
    rw [List.range_succ, List.foldlM_append]
    by_cases hkn : k < n
    · rw [ih hkn]; rfl
    · have : k = n := by omega
      subst this
      cases (List.range k).foldlM (fun acc k => (g k).map (fun t => acc + t)) 0 with
      | none => rfl
      | some v => simp [hg]

namespace NArr

theorem mkRowsOpt_some {d : Nat} {ds : Dims} (f : Fin d → Option (NArr F ds))
    (g : Fin d → NArr F ds) (h : ∀ i, f i = some (g i)) : mkRowsOpt f = some (mkRows g) := by
  have hs : ∀ i, (f i).isSome := fun i => by rw [h i]; rfl
  rw [mkRowsOpt, dif_pos hs]
  congr 2
  funext i
  simp [h i]

theorem mkRowsOpt_none {d : Nat} {ds : Dims} (f : Fin d → Option (NArr F ds)) (i : Fin d)
    (h : f i = none) : mkRowsOpt f = none := by
  have hs : ¬ ∀ i, (f i).isSome := fun hs => by have := hs i; rw [h] at this; cases this
  rw [mkRowsOpt, dif_neg hs]

theorem ofElemsOpt_some {d : Nat} (f : Fin d → Option F) (g : Fin d → F)
    (h : ∀ i, f i = some (g i)) : ofElemsOpt f = some (ofElems g) :=
  mkRowsOpt_some (ds := []) f g h

theorem ofElemsOpt_none {d : Nat} (f : Fin d → Option F) (i : Fin d) (h : f i = none) :
    ofElemsOpt f = none := mkRowsOpt_none (ds := []) f i h

theorem getU_mkRows {d : Nat} {ds : Dims} (f : Fin d → NArr F ds) (i : Nat) (ix : Idx) (h : i < d) :
    getU (d :: ds) (mkRows f) (i :: ix) = getU ds (f ⟨i, h⟩) ix := by
  rw [getU_cons _ _ _ h, row_mkRows]

theorem getU_nil (x : F) : getU [] (show NArr F [] from x) [] = some x := rfl

theorem getU_elem {d : Nat} (a : NArr F [d]) (i : Nat) (h : i < d) :
    getU [d] a [i] = some (elem a ⟨i, h⟩) := by
  rw [getU_cons _ _ _ h]; rfl

theorem getU_ofElems {d : Nat} (f : Fin d → F) (i : Nat) (h : i < d) :
    getU [d] (ofElems f) [i] = some (f ⟨i, h⟩) :=
  getU_mkRows (ds := []) f i [] h

theorem ofElems_eq_build {d : Nat} (f : Idx → F) :
    (ofElems (fun i : Fin d => f [i.val])) = build [d] f := rfl

end NArr

/-- What a contraction impl computes, entry by entry, as written in the loops. -/
def ContractImpl.fn [AddCommMonoid F] [Mul F] {axes : Nat} {a b c : BTy} :
    ContractImpl axes a b c → (Idx → F) → (Idx → F) → Idx → F
  | .ss0, X, Y, _ => X [] * Y []
  | .vs0 _, X, Y, ix => X ix * Y []
  | .sv0 _, X, Y, ix => Y ix * X []
  | .ms0 _ _, X, Y, ix => X ix * Y []
  | .vv0 _ _, X, Y, ix => X (ix.take 1) * Y (ix.drop 1)
  | .sm0 _ _, X, Y, ix => Y ix * X []
  | .ss1, X, Y, _ => X [] * Y []
  | .dot n, X, Y, _ => ∑ k ∈ Finset.range n, X [k] * Y [k]
  | .mv _ m, X, Y, ix => ∑ k ∈ Finset.range m, X (ix ++ [k]) * Y [k]
  | .mm _ z _, X, Y, ix => ∑ k ∈ Finset.range z, X (ix.take 1 ++ [k]) * Y (k :: ix.drop 1)
  | .vm _ m, X, Y, ix => ∑ k ∈ Finset.range m, X [k] * Y (k :: ix)

/-- The (unique) output shape. -/
def ContractImpl.outShape {axes : Nat} {a b c : BTy} : ContractImpl axes a b c → Shp c
  | .ss0 => ()
  | .vs0 _ => ()
  | .sv0 _ => ()
  | .ms0 _ _ => ()
  | .vv0 _ _ => ()
  | .sm0 _ _ => ()
  | .ss1 => ()
  | .dot _ => ()
  | .mv _ _ => ()
  | .mm _ _ _ => ()
  | .vm _ _ => ()

/-- No out-of-bounds access: needs `M ≤ N` in the matrix-vector and vector-matrix impls. -/
def ContractImpl.inRange {axes : Nat} {a b c : BTy} : ContractImpl axes a b c → Prop
  | .mv n m => m ≤ n
  | .vm n m => m ≤ n
  | _ => True

theorem inBounds_pair {n m : Nat} {ix : Idx} :
    InBounds [n, m] ix ↔ ∃ i j, i < n ∧ j < m ∧ ix = [i, j] := by
  constructor
  · intro h
    cases h with
    | cons h1 h2 =>
      cases h2 with
      | cons h2 h3 => cases h3; exact ⟨_, _, h1, h2, rfl⟩
  · rintro ⟨i, j, hi, hj, rfl⟩
    exact List.Forall₂.cons hi (List.Forall₂.cons hj List.Forall₂.nil)

theorem inBounds_one' {n i : Nat} (h : i < n) : InBounds [n] [i] := Buf.inBounds_one.2 ⟨i, h, rfl⟩
theorem inBounds_pair' {n m i j : Nat} (hi : i < n) (hj : j < m) : InBounds [n, m] [i, j] :=
  inBounds_pair.2 ⟨i, j, hi, hj, rfl⟩

variable [CommSemiring F]

theorem narr_getU_read {ds : Dims} (b : Buf F (.array ds)) (ix : Idx) (h : InBounds ds ix) :
    NArr.getU ds b ix = some (Buf.read b ix) := Buf.getU_read b ix h

theorem mutate_eq_build {ds : Dims} (b : Buf F (.array ds)) (f : F → F) :
    NArr.mutate ds b f = NArr.build ds (fun ix => f (Buf.read b ix)) := by
  refine Buf.eq_build (τ := .array ds) (NArr.mutate ds b f) () _ rfl (fun ix hix => ?_)
  show NArr.getU ds (NArr.mutate ds b f) ix = _
  rw [NArr.mutate_eq_map, NArr.getU_map, narr_getU_read b ix hix]; rfl

theorem indices_one (n : Nat) : Shape.indices [n] = (List.range n).map (fun i => [i]) := by
  simp [Shape.indices, Shape.iproductStep]

theorem foldlM_sum (n : Nat) (X Y : Nat → F) (g h : Idx → Option F)
    (hg : ∀ k, k < n → g [k] = some (X k)) (hh : ∀ k, k < n → h [k] = some (Y k)) :
    (Shape.indices [n]).foldlM (fun acc ix => (g ix).bind (fun x => (h ix).map
      (fun y => acc + x * y))) (0 : F) = some (∑ k ∈ Finset.range n, X k * Y k) := by
  rw [indices_one]
  induction n with
  | zero => simp
  | succ n ih =>
    rw [List.range_succ, List.map_append, List.foldlM_append,
      ih (fun k hk => hg k (by omega)) (fun k hk => hh k (by omega))]
    simp [hg n (by omega), hh n (by omega), Finset.sum_range_succ]

/-- The dense contraction returns exactly `fn`. -/
theorem contract_eq {axes : Nat} {a b c : BTy} (z : ContractImpl axes a b c) (x : Buf F a)
    (y : Buf F b) (h : z.inRange) :
    Buf.contract z x y = .ok (Buf.build c z.outShape (z.fn (Buf.read x) (Buf.read y))) := by
  cases z with
  | ss0 => rfl
  | ss1 => rfl
  | vs0 n => exact congrArg Res.ok (mutate_eq_build x _)
  | sv0 n => exact congrArg Res.ok (mutate_eq_build y _)
  | ms0 n m => exact congrArg Res.ok (mutate_eq_build x _)
  | sm0 n m => exact congrArg Res.ok (mutate_eq_build y _)
  | vv0 n m =>
    refine congrArg Res.ok ?_
    refine Buf.eq_build (τ := .array [n, m]) _ () _ rfl (fun ix hix => ?_)
    obtain ⟨i, j, hi, hj, rfl⟩ := inBounds_pair.1 hix
    show NArr.getU [n, m] (NArr.mkRows _) [i, j] = _
    rw [NArr.getU_mkRows _ _ _ hi, NArr.getU_map, narr_getU_read y [j] (inBounds_one' hj)]
    have hx : some (NArr.elem x ⟨i, hi⟩) = some (Buf.read x [i]) := by
      rw [← NArr.getU_elem, narr_getU_read x [i] (inBounds_one' hi)]
    have hx := Option.some.inj hx
    show some (NArr.elem x ⟨i, hi⟩ * _) = some _
    rw [hx]; rfl
  | dot n =>
    show Res.ofOption (NArr.zipFoldSelf [n] x y 0 _) = _
    rw [NArr.zipFoldSelf, foldlM_sum n (fun k => Buf.read x [k]) (fun k => Buf.read y [k])
      (NArr.getU [n] x) (NArr.getU [n] y)
      (fun k hk => narr_getU_read x [k] (inBounds_one' hk))
      (fun k hk => narr_getU_read y [k] (inBounds_one' hk))]
    rfl
  | mv n m =>
    have h : m ≤ n := h
    show Res.ofOption (NArr.ofElemsOpt _) = _
    rw [NArr.ofElemsOpt_some _
      (fun i => ∑ k ∈ Finset.range m, Buf.read x [i.val, k] * Buf.read y [k])]
    · rfl
    · intro i
      refine sumLoop_some m _ (fun k => Buf.read x [i.val, k] * Buf.read y [k]) (fun k hk => ?_)
      rw [narr_getU_read x _ (inBounds_pair' (by omega) hk),
        narr_getU_read y _ (inBounds_one' (by omega))]
      rfl
  | vm n m =>
    have h : m ≤ n := h
    show Res.ofOption (NArr.ofElemsOpt _) = _
    rw [NArr.ofElemsOpt_some _
      (fun i => ∑ k ∈ Finset.range m, Buf.read x [k] * Buf.read y [k, i.val])]
    · rfl
    · intro i
      refine sumLoop_some m _ (fun k => Buf.read x [k] * Buf.read y [k, i.val]) (fun k hk => ?_)
      rw [narr_getU_read x _ (inBounds_one' (by omega)),
        narr_getU_read y _ (inBounds_pair' (by omega) i.isLt)]
      rfl
  | mm n z m =>
    show Res.ofOption (NArr.mkRowsOpt _) = _
    rw [NArr.mkRowsOpt_some (ds := [m]) _
      (fun i => NArr.ofElems (fun j : Fin m =>
        ∑ k ∈ Finset.range z, Buf.read x [i.val, k] * Buf.read y [k, j.val]))]
    · rfl
    · intro i
      refine NArr.ofElemsOpt_some _ _ (fun j => ?_)
      refine sumLoop_some z _ (fun k => Buf.read x [i.val, k] * Buf.read y [k, j.val])
        (fun k hk => ?_)
      rw [narr_getU_read x _ (inBounds_pair' i.isLt hk),
        narr_getU_read y _ (inBounds_pair' hk j.isLt)]
      rfl

theorem contract_panic {axes : Nat} {a b c : BTy} (z : ContractImpl axes a b c) (x : Buf F a)
    (y : Buf F b) (h : ¬ z.inRange) : Buf.contract z x y = .panic := by
  cases z with
  | mv n m =>
    have h : ¬ m ≤ n := h
    show Res.ofOption (NArr.ofElemsOpt _) = _
    rw [NArr.ofElemsOpt_none _ (⟨n, by omega⟩ : Fin m)]
    · rfl
    · refine sumLoop_none m _ 0 (by omega) ?_
      rw [NArr.getU_none x _ (fun hb => ?_)]
      · rfl
      · obtain ⟨i, j, hi, hj, he⟩ := inBounds_pair.1 hb
        simp at he; omega
  | vm n m =>
    have h : ¬ m ≤ n := h
    show Res.ofOption (NArr.ofElemsOpt _) = _
    rw [NArr.ofElemsOpt_none _ (⟨0, by omega⟩ : Fin m)]
    · rfl
    · refine sumLoop_none m _ n (by omega) ?_
      rw [NArr.getU_none x _ (fun hb => ?_)]
      · rfl
      · obtain ⟨i, hi, he⟩ := Buf.inBounds_one.1 hb
        simp at he; omega
  | _ => exact absurd trivial h

end Aegir
