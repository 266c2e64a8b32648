import Verif.Lemmas.ContractSpec
import Verif.Spec.Instances
/-!
# C13-C16: compressed buffers and contractions
-/

namespace Aegir.Props

open Spec

variable {F A : Type}

/-! ## C13 Spec is a faithful compressed buffer -/

/-- `unwrap` keeps the shape. -/
theorem C13_shape [Zero F] {τ : BTy} (x : BSpec F τ) : Buf.shape τ x.unwrap = x.shape :=
  BSpec.shape_unwrap x

/-- The entries of an unwrapped spec. -/
theorem C13_unwrap_entries [Zero F] (τ : BTy) (s : Shp τ) (v : F) (ix : Idx)
    (h : InBounds (Shp.dims τ s) ix) :
    Buf.getU τ (BSpec.full s v : BSpec F τ).unwrap ix = some v ∧
    Buf.getU τ (BSpec.diagonal s v : BSpec F τ).unwrap ix
      = some (if ∀ i ∈ ix, ix.head? = some i then v else 0) := by
  refine ⟨Buf.getU_full τ s v ix h, ?_⟩
  refine (Buf.getU_build τ s _ ix h).trans ?_
  have : Shape.isDiagonal ix = true ↔ ∀ i ∈ ix, ix.head? = some i := by
    cases ix with
    | nil => simp [Shape.isDiagonal]
    | cons a ix => simp [Shape.isDiagonal]
  by_cases hd : Shape.isDiagonal ix = true
  · rw [if_pos hd, if_pos (this.1 hd)]
  · rw [if_neg hd, if_neg (fun h => hd (this.2 h))]

/-- `map` commutes with `unwrap`, for every function, zero-preserving or not. -/
theorem C13_map [Zero F] [Zero A] {τ : BTy} (x : BSpec F τ) (f : F → A) :
    (x.map f).unwrap = Buf.map τ x.unwrap f := BSpec.unwrap_map x f

/-- `zip_map` commutes with `unwrap`, error included. Missing: a scalar on the left of an array of
rank ≥ 2 with both sides `Full` and a non-symmetric `f`, where the claim is false because the dense
`zip_map` swaps its operands and the `Spec` one does not (`C13_zip_violation`). -/
theorem C13_zip_partial [Zero F] [Zero A] {a b c : BTy} (z : ZipImpl a b c) (x : BSpec F a)
    (y : BSpec F b) (f : F → F → A)
    (hord : (a = .scalar → ∀ ds, b = .array ds → ds.length ≤ 1) ∨ ∀ u v, f u v = f v u) :
    (BSpec.zipMap z x y f).map BSpec.unwrap = Buf.zipMap z x.unwrap y.unwrap f := by
  have heff : z.eff f = f := by
    rcases hord with hord | hcomm
    · refine ZipImpl.eff_of_not_swaps z ?_ f
      cases z with
      | sa ds => have := hord rfl ds rfl; simp [ZipImpl.swaps]; omega
      | _ => rfl
    · exact ZipImpl.eff_comm z f hcomm
  have hgen : ∀ (x : BSpec F a) (y : BSpec F b),
      ((Buf.zipMap z x.unwrap y.unwrap f).map BSpec.raw).map BSpec.unwrap
        = Buf.zipMap z x.unwrap y.unwrap f := by
    intro x y
    cases Buf.zipMap z x.unwrap y.unwrap f <;> rfl
  cases x with
  | full sx fx =>
    cases y with
    | full sy fy =>
      show ((z.broadcast sx sy).map _).map _ = Buf.zipMap z (Buf.full a sx fx) (Buf.full b sy fy) f
      rw [zipMap_full, heff]
      cases z.broadcast sx sy <;> rfl
    | raw b' => exact hgen _ (.raw b')
    | diagonal sy fy => exact hgen _ (.diagonal sy fy)
  | raw b' => exact hgen (.raw b') y
  | diagonal sx fx => exact hgen (.diagonal sx fx) y

/-- The `Full`/`Full` shortcut disagrees with the dense `zip_map` for scalar-with-matrix. -/
theorem C13_zip_violation :
    (BSpec.zipMap (.sa [1, 1]) (.full () (5 : ℤ)) (.full () 1) (· - ·)).map BSpec.unwrap
      ≠ Buf.zipMap (.sa [1, 1]) (BSpec.full () (5 : ℤ) : BSpec ℤ .scalar).unwrap
          (BSpec.full () 1 : BSpec ℤ (.array [1, 1])).unwrap (· - ·) := by
  intro h
  have h2 := Except.ok.inj h
  have h3 := congrArg (fun b : Buf ℤ (.array [1, 1]) => Buf.getU (.array [1, 1]) b [0, 0]) h2
  have h4 : (some 4 : Option ℤ) = some (-4) := h3
  exact absurd h4 (by decide)

example : (BSpec.diagonal () (3 : ℤ) : BSpec ℤ (.array [2, 2])).unwrap
    = Buf.build (.array [2, 2]) () (fun ix => if ix = [0, 0] ∨ ix = [1, 1] then 3 else 0) := rfl
example : ((BSpec.diagonal () (3 : ℤ) : BSpec ℤ (.array [2, 2])).map (· + 1)).unwrap
    = Buf.build (.array [2, 2]) () (fun ix => if ix = [0, 0] ∨ ix = [1, 1] then 4 else 1) := rfl

/-! ## C14 contraction shortcuts do not change results -/

/-- Whenever the dense contraction of the unwrapped operands returns, `contract_spec` returns, and
its unwrapped result is the same buffer. All impls, all `Spec` variants, all dimensions, every
commutative semiring. -/
theorem C14_contract_spec [CommSemiring F] [ScalarFns F] [LawfulScalar F] {axes : Nat}
    {a b c : BTy} (z : ContractImpl axes a b c) (x : BSpec F a) (y : BSpec F b) (r : Buf F c)
    (h : Buf.contract z x.unwrap y.unwrap = .ok r) :
    ∃ s, BSpec.contract z x y = .ok s ∧ s.unwrap = r := by
  by_cases hr : z.inRange
  · rw [contract_eq z _ _ hr] at h
    cases h
    exact contractSpec_eq z x y hr
  · rw [contract_panic z _ _ hr] at h; cases h

/-- Conversely, whatever `contract_spec` returns is the dense result, if that exists; neither ever
returns an `Err`. -/
theorem C14_no_error [CommSemiring F] [ScalarFns F] [LawfulScalar F] {axes : Nat}
    {a b c : BTy} (z : ContractImpl axes a b c) (x : BSpec F a) (y : BSpec F b) (e : IncShapes) :
    Buf.contract z x.unwrap y.unwrap ≠ .err e ∧ (BSpec.contract z x y ≠ .err e) := by
  constructor
  · intro h
    by_cases hr : z.inRange
    · rw [contract_eq z _ _ hr] at h; cases h
    · rw [contract_panic z _ _ hr] at h; cases h
  · intro h
    by_cases hr : z.inRange
    · obtain ⟨s, hs, _⟩ := contractSpec_eq z x y hr
      rw [hs] at h; cases h
    · have hdense : ∀ (x : BSpec F a) (y : BSpec F b), BSpec.denseContract z x y = .panic := by
        intro x y
        rw [BSpec.denseContract, contract_panic z _ _ hr]; rfl
      cases z with
      | mv n m =>
        cases x with
        | raw _ => exact absurd ((hdense _ _).symm.trans h) (by simp)
        | full s v =>
          simp only [BSpec.contract] at h
          split at h
          · cases h
          · rw [hdense] at h; cases h
        | diagonal s v =>
          cases y with
          | full _ _ => cases h
          | _ =>
            simp only [BSpec.contract] at h
            split at h
            · cases h
            · rw [hdense] at h; cases h
      | vm n m =>
        cases y with
        | raw _ =>
          cases x <;>
          · simp only [BSpec.contract] at h
            rw [hdense] at h; cases h
        | full s v =>
          cases x <;>
          · simp only [BSpec.contract] at h
            split at h
            · cases h
            · rw [hdense] at h; cases h
        | diagonal s v =>
          cases x with
          | full _ _ => cases h
          | _ =>
            simp only [BSpec.contract] at h
            split at h
            · cases h
            · rw [hdense] at h; cases h
      | _ => exact hr trivial

/-- The laws are needed: with a NaN-like scalar the zero shortcut changes the result. -/
theorem C14_nan_caveat :
    ∃ s r, BSpec.contract (.vv0 1 1) (.full () (0 : NanInt)) (.raw (NArr.ofElems fun _ => .nan)) = .ok s ∧
      Buf.contract (.vv0 1 1) (BSpec.full () (0 : NanInt) : BSpec NanInt (.array [1])).unwrap
        (NArr.ofElems fun _ => .nan) = .ok r ∧ s.unwrap ≠ r := by
  refine ⟨_, _, rfl, rfl, fun h => ?_⟩
  have h3 := congrArg (fun b : Buf NanInt (.array [1, 1]) => Buf.getU (.array [1, 1]) b [0, 0]) h
  have h4 : (some 0 : Option NanInt) = some .nan := h3
  exact absurd h4 (by decide)

example : ∃ s, BSpec.contract (.mm 3 3 3) (.full () (1 : ℤ)) (.full () 2) = .ok s ∧ s.unwrap = Buf.full (.array [3, 3]) () 6 :=
  ⟨_, rfl, rfl⟩
example : ∃ r, Buf.contract (.vm 2 1) (BSpec.full () (1 : ℤ) : BSpec ℤ (.array [2])).unwrap
    (BSpec.diagonal () 2 : BSpec ℤ (.array [2, 1])).unwrap = .ok r := ⟨_, contract_eq (.vm 2 1) _ _ (by decide : 1 ≤ 2)⟩

/-! ## C15 contraction computes the tensor contraction

Full statement: `C15_contract_partial` without the two hypotheses `hmv`, `hvm`. The code violates it
for non-square matrices. -/

/-- Every impl on every pair of operands returns the tensor contraction (0 axes: outer product;
1 axis: sum over the shared axis; scalar with scalar: product). Missing: matrix-vector and
vector-matrix products with a non-square matrix. -/
theorem C15_contract_partial [CommSemiring F] {axes : Nat} {a b c : BTy}
    (z : ContractImpl axes a b c)
    (hmv : ∀ n m, axes = 1 → a = .array [n, m] → b = .array [n] → n = m)
    (hvm : ∀ n m, axes = 1 → a = .array [n] → b = .array [n, m] → n = m)
    (x : Buf F a) (y : Buf F b) (X Y : Idx → F) (hX : Reads x X) (hY : Reads y Y) :
    ∃ r R, Buf.contract z x y = .ok r ∧ Reads r R ∧
      IsContraction (if a = .scalar ∧ b = .scalar then 0 else axes)
        (Buf.dims a x) (Buf.dims b y) (Buf.dims c r) X Y R :=
  contract_isContraction z hmv hvm x y X Y hX hY

/-- Exactly when contractions panic: `[[F; M]; N] · [F; N]` and `[F; N] · [[F; M]; N]` with
`N < M`. -/
theorem C15_panics_iff [CommSemiring F] {axes : Nat} {a b c : BTy} (z : ContractImpl axes a b c)
    (x : Buf F a) (y : Buf F b) :
    Buf.contract z x y = .panic ↔
      ∃ n m, n < m ∧ axes = 1 ∧ ((a = .array [n, m] ∧ b = .array [n] ∧ c = .array [m]) ∨
        (a = .array [n] ∧ b = .array [n, m] ∧ c = .array [m])) := by
  by_cases hin : z.inRange
  · rw [contract_eq z x y hin]
    refine iff_of_false (by simp) ?_
    rintro ⟨n, m, hnm, hax, ⟨rfl, rfl, rfl⟩ | ⟨rfl, rfl, rfl⟩⟩
    · cases z with
      | mv => exact absurd hin (by show ¬ m ≤ n; omega)
    · cases z with
      | vm => exact absurd hin (by show ¬ m ≤ n; omega)
  · rw [contract_panic z x y hin]
    refine iff_of_true rfl ?_
    cases z with
    | mv n m => exact ⟨n, m, Nat.lt_of_not_le hin, rfl, .inl ⟨rfl, rfl, rfl⟩⟩
    | vm n m => exact ⟨n, m, Nat.lt_of_not_le hin, rfl, .inr ⟨rfl, rfl, rfl⟩⟩
    | _ => exact absurd trivial hin

/-- What `[F; N] · [[F; M]; N]` returns for `M ≤ N`: the sum stops after `M` terms. -/
theorem C15_vm_truncates [CommSemiring F] (n m : Nat) (hmn : m ≤ n) (x : Buf F (.array [n]))
    (y : Buf F (.array [n, m])) (X Y : Idx → F) (hX : Reads x X) (hY : Reads y Y) :
    ∃ r, Buf.contract (.vm n m) x y = .ok r ∧ ∀ j, j < m →
      Buf.getU (.array [m]) r [j] = some (∑ k ∈ Finset.range m, X [k] * Y [k, j]) := by
  refine ⟨_, contract_eq (.vm n m) x y hmn, fun j hj => ?_⟩
  rw [Buf.getU_build (.array [m]) _ _ _ (inBounds_one' hj)]
  refine congrArg some (Finset.sum_congr rfl (fun k hk => ?_))
  have hk := Finset.mem_range.1 hk
  have h1 := (Buf.getU_read x [k] (inBounds_one' (by omega))).symm.trans
    (hX [k] (inBounds_one' (by omega)))
  have h2 := (Buf.getU_read y [k, j] (inBounds_pair' (by omega) hj)).symm.trans
    (hY [k, j] (inBounds_pair' (by omega) hj))
  rw [Option.some.inj h1]
  show _ * Buf.read y [k, j] = _
  rw [Option.some.inj h2]

/-- Witness: `[1, 1] · [[1], [1]]` evaluates to `[1]`; the contraction is `[2]`. -/
theorem C15_vm_violation :
    ∃ r, Buf.contract (.vm 2 1) (Buf.full (.array [2]) () (1 : ℤ)) (Buf.full (.array [2, 1]) () 1)
        = .ok r ∧ Buf.getU (.array [1]) r [0] = some 1 ∧
      ∀ R, Reads r R → ¬ IsContraction 1 [2] [2, 1] [1] (fun _ => 1) (fun _ => 1) R := by
  have hx : Reads (Buf.full (.array [2]) () (1 : ℤ)) (fun _ => 1) := fun ix h =>
    Buf.getU_full _ _ _ _ h
  have hy : Reads (Buf.full (.array [2, 1]) () (1 : ℤ)) (fun _ => 1) := fun ix h =>
    Buf.getU_full _ _ _ _ h
  obtain ⟨r, hr, hv⟩ := C15_vm_truncates 2 1 (by omega) _ _ _ _ hx hy
  have h0 : Buf.getU (.array [1]) r [0] = some 1 := by simpa using hv 0 (by omega)
  refine ⟨r, hr, h0, fun R hR hc => ?_⟩
  obtain ⟨l, k, rr, hk, h1, h2, h3, h4⟩ := hc
  match k, hk with
  | [k], _ =>
    have : l = [] := by
      have := congrArg List.length h1
      simp at this; exact this
    subst this
    simp at h1; subst h1
    simp at h2; subst h2
    have h5 := h4 [] [0] .nil (inBounds_one' (by omega))
    have h6 := (hR [0] (inBounds_one' (n := 1) (by omega))).symm.trans h0
    have h7 : R [0] = 1 := Option.some.inj h6
    simp only [List.nil_append] at h5
    rw [h7] at h5
    simp [sumOver] at h5

/-- Witness: `[[1, 1]] · [1]` (a 1×2 matrix with a vector of length 1) is accepted and panics. -/
theorem C15_mv_violation :
    Buf.contract (.mv 1 2) (Buf.full (.array [1, 2]) () (1 : ℤ)) (Buf.full (.array [1]) () 1)
      = .panic := contract_panic (.mv 1 2) _ _ (by decide : ¬ 2 ≤ 1)

/-- Non-square `[[F; M]; N] · [F; N]` is accepted although the shared axes differ, so no tensor
contraction exists, whatever the code returns. -/
theorem C15_mv_ill_typed (n m : Nat) (hnm : n ≠ m) (X Y R : Idx → ℤ) (dr : Dims) :
    ¬ IsContraction 1 [n, m] [n] dr X Y R := by
  rintro ⟨l, k, r, hk, h1, h2, _⟩
  match k, hk with
  | [k], _ =>
    simp at h2
    have := congrArg List.getLast? h1
    simp at this
    omega

example : ∃ r R, Buf.contract (.mm 2 3 1) (Buf.full (.array [2, 3]) () (1 : ℤ))
    (Buf.full (.array [3, 1]) () 2) = .ok r ∧ Reads r R ∧
      IsContraction (if (BTy.array [2, 3] = .scalar ∧ BTy.array [3, 1] = .scalar) then 0 else 1)
        [2, 3] [3, 1] [2, 1] (fun _ => 1) (fun _ => 2) R :=
  C15_contract_partial (.mm 2 3 1) (by simp) (by simp) _ _ _ _
    (fun ix h => Buf.getU_full _ _ _ _ h) (fun ix h => Buf.getU_full _ _ _ _ h)

/-! ## C16 contract_shape predicts the shape -/

/-- `contract_shape` is `Ok` and is the shape of every value `contract` returns. -/
theorem C16_contract_shape [Zero F] [Add F] [Mul F] {axes : Nat} {a b c : BTy}
    (z : ContractImpl axes a b c) (x : Buf F a) (y : Buf F b) :
    ∃ s, contractShape z (Buf.shape a x) (Buf.shape b y) = .ok s ∧
      ∀ r, Buf.contract z x y = .ok r → Buf.shape c r = s := by
  cases z <;> exact ⟨_, rfl, fun _ _ => rfl⟩

/-- Its extents are those of the operands with `axes` shared axes removed (square case). -/
theorem C16_extents [CommSemiring F] {axes : Nat} {a b c : BTy} (z : ContractImpl axes a b c)
    (hmv : ∀ n m, axes = 1 → a = .array [n, m] → b = .array [n] → n = m)
    (x : Shp a) (y : Shp b) :
    ∃ s l k r, contractShape z x y = .ok s ∧ Shp.dims a x = l ++ k ∧ Shp.dims b y = k ++ r ∧
      Shp.dims c s = l ++ r ∧ k.length = (if a = .scalar ∧ b = .scalar then 0 else axes) := by
  cases z with
  | ss0 => exact ⟨_, [], [], [], rfl, rfl, rfl, rfl, rfl⟩
  | ss1 => exact ⟨_, [], [], [], rfl, rfl, rfl, rfl, rfl⟩
  | vs0 n => exact ⟨_, [n], [], [], rfl, rfl, rfl, rfl, rfl⟩
  | sv0 n => exact ⟨_, [], [], [n], rfl, rfl, rfl, rfl, rfl⟩
  | ms0 n m => exact ⟨_, [n, m], [], [], rfl, rfl, rfl, rfl, rfl⟩
  | sm0 n m => exact ⟨_, [], [], [n, m], rfl, rfl, rfl, rfl, rfl⟩
  | vv0 n m => exact ⟨_, [n], [], [m], rfl, rfl, rfl, rfl, rfl⟩
  | dot n => exact ⟨_, [], [n], [], rfl, rfl, rfl, rfl, rfl⟩
  | mm n k m => exact ⟨_, [n], [k], [m], rfl, rfl, rfl, rfl, rfl⟩
  | vm n m => exact ⟨_, [], [n], [m], rfl, rfl, rfl, rfl, rfl⟩
  | mv n m =>
    have := hmv n m rfl rfl rfl
    subst this
    exact ⟨_, [n], [n], [], rfl, rfl, rfl, rfl, rfl⟩

/-- The impl lookup is deterministic and complete: a pair of types is accepted by `contract` iff it
has an impl, which determines the output type. -/
theorem C16_lookup {axes : Nat} {a b c : BTy} (z : ContractImpl axes a b c) :
    contractImpl? axes a b = some ⟨c, z⟩ := by
  cases z <;> simp [contractImpl?]

example : contractShape (.mm 2 3 4) () () = .ok (() : Shp (.array [2, 4])) := rfl

end Aegir.Props
