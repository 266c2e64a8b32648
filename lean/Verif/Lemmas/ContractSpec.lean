import Verif.Lemmas.Contract
import Mathlib.Algebra.BigOperators.Group.Finset.Piecewise
/-! The `contract_spec` shortcuts agree with the dense contraction. -/

namespace Aegir

open Spec

variable {F : Type} [CommSemiring F]

/-- The entries every contraction must produce from specs `x`, `y`. -/
def contractOut {axes : Nat} {a b c : BTy} (z : ContractImpl axes a b c) (x : BSpec F a)
    (y : BSpec F b) : Buf F c :=
  Buf.build c z.outShape (z.fn (Buf.read x.unwrap) (Buf.read y.unwrap))

theorem dense_ok {axes : Nat} {a b c : BTy} (z : ContractImpl axes a b c) (x : BSpec F a)
    (y : BSpec F b) (h : z.inRange) :
    ∃ s, BSpec.denseContract z x y = .ok s ∧ s.unwrap = contractOut z x y := by
  refine ⟨.raw (contractOut z x y), ?_, rfl⟩
  rw [BSpec.denseContract, contract_eq z _ _ h]; rfl

theorem full_out {axes : Nat} {a b c : BTy} (z : ContractImpl axes a b c) (x : BSpec F a)
    (y : BSpec F b) (v : F)
    (h : ∀ ix, InBounds (Shp.dims c z.outShape) ix →
      z.fn (Buf.read x.unwrap) (Buf.read y.unwrap) ix = v) :
    (BSpec.full z.outShape v : BSpec F c).unwrap = contractOut z x y := by
  show Buf.full c _ v = _
  rw [Buf.full_eq_build]
  exact Buf.build_congr _ _ _ (fun ix hix => (h ix hix).symm)

theorem raw_out {axes : Nat} {a b c : BTy} (z : ContractImpl axes a b c) (x : BSpec F a)
    (y : BSpec F b) (r : Buf F c) (hs : Buf.shape c r = z.outShape)
    (h : ∀ ix, InBounds (Shp.dims c z.outShape) ix →
      Buf.getU c r ix = some (z.fn (Buf.read x.unwrap) (Buf.read y.unwrap) ix)) :
    (BSpec.raw r : BSpec F c).unwrap = contractOut z x y :=
  Buf.eq_build r _ _ hs h

theorem read_scalar (x : Buf F .scalar) : Buf.read x [] = x := rfl

theorem rfull {ds : Dims} (s : Shp (.array ds)) (v : F) (ix : Idx) (h : InBounds ds ix) :
    Buf.read (BSpec.full s v : BSpec F (.array ds)).unwrap ix = v := Buf.read_full s v ix h

theorem rdiag1 {n : Nat} (s : Shp (.array [n])) (v : F) (i : Nat) (h : i < n) :
    Buf.read (BSpec.diagonal s v : BSpec F (.array [n])).unwrap [i] = v := by
  refine (Buf.read_diagonal s v [i] (inBounds_one' h)).trans ?_
  simp [Shape.isDiagonal]

theorem rdiag2 {n m : Nat} (s : Shp (.array [n, m])) (v : F) (i j : Nat) (hi : i < n) (hj : j < m) :
    Buf.read (BSpec.diagonal s v : BSpec F (.array [n, m])).unwrap [i, j] = if i = j then v else 0 := by
  refine (Buf.read_diagonal s v [i, j] (inBounds_pair' hi hj)).trans ?_
  simp [Shape.isDiagonal]

theorem fold_sum (n : Nat) (x : Buf F (.array [n])) (g : F → F) :
    NArr.fold [n] x 0 (fun acc xi => acc + g xi) = ∑ k ∈ Finset.range n, g (Buf.read x [k]) := by
  have h := Buf.foldDefault_eq (.array [n]) x (0 : F) (fun acc xi => acc + g xi)
  have h2 : Buf.foldDefault (.array [n]) x (0 : F) (fun acc xi => acc + g xi)
      = some (∑ k ∈ Finset.range n, g (Buf.read x [k])) := by
    unfold Buf.foldDefault
    show (Shape.indices [n]).foldlM _ 0 = _
    rw [indices_one]
    have key : ∀ m, m ≤ n → ((List.range m).map (fun i => [i])).foldlM
        (fun acc ix => (Buf.getU (.array [n]) x ix).map (fun xi => acc + g xi)) (0 : F)
        = some (∑ k ∈ Finset.range m, g (Buf.read x [k])) := by
      intro m hm
      induction m with
      | zero => simp
      | succ m ih =>
        rw [List.range_succ, List.map_append, List.foldlM_append, ih (by omega)]
        have := Buf.getU_read (τ := .array [n]) x [m] (inBounds_one' (by omega))
        simp [this, Finset.sum_range_succ]
    exact key n (le_refl n)
  rw [h2] at h
  exact (Option.some.inj h).symm

variable [ScalarFns F] [LawfulScalar F]

theorem contractSpec_eq {axes : Nat} {a b c : BTy} (z : ContractImpl axes a b c) (x : BSpec F a)
    (y : BSpec F b) (h : z.inRange) :
    ∃ s, BSpec.contract z x y = .ok s ∧ s.unwrap = contractOut z x y := by
  cases z with
  | ss0 => exact ⟨_, rfl, rfl⟩
  | ss1 => exact ⟨_, rfl, rfl⟩
  | vs0 n =>
    cases x with
    | full s v => exact ⟨_, rfl, full_out (.vs0 n) _ _ _ (fun ix hix => by
        show Buf.read _ ix * _ = _
        rw [rfull s v ix hix]; rfl)⟩
    | raw _ => exact dense_ok _ _ _ h
    | diagonal _ _ => exact dense_ok _ _ _ h
  | sv0 n =>
    cases y with
    | full s v => exact ⟨_, rfl, full_out (.sv0 n) _ _ _ (fun ix hix => by
        show Buf.read _ ix * _ = _
        rw [rfull s v ix hix, mul_comm]; rfl)⟩
    | raw _ => exact dense_ok _ _ _ h
    | diagonal _ _ => exact dense_ok _ _ _ h
  | ms0 n m =>
    cases x with
    | full s v => exact ⟨_, rfl, full_out (.ms0 n m) _ _ _ (fun ix hix => by
        show Buf.read _ ix * _ = _
        rw [rfull s v ix hix]; rfl)⟩
    | raw _ => exact dense_ok _ _ _ h
    | diagonal _ _ => exact dense_ok _ _ _ h
  | sm0 n m =>
    cases y with
    | full s v => exact ⟨_, rfl, full_out (.sm0 n m) _ _ _ (fun ix hix => by
        show Buf.read _ ix * _ = _
        rw [rfull s v ix hix]; rfl)⟩
    | raw _ => exact dense_ok _ _ _ h
    | diagonal _ _ => exact dense_ok _ _ _ h
  | vv0 n m =>
    have fullL : ∀ (s : Shp (.array [n])) (fx : F) (y : BSpec F (.array [m])), ∃ r : BSpec F (.array [n, m]),
        ((if ScalarFns.isZero fx then .ok (BSpec.zeroes ())
          else .ok (.raw (NArr.mkRows (d := n) (ds := [m])
            (fun _ => NArr.map [m] y.unwrap (fun yj => fx * yj)))) : Res IncShapes _)) = .ok r ∧
        r.unwrap = contractOut (.vv0 n m) (.full s fx) y := by
      intro s fx y
      split
      · rename_i hz
        have hz := (LawfulScalar.isZero_iff fx).1 hz
        subst hz
        refine ⟨_, rfl, full_out (.vv0 n m) _ _ _ (fun ix hix => ?_)⟩
        obtain ⟨i, j, hi, hj, rfl⟩ := inBounds_pair.1 hix
        show Buf.read _ [i] * _ = _
        rw [rfull s 0 [i] (inBounds_one' hi), zero_mul]
      · refine ⟨_, rfl, raw_out (.vv0 n m) _ _ _ rfl (fun ix hix => ?_)⟩
        obtain ⟨i, j, hi, hj, rfl⟩ := inBounds_pair.1 hix
        show NArr.getU [n, m] (NArr.mkRows _) [i, j] = some (Buf.read _ [i] * Buf.read _ [j])
        rw [NArr.getU_mkRows _ _ _ hi, NArr.getU_map, narr_getU_read _ [j] (inBounds_one' hj),
          rfull s fx [i] (inBounds_one' hi)]
        rfl
    have fullR : ∀ (s : Shp (.array [m])) (fy : F) (x : BSpec F (.array [n])), ∃ r : BSpec F (.array [n, m]),
        ((if ScalarFns.isZero fy then .ok (BSpec.zeroes ())
          else .ok (.raw (NArr.mkRows (d := n) (ds := [m])
            (fun i => NArr.ofElems (d := m)
              (fun _ => NArr.elem x.unwrap i * fy)))) : Res IncShapes _)) = .ok r ∧
        r.unwrap = contractOut (.vv0 n m) x (.full s fy) := by
      intro s fy x
      split
      · rename_i hz
        have hz := (LawfulScalar.isZero_iff fy).1 hz
        subst hz
        refine ⟨_, rfl, full_out (.vv0 n m) _ _ _ (fun ix hix => ?_)⟩
        obtain ⟨i, j, hi, hj, rfl⟩ := inBounds_pair.1 hix
        show _ * Buf.read _ [j] = _
        rw [rfull s 0 [j] (inBounds_one' hj), mul_zero]
      · refine ⟨_, rfl, raw_out (.vv0 n m) _ _ _ rfl (fun ix hix => ?_)⟩
        obtain ⟨i, j, hi, hj, rfl⟩ := inBounds_pair.1 hix
        show NArr.getU [n, m] (NArr.mkRows _) [i, j] = some (Buf.read _ [i] * Buf.read _ [j])
        rw [NArr.getU_mkRows _ _ _ hi, NArr.getU_ofElems _ _ hj,
          rfull s fy [j] (inBounds_one' hj)]
        have hx : NArr.elem x.unwrap ⟨i, hi⟩ = Buf.read x.unwrap [i] := Option.some.inj (by
          rw [← NArr.getU_elem, narr_getU_read x.unwrap [i] (inBounds_one' hi)])
        rw [hx]
    cases x with
    | full s fx =>
      cases y with
      | full t fy =>
        refine ⟨_, rfl, full_out (.vv0 n m) _ _ _ (fun ix hix => ?_)⟩
        obtain ⟨i, j, hi, hj, rfl⟩ := inBounds_pair.1 hix
        show Buf.read _ [i] * Buf.read _ [j] = _
        rw [rfull s fx [i] (inBounds_one' hi), rfull t fy [j] (inBounds_one' hj)]
      | raw b => exact fullL s fx (.raw b)
      | diagonal t fy => exact fullL s fx (.diagonal t fy)
    | raw b =>
      cases y with
      | full t fy => exact fullR t fy (.raw b)
      | raw _ => exact dense_ok _ _ _ h
      | diagonal _ _ => exact dense_ok _ _ _ h
    | diagonal s fx =>
      cases y with
      | full t fy => exact fullR t fy (.diagonal s fx)
      | raw _ => exact dense_ok _ _ _ h
      | diagonal _ _ => exact dense_ok _ _ _ h
  | dot n =>
    have hdense : ∀ (x y : BSpec F (.array [n])), ∃ s : BSpec F .scalar,
        (Buf.zipFold (.aa [n]) x.unwrap y.unwrap 0
            (fun acc p => acc + p.1 * p.2)).map BSpec.raw = .ok s ∧
          s.unwrap = contractOut (.dot n) x y := by
      intro x y
      have := contract_eq (.dot n) x.unwrap y.unwrap trivial
      refine ⟨.raw (contractOut (.dot n) x y), ?_, rfl⟩
      have h2 : Buf.zipFold (.aa [n]) x.unwrap y.unwrap 0 (fun acc p => acc + p.1 * p.2)
        = Res.ok (contractOut (.dot n) x y) := this
      rw [h2]; rfl
    have fullL : ∀ (s : Shp (.array [n])) (fx : F) (y : BSpec F (.array [n])),
        (BSpec.full () (NArr.fold [n] y.unwrap 0 (fun acc yi => acc + fx * yi)) :
          BSpec F .scalar).unwrap = contractOut (.dot n) (.full s fx) y := by
      intro s fx y
      refine full_out (.dot n) _ _ _ (fun ix _ => ?_)
      rw [fold_sum n y.unwrap (fun yi => fx * yi)]
      refine Finset.sum_congr rfl (fun k hk => ?_)
      rw [rfull s fx [k] (inBounds_one' (Finset.mem_range.1 hk))]
    have fullR : ∀ (s : Shp (.array [n])) (fy : F) (x : BSpec F (.array [n])),
        (BSpec.full () (NArr.fold [n] x.unwrap 0 (fun acc xi => acc + xi * fy)) :
          BSpec F .scalar).unwrap = contractOut (.dot n) x (.full s fy) := by
      intro s fy x
      refine full_out (.dot n) _ _ _ (fun ix _ => ?_)
      rw [fold_sum n x.unwrap (fun xi => xi * fy)]
      refine Finset.sum_congr rfl (fun k hk => ?_)
      rw [rfull s fy [k] (inBounds_one' (Finset.mem_range.1 hk))]
    cases x with
    | full s fx =>
      cases y with
      | full t fy =>
        refine ⟨.full () ((n : F) * fx * fy), ?_, full_out (.dot n) _ _ _ (fun ix _ => ?_)⟩
        · show (Res.ofOption (ScalarFns.fromUsize n)).map _ = _
          rw [LawfulScalar.fromUsize_eq]; rfl
        · show ∑ k ∈ Finset.range n, _ = _
          rw [Finset.sum_congr rfl (fun k hk => by
            rw [rfull s fx [k] (inBounds_one' (Finset.mem_range.1 hk)),
              rfull t fy [k] (inBounds_one' (Finset.mem_range.1 hk))])]
          rw [Finset.sum_const, Finset.card_range, nsmul_eq_mul, mul_assoc]
      | raw b => exact ⟨_, rfl, fullL s fx (.raw b)⟩
      | diagonal t fy => exact ⟨_, rfl, fullL s fx (.diagonal t fy)⟩
    | raw b =>
      cases y with
      | full t fy => exact ⟨_, rfl, fullR t fy (.raw b)⟩
      | raw b' => exact hdense (.raw b) (.raw b')
      | diagonal t fy => exact hdense (.raw b) (.diagonal t fy)
    | diagonal s fx =>
      cases y with
      | full t fy => exact ⟨_, rfl, fullR t fy (.diagonal s fx)⟩
      | raw b' => exact hdense (.diagonal s fx) (.raw b')
      | diagonal t fy => exact hdense (.diagonal s fx) (.diagonal t fy)
  | mv n m =>
    have hmn : m ≤ n := h
    have diagArm : ∀ (s : Shp (.array [n, m])) (fx : F) (y : BSpec F (.array [n])) (ix : Idx),
        InBounds [m] ix → (ContractImpl.mv n m).fn (Buf.read (BSpec.diagonal s fx : BSpec F _).unwrap)
          (Buf.read y.unwrap) ix = fx * Buf.read y.unwrap ix := by
      intro s fx y ix hix
      obtain ⟨i, hi, rfl⟩ := Buf.inBounds_one.1 hix
      show ∑ k ∈ Finset.range m, _ = _
      rw [Finset.sum_congr rfl (fun k hk => by
        show Buf.read _ [i, k] * _ = _
        rw [rdiag2 s fx i k (by omega) (Finset.mem_range.1 hk), ite_mul, zero_mul])]
      rw [Finset.sum_ite_eq, if_pos (Finset.mem_range.2 hi)]
    cases x with
    | raw b => exact dense_ok _ _ _ h
    | full s fx =>
      show ∃ s', (if ScalarFns.isZero fx then _ else _) = Res.ok s' ∧ _
      split
      · rename_i hz
        have hz := (LawfulScalar.isZero_iff fx).1 hz
        subst hz
        refine ⟨_, rfl, full_out (.mv n m) _ _ _ (fun ix hix => ?_)⟩
        obtain ⟨i, hi, rfl⟩ := Buf.inBounds_one.1 hix
        refine Finset.sum_eq_zero (fun k hk => ?_)
        show Buf.read _ [i, k] * _ = _
        rw [rfull s 0 [i, k] (inBounds_pair' (by omega) (Finset.mem_range.1 hk)), zero_mul]
      · exact dense_ok _ _ _ h
    | diagonal s fx =>
      have diagRest : ∀ y : BSpec F (.array [n]), ∃ s' : BSpec F (.array [m]),
          (if h : m = n then
            .ok (.raw (h ▸ NArr.mutate [n] y.unwrap (fun yi => fx * yi)))
          else BSpec.denseContract (.mv n m) (.diagonal s fx) y) = Res.ok s' ∧
          s'.unwrap = contractOut (.mv n m) (.diagonal s fx) y := by
        intro y
        split
        · rename_i hmn
          subst hmn
          refine ⟨_, rfl, raw_out (.mv m m) _ _ _ rfl (fun ix hix => ?_)⟩
          rw [diagArm s fx y ix hix]
          show NArr.getU [m] (NArr.mutate [m] y.unwrap _) ix = _
          rw [NArr.mutate_eq_map, NArr.getU_map, narr_getU_read (ds := [m]) _ ix hix]; rfl
        · exact dense_ok _ _ _ h
      cases y with
      | full t fy =>
        refine ⟨_, rfl, full_out (.mv n m) _ _ _ (fun ix hix => ?_)⟩
        rw [diagArm s fx _ ix hix]
        obtain ⟨i, hi, rfl⟩ := Buf.inBounds_one.1 hix
        rw [rfull t fy [i] (inBounds_one' (by omega))]
      | raw b => exact diagRest (.raw b)
      | diagonal t fy => exact diagRest (.diagonal t fy)
  | mm n z m =>
    cases x with
    | raw b => exact dense_ok _ _ _ h
    | full s fx =>
      cases y with
      | full t fy =>
        refine ⟨.full () ((z : F) * fx * fy), ?_, full_out (.mm n z m) _ _ _ (fun ix hix => ?_)⟩
        · show (Res.ofOption (ScalarFns.fromUsize z)).map _ = _
          rw [LawfulScalar.fromUsize_eq]; rfl
        · obtain ⟨i, j, hi, hj, rfl⟩ := inBounds_pair.1 hix
          show ∑ k ∈ Finset.range z, Buf.read _ [i, k] * Buf.read _ [k, j] = _
          rw [Finset.sum_congr rfl (fun k hk => by
            rw [rfull s fx [i, k] (inBounds_pair' hi (Finset.mem_range.1 hk)),
              rfull t fy [k, j] (inBounds_pair' (Finset.mem_range.1 hk) hj)])]
          rw [Finset.sum_const, Finset.card_range, nsmul_eq_mul, mul_assoc]
      | raw _ => exact dense_ok _ _ _ h
      | diagonal _ _ => exact dense_ok _ _ _ h
    | diagonal s fx =>
      cases y with
      | full t fy => exact dense_ok _ _ _ h
      | raw _ => exact dense_ok _ _ _ h
      | diagonal t fy =>
        show ∃ s', (if n = z ∧ m = n then _ else _) = Res.ok s' ∧ _
        split
        · rename_i hc
          obtain ⟨rfl, rfl⟩ := hc
          refine ⟨_, rfl, ?_⟩
          refine Buf.build_congr (τ := .array _) () _ _ (fun ix hix => ?_)
          obtain ⟨i, j, hi, hj, rfl⟩ := inBounds_pair.1 hix
          show _ = ∑ k ∈ Finset.range _, Buf.read _ [i, k] * Buf.read _ [k, j]
          rw [Finset.sum_congr rfl (fun k hk => by
            rw [rdiag2 s fx i k hi (Finset.mem_range.1 hk), ite_mul, zero_mul])]
          rw [Finset.sum_ite_eq, if_pos (Finset.mem_range.2 hi), rdiag2 t fy i j hi hj]
          by_cases hij : i = j
          · subst hij; simp [Shape.isDiagonal]
          · simp [Shape.isDiagonal, hij]
        · exact dense_ok _ _ _ h
  | vm n m =>
    have hmn : m ≤ n := h
    have diagArm : ∀ (s : Shp (.array [n, m])) (fy : F) (x : BSpec F (.array [n])) (ix : Idx),
        InBounds [m] ix → (ContractImpl.vm n m).fn (Buf.read x.unwrap)
          (Buf.read (BSpec.diagonal s fy : BSpec F _).unwrap) ix = Buf.read x.unwrap ix * fy := by
      intro s fy x ix hix
      obtain ⟨i, hi, rfl⟩ := Buf.inBounds_one.1 hix
      show ∑ k ∈ Finset.range m, _ = _
      rw [Finset.sum_congr rfl (fun k hk => by
        show _ * Buf.read _ [k, i] = _
        rw [rdiag2 s fy k i (by have := Finset.mem_range.1 hk; omega) hi, mul_ite, mul_zero])]
      rw [Finset.sum_ite_eq', if_pos (Finset.mem_range.2 hi)]
    have fullArm : ∀ (t : Shp (.array [n, m])) (fy : F) (x : BSpec F (.array [n])),
        ∃ s' : BSpec F (.array [m]), (if ScalarFns.isZero fy then .ok (BSpec.zeroes ())
          else BSpec.denseContract (.vm n m) x (.full t fy)) = Res.ok s' ∧
          s'.unwrap = contractOut (.vm n m) x (.full t fy) := by
      intro t fy x
      split
      · rename_i hz
        have hz := (LawfulScalar.isZero_iff fy).1 hz
        subst hz
        refine ⟨_, rfl, full_out (.vm n m) _ _ _ (fun ix hix => ?_)⟩
        obtain ⟨i, hi, rfl⟩ := Buf.inBounds_one.1 hix
        refine Finset.sum_eq_zero (fun k hk => ?_)
        rw [rfull t 0 (k :: [i]) (inBounds_pair' (by have := Finset.mem_range.1 hk; omega) hi),
          mul_zero]
      · exact dense_ok _ _ _ h
    have diagRest : ∀ (s : Shp (.array [n, m])) (fy : F) (x : BSpec F (.array [n])),
        ∃ s' : BSpec F (.array [m]),
          (if h : m = n then
            .ok (.raw (h ▸ NArr.mutate [n] x.unwrap (fun xi => xi * fy)))
          else BSpec.denseContract (.vm n m) x (.diagonal s fy)) = Res.ok s' ∧
          s'.unwrap = contractOut (.vm n m) x (.diagonal s fy) := by
      intro s fy x
      split
      · rename_i hmn
        subst hmn
        refine ⟨_, rfl, raw_out (.vm m m) _ _ _ rfl (fun ix hix => ?_)⟩
        rw [diagArm s fy x ix hix]
        show NArr.getU [m] (NArr.mutate [m] x.unwrap _) ix = _
        rw [NArr.mutate_eq_map, NArr.getU_map, narr_getU_read (ds := [m]) _ ix hix]; rfl
      · exact dense_ok _ _ _ h
    cases y with
    | raw b => cases x <;> exact dense_ok _ _ _ h
    | full t fy =>
      cases x with
      | raw b => exact fullArm t fy (.raw b)
      | full s fx => exact fullArm t fy (.full s fx)
      | diagonal s fx => exact fullArm t fy (.diagonal s fx)
    | diagonal t fy =>
      cases x with
      | raw b => exact diagRest t fy (.raw b)
      | diagonal s fx => exact diagRest t fy (.diagonal s fx)
      | full s fx =>
        refine ⟨_, rfl, full_out (.vm n m) _ _ _ (fun ix hix => ?_)⟩
        rw [diagArm t fy _ ix hix]
        obtain ⟨i, hi, rfl⟩ := Buf.inBounds_one.1 hix
        rw [rfull s fx [i] (inBounds_one' (by omega))]

/-- Every impl computes the tensor contraction, non-square matrix-vector products excepted. -/
theorem contract_isContraction {F : Type} [CommSemiring F] {axes : Nat} {a b c : BTy}
    (z : ContractImpl axes a b c)
    (hmv : ∀ n m, axes = 1 → a = .array [n, m] → b = .array [n] → n = m)
    (hvm : ∀ n m, axes = 1 → a = .array [n] → b = .array [n, m] → n = m)
    (x : Buf F a) (y : Buf F b) (X Y : Idx → F) (hX : Reads x X) (hY : Reads y Y) :
    ∃ r R, Buf.contract z x y = .ok r ∧ Reads r R ∧
      IsContraction (if a = .scalar ∧ b = .scalar then 0 else axes)
        (Buf.dims a x) (Buf.dims b y) (Buf.dims c r) X Y R := by
  have hin : z.inRange := by
    cases z with
    | mv n m => have := hmv n m rfl rfl rfl; show m ≤ n; omega
    | vm n m => have := hvm n m rfl rfl rfl; show m ≤ n; omega
    | _ => trivial
  have hXr : ∀ ix, InBounds (Buf.dims a x) ix → Buf.read x ix = X ix := fun ix h =>
    Option.some.inj ((Buf.getU_read x ix h).symm.trans (hX ix h))
  have hYr : ∀ ix, InBounds (Buf.dims b y) ix → Buf.read y ix = Y ix := fun ix h =>
    Option.some.inj ((Buf.getU_read y ix h).symm.trans (hY ix h))
  refine ⟨_, z.fn (Buf.read x) (Buf.read y), contract_eq z x y hin, fun ix h => ?_, ?_⟩
  · rw [Buf.dims_build] at h
    exact Buf.getU_build _ _ _ _ h
  · rw [Buf.dims_build]
    cases z with
    | ss0 =>
      refine ⟨[], [], [], rfl, rfl, rfl, rfl, fun ix jx hi hj => ?_⟩
      cases hi; cases hj
      exact congr (congrArg _ (hXr [] .nil)) (hYr [] .nil)
    | ss1 =>
      refine ⟨[], [], [], rfl, rfl, rfl, rfl, fun ix jx hi hj => ?_⟩
      cases hi; cases hj
      exact congr (congrArg _ (hXr [] .nil)) (hYr [] .nil)
    | vs0 n =>
      refine ⟨[n], [], [], rfl, rfl, rfl, rfl, fun ix jx hi hj => ?_⟩
      cases hj
      rw [List.append_nil]
      show Buf.read x ix * Buf.read y [] = X (ix ++ []) * Y []
      rw [List.append_nil, hXr ix hi, hYr [] .nil]
    | sv0 n =>
      refine ⟨[], [], [n], rfl, rfl, rfl, rfl, fun ix jx hi hj => ?_⟩
      cases hi
      show Buf.read y jx * Buf.read x [] = X [] * Y jx
      rw [hYr jx hj, hXr [] .nil, mul_comm]
    | ms0 n m =>
      refine ⟨[n, m], [], [], rfl, rfl, rfl, rfl, fun ix jx hi hj => ?_⟩
      cases hj
      rw [List.append_nil]
      show Buf.read x ix * Buf.read y [] = X (ix ++ []) * Y []
      rw [List.append_nil, hXr ix hi, hYr [] .nil]
    | sm0 n m =>
      refine ⟨[], [], [n, m], rfl, rfl, rfl, rfl, fun ix jx hi hj => ?_⟩
      cases hi
      show Buf.read y jx * Buf.read x [] = X [] * Y jx
      rw [hYr jx hj, hXr [] .nil, mul_comm]
    | vv0 n m =>
      refine ⟨[n], [], [m], rfl, rfl, rfl, rfl, fun ix jx hi hj => ?_⟩
      obtain ⟨i, _, rfl⟩ := Buf.inBounds_one.1 hi
      obtain ⟨j, _, rfl⟩ := Buf.inBounds_one.1 hj
      show Buf.read x [i] * Buf.read y [j] = X [i] * Y [j]
      rw [hYr _ hj, hXr _ hi]
    | dot n =>
      refine ⟨[], [n], [], rfl, rfl, rfl, rfl, fun ix jx hi hj => ?_⟩
      cases hi; cases hj
      refine Finset.sum_congr rfl (fun k hk => ?_)
      have hk := Finset.mem_range.1 hk
      rw [hXr [k] (inBounds_one' hk), hYr [k] (inBounds_one' hk)]
      rfl
    | mv n m =>
      have hnm := hmv n m rfl rfl rfl
      subst hnm
      refine ⟨[n], [n], [], rfl, rfl, rfl, rfl, fun ix jx hi hj => ?_⟩
      obtain ⟨i, hi', rfl⟩ := Buf.inBounds_one.1 hi
      cases hj
      refine Finset.sum_congr rfl (fun k hk => ?_)
      have hk := Finset.mem_range.1 hk
      show Buf.read x [i, k] * Buf.read y [k] = X [i, k] * Y [k]
      rw [hXr _ (inBounds_pair' hi' hk), hYr [k] (inBounds_one' hk)]
    | mm n k m =>
      refine ⟨[n], [k], [m], rfl, rfl, rfl, rfl, fun ix jx hi hj => ?_⟩
      obtain ⟨i, hi', rfl⟩ := Buf.inBounds_one.1 hi
      obtain ⟨j, hj', rfl⟩ := Buf.inBounds_one.1 hj
      refine Finset.sum_congr rfl (fun t ht => ?_)
      have ht := Finset.mem_range.1 ht
      show Buf.read x [i, t] * Buf.read y [t, j] = X [i, t] * Y [t, j]
      rw [hXr _ (inBounds_pair' hi' ht), hYr _ (inBounds_pair' ht hj')]
    | vm n m =>
      have hnm := hvm n m rfl rfl rfl
      subst hnm
      refine ⟨[], [n], [n], rfl, rfl, rfl, rfl, fun ix jx hi hj => ?_⟩
      obtain ⟨j, hj', rfl⟩ := Buf.inBounds_one.1 hj
      cases hi
      refine Finset.sum_congr rfl (fun k hk => ?_)
      have hk := Finset.mem_range.1 hk
      show Buf.read x [k] * Buf.read y [k, j] = X [k] * Y [k, j]
      rw [hXr _ (inBounds_one' hk), hYr _ (inBounds_pair' hk hj')]

end Aegir
