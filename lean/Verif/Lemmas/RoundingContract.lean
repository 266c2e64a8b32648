import Verif.Lemmas.Rounding
/-!
# Judgements about the entries of contractions and sums
-/

namespace Aegir

open Spec

section
variable {F : Type} [Zero F] [One F] [Add F] [Sub F] [Mul F] [Neg F] [ScalarFns F]
variable {J : ℕ → F → ℝ → ℝ → Prop} {R : ℕ → ℝ → Prop} {lax : Prop} {k l : ℕ}

omit [One F] [Add F] [Sub F] [Mul F] [Neg F] [ScalarFns F] in
theorem HoldsBuf.read {τ : BTy} {b : Buf F τ} {ds : Dims} {A M : Idx → ℝ}
    (h : HoldsBuf J k b ds A M) {ix : Idx} (hix : InBounds ds ix) :
    J k (Buf.read b ix) (A ix) (M ix) := by
  obtain ⟨x, hx, hn⟩ := h.2 ix hix
  rw [Buf.read, hx]; exact hn

omit [One F] [Add F] [Sub F] [Mul F] [Neg F] [ScalarFns F] in
theorem holdsBuf_of_read {τ : BTy} {b : Buf F τ} {ds : Dims} {A M : Idx → ℝ}
    (hd : Buf.dims τ b = ds)
    (h : ∀ ix, InBounds ds ix → J k (Buf.read b ix) (A ix) (M ix)) :
    HoldsBuf J k b ds A M :=
  ⟨hd, fun ix hix => ⟨_, Buf.getU_read b ix (hd ▸ hix), h ix hix⟩⟩

theorem HoldsBuf.mono (hv : Calc J R lax) {τ : BTy} {b : Buf F τ} {ds : Dims} {A M : Idx → ℝ}
    (h : HoldsBuf J k b ds A M) (hk : k ≤ l) : HoldsBuf J l b ds A M :=
  ⟨h.1, fun ix hix => (h.2 ix hix).imp fun _ hx => ⟨hx.1, hv.mono hx.2 hk⟩⟩

omit [One F] [Add F] [Sub F] [Mul F] [Neg F] [ScalarFns F] in
theorem HoldsBuf.congr {τ : BTy} {b : Buf F τ} {ds : Dims} {A M A' M' : Idx → ℝ}
    (h : HoldsBuf J k b ds A M) (hA : ∀ ix, InBounds ds ix → A ix = A' ix)
    (hM : ∀ ix, InBounds ds ix → M ix = M' ix) : HoldsBuf J k b ds A' M' :=
  holdsBuf_of_read h.1 fun ix hix => by rw [← hA ix hix, ← hM ix hix]; exact h.read hix

/-- The loop of a contraction. -/
theorem sumLoop_holds (hv : Calc J R lax) (n : ℕ) (g : ℕ → Option F) (A M : ℕ → ℝ)
    (hg : ∀ i, i < n → ∃ t, g i = some t ∧ J k t (A i) (M i))
    (hR : R (k + n) (∑ i ∈ Finset.range n, M i)) :
    ∃ w, sumLoop n g = some w ∧
      J (k + n) w (∑ i ∈ Finset.range n, A i) (∑ i ∈ Finset.range n, M i) := by
  unfold sumLoop
  induction n with
  | zero => exact ⟨0, rfl, by simpa using hv.mono hv.zero (Nat.zero_le _)⟩
  | succ n ih =>
    obtain ⟨t, ht, hnt⟩ := hg n (by omega)
    have hR' := hR
    rw [Finset.sum_range_succ] at hR'
    obtain ⟨w, hw, hn⟩ := ih (fun i hi => hg i (by omega))
      (hv.anti hR' (by omega) (by have := hv.pos hnt; linarith))
    refine ⟨w + t, ?_, ?_⟩
    · rw [List.range_succ, List.foldlM_append, hw]
      simp [ht]
    · rw [Finset.sum_range_succ, Finset.sum_range_succ]
      exact hv.mono (hv.add hn hnt (hv.anti hR' (by omega) le_rfl)) (by omega)

omit [One F] [Sub F] [Mul F] [Neg F] [ScalarFns F] in
/-- A fold of products over a rank-1 array is such a loop. -/
theorem fold_sumLoop (n : ℕ) (x : Buf F (.array [n])) (g : F → F) :
    sumLoop n (fun i => (NArr.getU [n] x [i]).map g) =
      some (NArr.fold [n] x 0 (fun acc xi => acc + g xi)) := by
  have h : Buf.foldDefault (.array [n]) x (0 : F) (fun acc xi => acc + g xi)
      = some (NArr.fold [n] x 0 (fun acc xi => acc + g xi)) :=
    Buf.foldDefault_eq (.array [n]) x (0 : F) (fun acc xi => acc + g xi)
  rw [← h]
  unfold Buf.foldDefault
  show _ = (Shape.indices [n]).foldlM _ 0
  rw [indices_one, List.foldlM_map]
  unfold sumLoop
  congr 1
  funext acc i
  show _ = (NArr.getU [n] x [i]).map _
  rw [Option.map_map]; rfl

omit [One F] [Sub F] [Neg F] [ScalarFns F] in
theorem zipFold_sumLoop (n : ℕ) (x y : Buf F (.array [n])) :
    NArr.zipFoldSelf [n] x y 0 (fun acc (p : F × F) => acc + p.1 * p.2) =
      sumLoop n (fun i => (NArr.getU [n] x [i]).bind fun a =>
        (NArr.getU [n] y [i]).map fun b => a * b) := by
  unfold NArr.zipFoldSelf sumLoop
  rw [indices_one, List.foldlM_map]
  congr 1
  funext acc i
  beta_reduce
  cases NArr.getU [n] x [i] with
  | none => rfl
  | some a => cases NArr.getU [n] y [i] <;> rfl

/-- Number of terms of the sums of a contraction. -/
def ContractImpl.terms {axes : ℕ} {a b c : BTy} : ContractImpl axes a b c → ℕ
  | .dot n => n
  | .mv _ m => m
  | .mm _ z _ => z
  | .vm _ m => m
  | _ => 1

/-- The loop of a contraction, whose terms are products. -/
theorem sumLoop_dot (hv : Calc J R lax) (n : ℕ) (g : ℕ → Option F) {A M B N : ℕ → ℝ}
    (hg : ∀ i, i < n → ∃ p q, g i = some (p * q) ∧ J k p (A i) (M i) ∧ J l q (B i) (N i))
    (hR : R (k + l + 1 + n) (∑ i ∈ Finset.range n, M i * N i)) :
    ∃ w, sumLoop n g = some w ∧ J (k + l + 1 + n) w (∑ i ∈ Finset.range n, A i * B i)
      (∑ i ∈ Finset.range n, M i * N i) := by
  refine sumLoop_holds hv n g _ _ (fun i hi => ?_) hR
  obtain ⟨p, q, h, hp, hq⟩ := hg i hi
  refine ⟨_, h, hv.mul hp hq (hv.anti hR (by omega) (le_sum_range (f := fun i => M i * N i)
    (fun j hj => ?_) hi))⟩
  obtain ⟨p, q, -, hp, hq⟩ := hg j hj
  exact mul_nonneg (hv.pos hp) (hv.pos hq)

variable {axes : ℕ} {a b c : BTy}

omit [One F] [Sub F] [Neg F] [ScalarFns F] [Add F] [Mul F] in
theorem read_of_getU {τ : BTy} {b : Buf F τ} {ix : Idx} {x : F} (h : Buf.getU τ b ix = some x) :
    Buf.read b ix = x := by rw [Buf.read, h]; rfl

omit [One F] [Add F] [Sub F] [Mul F] [Neg F] [ScalarFns F] in
theorem read_getU {ds : Dims} (b : Buf F (.array ds)) (ix : Idx) (h : InBounds ds ix) :
    NArr.getU ds b ix = some (Buf.read b ix) := Buf.getU_read b ix h

theorem holdsDense (hv : Calc J R lax) (z : ContractImpl axes a b c) (hin : z.inRange)
    {x : Buf F a} {y : Buf F b} {X MX Y MY : Idx → ℝ}
    (hx : HoldsBuf J k x (Buf.dims a x) X MX) (hy : HoldsBuf J l y (Buf.dims b y) Y MY)
    {r : Buf F c} (h : Buf.contract z x y = .ok r)
    (hR : ∀ ix, InBounds (Shp.dims c z.outShape) ix → R (k + l + z.terms + 1) (z.fn MX MY ix)) :
    HoldsBuf J (k + l + z.terms + 1) r (Shp.dims c z.outShape) (z.fn X Y) (z.fn MX MY) := by
  cases z with
  | ss0 =>
    cases h
    refine holdsBuf_of_read rfl fun ix hix => ?_
    cases hix
    exact hv.mul' (hx.read .nil) (hy.read .nil) (by simp only [ContractImpl.terms]; omega) (hR [] .nil)
  | ss1 =>
    cases h
    refine holdsBuf_of_read rfl fun ix hix => ?_
    cases hix
    exact hv.mul' (hx.read .nil) (hy.read .nil) (by simp only [ContractImpl.terms]; omega) (hR [] .nil)
  | vs0 n =>
    cases h
    refine holdsBuf_of_read rfl fun ix hix => ?_
    rw [NArr.mutate_eq_map, read_of_getU (τ := .array [n]) (x := Buf.read x ix * y)
      (by rw [Buf.getU]; rw [NArr.getU_map, read_getU x ix hix]; rfl)]
    exact hv.mul' (hx.read hix) (hy.read .nil) (by simp only [ContractImpl.terms]; omega) (hR _ hix)
  | sv0 n =>
    cases h
    refine holdsBuf_of_read rfl fun ix hix => ?_
    rw [NArr.mutate_eq_map, read_of_getU (τ := .array [n]) (x := Buf.read y ix * x)
      (by rw [Buf.getU]; rw [NArr.getU_map, read_getU y ix hix]; rfl)]
    exact hv.mul' (hy.read hix) (hx.read .nil) (by simp only [ContractImpl.terms]; omega) (hR _ hix)
  | ms0 n m =>
    cases h
    refine holdsBuf_of_read rfl fun ix hix => ?_
    rw [NArr.mutate_eq_map, read_of_getU (τ := .array [n, m]) (x := Buf.read x ix * y)
      (by rw [Buf.getU]; rw [NArr.getU_map, read_getU x ix hix]; rfl)]
    exact hv.mul' (hx.read hix) (hy.read .nil) (by simp only [ContractImpl.terms]; omega) (hR _ hix)
  | sm0 n m =>
    cases h
    refine holdsBuf_of_read rfl fun ix hix => ?_
    rw [NArr.mutate_eq_map, read_of_getU (τ := .array [n, m]) (x := Buf.read y ix * x)
      (by rw [Buf.getU]; rw [NArr.getU_map, read_getU y ix hix]; rfl)]
    exact hv.mul' (hy.read hix) (hx.read .nil) (by simp only [ContractImpl.terms]; omega) (hR _ hix)
  | vv0 n m =>
    cases h
    refine holdsBuf_of_read rfl fun ix hix => ?_
    obtain ⟨i, j, hi, hj, rfl⟩ := inBounds_pair.1 hix
    have hxi : NArr.elem x ⟨i, hi⟩ = Buf.read x [i] := Option.some.inj (by
      rw [← NArr.getU_elem, read_getU x [i] (inBounds_one' hi)])
    rw [read_of_getU (τ := .array [n, m]) (x := Buf.read x [i] * Buf.read y [j])
      (by
        show NArr.getU [n, m] (NArr.mkRows _) [i, j] = _
        rw [NArr.getU_mkRows _ _ _ hi, NArr.getU_map, read_getU y [j] (inBounds_one' hj), hxi]
        rfl)]
    exact hv.mul' (hx.read (inBounds_one' hi)) (hy.read (inBounds_one' hj)) (by simp only [ContractImpl.terms]; omega) (hR _ hix)
  | dot n =>
    have h : Res.ofOption (NArr.zipFoldSelf [n] x y 0 (fun acc (p : F × F) => acc + p.1 * p.2))
      = Res.ok r := h
    rw [zipFold_sumLoop] at h
    obtain ⟨w, hw, hn⟩ := sumLoop_dot hv n (fun i => (NArr.getU [n] x [i]).bind
      fun a => (NArr.getU [n] y [i]).map fun b => a * b) (A := fun i => X [i]) (B := fun i => Y [i])
      (M := fun i => MX [i]) (N := fun i => MY [i]) (fun i hi =>
        ⟨Buf.read x [i], Buf.read y [i], by
          rw [read_getU x [i] (inBounds_one' hi), read_getU y [i] (inBounds_one' hi)]; rfl,
          hx.read (inBounds_one' hi), hy.read (inBounds_one' hi)⟩)
      (hv.anti (hR [] .nil) (by simp only [ContractImpl.terms]; omega) le_rfl)
    rw [hw] at h
    cases h
    refine holdsBuf_of_read rfl fun ix hix => ?_
    cases hix
    exact hv.mono hn (by simp only [ContractImpl.terms]; omega)
  | mv n m =>
    have hmn : m ≤ n := hin
    have key := fun i : Fin m => sumLoop_dot hv m
      (fun j => (NArr.getU [n, m] x [i.val, j]).bind fun a => (NArr.getU [n] y [j]).map fun b => a * b)
      (A := fun j => X [i.val, j]) (B := fun j => Y [j]) (M := fun j => MX [i.val, j])
      (N := fun j => MY [j]) (fun j hj => by
        have h1 : InBounds [n, m] [i.val, j] := inBounds_pair' (by omega) hj
        have h2 : InBounds [n] [j] := inBounds_one' (by omega)
        exact ⟨Buf.read x [i.val, j], Buf.read y [j], by rw [read_getU x _ h1, read_getU y _ h2]; rfl,
          hx.read h1, hy.read h2⟩)
      (hv.anti (hR [i.val] (inBounds_one' i.isLt)) (by simp only [ContractImpl.terms]; omega) le_rfl)
    choose w hw hn using key
    have h : Res.ofOption (NArr.ofElemsOpt (d := m) _) = Res.ok r := h
    rw [NArr.ofElemsOpt_some _ w hw] at h
    cases h
    refine holdsBuf_of_read rfl fun ix hix => ?_
    obtain ⟨i, hi, rfl⟩ := Buf.inBounds_one.1 hix
    rw [show Buf.read (τ := .array [m]) (NArr.ofElems w) [i] = w ⟨i, hi⟩ from
      read_of_getU (τ := .array [m]) (b := NArr.ofElems w) (ix := [i])
        (NArr.getU_ofElems w i hi)]
    exact hv.mono (hn ⟨i, hi⟩) (by simp only [ContractImpl.terms]; omega)
  | vm n m =>
    have hmn : m ≤ n := hin
    have key := fun i : Fin m => sumLoop_dot hv m
      (fun j => (NArr.getU [n] x [j]).bind fun a => (NArr.getU [n, m] y [j, i.val]).map fun b => a * b)
      (A := fun j => X [j]) (B := fun j => Y [j, i.val]) (M := fun j => MX [j])
      (N := fun j => MY [j, i.val]) (fun j hj => by
        have h1 : InBounds [n] [j] := inBounds_one' (by omega)
        have h2 : InBounds [n, m] [j, i.val] := inBounds_pair' (by omega) i.isLt
        exact ⟨Buf.read x [j], Buf.read y [j, i.val],
          by rw [read_getU x _ h1, read_getU y _ h2]; rfl, hx.read h1, hy.read h2⟩)
      (hv.anti (hR [i.val] (inBounds_one' i.isLt)) (by simp only [ContractImpl.terms]; omega) le_rfl)
    choose w hw hn using key
    have h : Res.ofOption (NArr.ofElemsOpt (d := m) _) = Res.ok r := h
    rw [NArr.ofElemsOpt_some _ w hw] at h
    cases h
    refine holdsBuf_of_read rfl fun ix hix => ?_
    obtain ⟨i, hi, rfl⟩ := Buf.inBounds_one.1 hix
    rw [show Buf.read (τ := .array [m]) (NArr.ofElems w) [i] = w ⟨i, hi⟩ from
      read_of_getU (τ := .array [m]) (b := NArr.ofElems w) (ix := [i])
        (NArr.getU_ofElems w i hi)]
    exact hv.mono (hn ⟨i, hi⟩) (by simp only [ContractImpl.terms]; omega)
  | mm n z m =>
    have key := fun (i : Fin n) (j : Fin m) => sumLoop_dot hv z
      (fun t => (NArr.getU [n, z] x [i.val, t]).bind fun a =>
        (NArr.getU [z, m] y [t, j.val]).map fun b => a * b)
      (A := fun t => X [i.val, t]) (B := fun t => Y [t, j.val]) (M := fun t => MX [i.val, t])
      (N := fun t => MY [t, j.val]) (fun t ht => by
        have h1 : InBounds [n, z] [i.val, t] := inBounds_pair' i.isLt ht
        have h2 : InBounds [z, m] [t, j.val] := inBounds_pair' ht j.isLt
        exact ⟨Buf.read x [i.val, t], Buf.read y [t, j.val],
          by rw [read_getU x _ h1, read_getU y _ h2]; rfl, hx.read h1, hy.read h2⟩)
      (hv.anti (hR [i.val, j.val] (inBounds_pair' i.isLt j.isLt))
        (by simp only [ContractImpl.terms]; omega) le_rfl)
    choose w hw hn using key
    have h : Res.ofOption (NArr.mkRowsOpt (d := n) (ds := [m]) _) = Res.ok r := h
    rw [NArr.mkRowsOpt_some (ds := [m]) _ (fun i => NArr.ofElems (w i))
      (fun i => NArr.ofElemsOpt_some _ (w i) (hw i))] at h
    cases h
    refine holdsBuf_of_read rfl fun ix hix => ?_
    obtain ⟨i, j, hi, hj, rfl⟩ := inBounds_pair.1 hix
    rw [read_of_getU (τ := .array [n, m]) (x := w ⟨i, hi⟩ ⟨j, hj⟩) (by
      show NArr.getU [n, m] (NArr.mkRows _) [i, j] = _
      rw [NArr.getU_mkRows _ _ _ hi]; exact NArr.getU_ofElems _ _ hj)]
    exact hv.mono (hn ⟨i, hi⟩ ⟨j, hj⟩) (by simp only [ContractImpl.terms]; omega)

omit [One F] [Add F] [Sub F] [Mul F] [Neg F] [ScalarFns F] in
theorem HoldsBuf.full {τ : BTy} {s : Shp τ} {v : F} {ds : Dims} {A M : Idx → ℝ}
    (h : HoldsBuf J k (BSpec.full s v : BSpec F τ).unwrap ds A M) {ix : Idx}
    (hix : InBounds ds ix) : J k v (A ix) (M ix) := by
  have h1 := h.read hix
  have hd : ds = Shp.dims τ s := h.1.symm.trans (Buf.dims_full τ s v)
  have e : Buf.read (BSpec.full s v : BSpec F τ).unwrap ix = v := Buf.read_full s v ix (hd ▸ hix)
  rwa [e] at h1

omit [One F] [Add F] [Sub F] [Mul F] [Neg F] [ScalarFns F] in
theorem holdsBuf_full {τ : BTy} {s : Shp τ} {v : F} {A M : Idx → ℝ}
    (h : ∀ ix, InBounds (Shp.dims τ s) ix → J k v (A ix) (M ix)) :
    HoldsBuf J k (BSpec.full s v : BSpec F τ).unwrap (Shp.dims τ s) A M :=
  holdsBuf_of_read (Buf.dims_full τ s v) fun ix hix => by
    have e : Buf.read (BSpec.full s v : BSpec F τ).unwrap ix = v := Buf.read_full s v ix hix
    rw [e]; exact h ix hix

omit [One F] [Add F] [Sub F] [Mul F] [Neg F] [ScalarFns F] in
theorem read_diag2 {n m : Nat} (s : Shp (.array [n, m])) (v : F) (i j : Nat) (hi : i < n)
    (hj : j < m) :
    Buf.read (BSpec.diagonal s v : BSpec F (.array [n, m])).unwrap [i, j] = if i = j then v else 0 := by
  refine (Buf.read_diagonal s v [i, j] (inBounds_pair' hi hj)).trans ?_
  simp [Shape.isDiagonal]

theorem holdsContract (hv : Calc J R lax) (z : ContractImpl axes a b c) (hin : z.inRange)
    {x : BSpec F a} {y : BSpec F b} {X MX Y MY : Idx → ℝ}
    (hx : HoldsBuf J k x.unwrap (Buf.dims a x.unwrap) X MX)
    (hy : HoldsBuf J l y.unwrap (Buf.dims b y.unwrap) Y MY)
    {s : BSpec F c} (h : BSpec.contract z x y = .ok s)
    (hR : ∀ ix, InBounds (Shp.dims c z.outShape) ix → R (k + l + z.terms + 3) (z.fn MX MY ix))
    (hR1 : ∀ ix, InBounds (Shp.dims c z.outShape) ix → R (k + 2) (z.fn MX (fun _ => 1) ix))
    (hlax : z.terms ≠ 0 ∨ lax) :
    HoldsBuf J (k + l + z.terms + 3) s.unwrap (Shp.dims c z.outShape) (z.fn X Y)
      (z.fn MX MY) := by
  have dense : ∀ {x : BSpec F a} {y : BSpec F b} {s : BSpec F c},
      HoldsBuf J k x.unwrap (Buf.dims a x.unwrap) X MX →
      HoldsBuf J l y.unwrap (Buf.dims b y.unwrap) Y MY →
      BSpec.denseContract z x y = .ok s →
      HoldsBuf J (k + l + z.terms + 3) s.unwrap (Shp.dims c z.outShape) (z.fn X Y)
        (z.fn MX MY) := by
    intro x y s hx hy h
    obtain ⟨r, hr, rfl⟩ := (Res.map_ok_iff _ _ _).1 h
    exact (holdsDense hv z hin hx hy hr fun ix hix => hv.anti (hR ix hix) (by omega) le_rfl).mono hv
      (by omega)
  cases z with
  | ss0 =>
    cases h
    refine holdsBuf_full fun ix hix => ?_
    cases hix
    exact hv.mul' (hx.read .nil) (hy.read .nil) (by simp only [ContractImpl.terms]; omega) (hR [] .nil)
  | ss1 =>
    cases h
    refine holdsBuf_full fun ix hix => ?_
    cases hix
    exact hv.mul' (hx.read .nil) (hy.read .nil) (by simp only [ContractImpl.terms]; omega) (hR [] .nil)
  | vs0 n =>
    cases x with
    | full sx fx =>
      cases h
      exact holdsBuf_full (τ := .array [n]) fun ix hix =>
        hv.mul' (hx.full (ds := [n]) hix) (hy.read .nil) (by simp only [ContractImpl.terms]; omega)
          (hR _ hix)
    | raw _ => exact dense hx hy h
    | diagonal _ _ => exact dense hx hy h
  | sv0 n =>
    cases y with
    | full sx fx =>
      cases h
      exact holdsBuf_full (τ := .array [n]) fun ix hix =>
        hv.mul_swap (hy.full (ds := [n]) hix) (hx.read .nil) (by simp only [ContractImpl.terms]; omega)
          (hR _ hix)
    | raw _ => exact dense hx hy h
    | diagonal _ _ => exact dense hx hy h
  | ms0 n m =>
    cases x with
    | full sx fx =>
      cases h
      exact holdsBuf_full (τ := .array [n, m]) fun ix hix =>
        hv.mul' (hx.full (ds := [n, m]) hix) (hy.read .nil) (by simp only [ContractImpl.terms]; omega)
          (hR _ hix)
    | raw _ => exact dense hx hy h
    | diagonal _ _ => exact dense hx hy h
  | sm0 n m =>
    cases y with
    | full sx fx =>
      cases h
      exact holdsBuf_full (τ := .array [n, m]) fun ix hix =>
        hv.mul' (hy.full (ds := [n, m]) hix) (hx.read .nil) (by simp only [ContractImpl.terms]; omega)
          (hR _ hix)
    | raw _ => exact dense hx hy h
    | diagonal _ _ => exact dense hx hy h
  | vv0 n m =>
    have zl : ∀ (i j : ℕ), J k 0 (X [i]) (MX [i]) → j < m →
        J (k + l + 1 + 3) 0 (X [i] * Y [j]) (MX [i] * MY [j]) := fun i j h0 hj =>
      hv.mulz' h0 (hy.read (inBounds_one' hj)) (by omega)
    have zr : ∀ (i j : ℕ), i < n → J l 0 (Y [j]) (MY [j]) →
        J (k + l + 1 + 3) 0 (X [i] * Y [j]) (MX [i] * MY [j]) := fun i j hi h0 =>
      hv.mulz_swap (hx.read (inBounds_one' hi)) h0 (by omega)
    have fullL : ∀ {sx : Shp (.array [n])} {fx : F} {y : BSpec F (.array [m])}
        {s : BSpec F (.array [n, m])},
        (∀ i, i < n → J k fx (X [i]) (MX [i])) →
        HoldsBuf J l y.unwrap (Buf.dims (.array [m]) y.unwrap) Y MY →
        (if ScalarFns.isZero fx then .ok (BSpec.zeroes ())
          else .ok (.raw (NArr.mkRows (d := n) (ds := [m])
            (fun _ => NArr.map [m] y.unwrap (fun yj => fx * yj)))) : Res IncShapes _) = .ok s →
        HoldsBuf J (k + l + 1 + 3) s.unwrap [n, m]
          ((ContractImpl.vv0 n m).fn X Y) ((ContractImpl.vv0 n m).fn MX MY) := by
      intro sx fx y s hx hy h
      split at h
      · next hz =>
        cases h
        refine holdsBuf_full (τ := .array [n, m]) fun ix hix => ?_
        obtain ⟨i, j, hi, hj, rfl⟩ := inBounds_pair.1 hix
        exact zl i j (hv.isZero hz (hx i hi)) hj
      · cases h
        refine holdsBuf_of_read rfl fun ix hix => ?_
        obtain ⟨i, j, hi, hj, rfl⟩ := inBounds_pair.1 hix
        have e : Buf.read (τ := .array [n, m]) (NArr.mkRows (d := n) (ds := [m])
            (fun _ => NArr.map [m] y.unwrap (fun yj => fx * yj))) [i, j]
            = fx * Buf.read y.unwrap [j] := read_of_getU (τ := .array [n, m]) (by
          show NArr.getU [n, m] (NArr.mkRows _) [i, j] = _
          rw [NArr.getU_mkRows _ _ _ hi, NArr.getU_map, read_getU _ [j] (inBounds_one' hj)]
          rfl)
        have := hv.mul' (hx i hi) (hy.read (ix := [j]) (inBounds_one' hj)) (j := k + l + 1 + 3)
          (by omega) (hR [i, j] hix)
        rwa [← e] at this
    have fullR : ∀ {sy : Shp (.array [m])} {fy : F} {x : BSpec F (.array [n])}
        {s : BSpec F (.array [n, m])},
        HoldsBuf J k x.unwrap (Buf.dims (.array [n]) x.unwrap) X MX →
        (∀ j, j < m → J l fy (Y [j]) (MY [j])) →
        (if ScalarFns.isZero fy then .ok (BSpec.zeroes ())
          else .ok (.raw (NArr.mkRows (d := n) (ds := [m])
            (fun i => NArr.ofElems (d := m)
              (fun _ => NArr.elem x.unwrap i * fy)))) : Res IncShapes _) = .ok s →
        HoldsBuf J (k + l + 1 + 3) s.unwrap [n, m]
          ((ContractImpl.vv0 n m).fn X Y) ((ContractImpl.vv0 n m).fn MX MY) := by
      intro sy fy x s hx hy h
      split at h
      · next hz =>
        cases h
        refine holdsBuf_full (τ := .array [n, m]) fun ix hix => ?_
        obtain ⟨i, j, hi, hj, rfl⟩ := inBounds_pair.1 hix
        exact zr i j hi (hv.isZero hz (hy j hj))
      · cases h
        refine holdsBuf_of_read rfl fun ix hix => ?_
        obtain ⟨i, j, hi, hj, rfl⟩ := inBounds_pair.1 hix
        have hxi : NArr.elem x.unwrap ⟨i, hi⟩ = Buf.read x.unwrap [i] := Option.some.inj (by
          rw [← NArr.getU_elem, read_getU x.unwrap [i] (inBounds_one' hi)])
        have e : Buf.read (τ := .array [n, m]) (NArr.mkRows (d := n) (ds := [m])
            (fun i => NArr.ofElems (d := m) (fun _ => NArr.elem x.unwrap i * fy))) [i, j]
            = Buf.read x.unwrap [i] * fy := read_of_getU (τ := .array [n, m]) (by
          show NArr.getU [n, m] (NArr.mkRows _) [i, j] = _
          rw [NArr.getU_mkRows _ _ _ hi, NArr.getU_ofElems _ _ hj, hxi])
        have := hv.mul' (hx.read (ix := [i]) (inBounds_one' hi)) (hy j hj) (j := k + l + 1 + 3)
          (by omega) (hR [i, j] hix)
        rwa [← e] at this
    cases x with
    | full sx fx =>
      have hfx : ∀ i, i < n → J k fx (X [i]) (MX [i]) := fun i hi =>
        hx.full (ds := [n]) (inBounds_one' hi)
      cases y with
      | full sy fy =>
        cases h
        refine holdsBuf_full (τ := .array [n, m]) fun ix hix => ?_
        obtain ⟨i, j, hi, hj, rfl⟩ := inBounds_pair.1 hix
        exact hv.mul' (hfx i hi) (hy.full (ds := [m]) (inBounds_one' hj))
          (by simp only [ContractImpl.terms]; omega) (hR [i, j] hix)
      | raw b => exact fullL (sx := sx) hfx hy h
      | diagonal t fy => exact fullL (sx := sx) hfx hy h
    | raw b =>
      cases y with
      | full sy fy =>
        exact fullR (sy := sy) hx (fun j hj => hy.full (ds := [m]) (inBounds_one' hj)) h
      | raw _ => exact dense hx hy h
      | diagonal _ _ => exact dense hx hy h
    | diagonal sx fx =>
      cases y with
      | full sy fy =>
        exact fullR (sy := sy) hx (fun j hj => hy.full (ds := [m]) (inBounds_one' hj)) h
      | raw _ => exact dense hx hy h
      | diagonal _ _ => exact dense hx hy h
  | dot n =>
    have general : ∀ {x y : BSpec F (.array [n])} {s : BSpec F .scalar},
        HoldsBuf J k x.unwrap (Buf.dims (.array [n]) x.unwrap) X MX →
        HoldsBuf J l y.unwrap (Buf.dims (.array [n]) y.unwrap) Y MY →
        (Buf.zipFold (.aa [n]) x.unwrap y.unwrap 0 (fun acc p => acc + p.1 * p.2)).map BSpec.raw
          = .ok s →
        HoldsBuf J (k + l + n + 3) s.unwrap [] ((ContractImpl.dot n).fn X Y)
          ((ContractImpl.dot n).fn MX MY) := fun hx hy h => dense hx hy h
    have loop : ∀ {w : BSpec F (.array [n])} {g : F → F},
        (∀ i, i < n → ∃ p q, g (Buf.read w.unwrap [i]) = p * q ∧ J k p (X [i]) (MX [i]) ∧
          J l q (Y [i]) (MY [i])) →
        HoldsBuf J (k + l + n + 3)
          (BSpec.full () (NArr.fold [n] w.unwrap 0 (fun acc yi => acc + g yi)) :
            BSpec F .scalar).unwrap [] ((ContractImpl.dot n).fn X Y)
          ((ContractImpl.dot n).fn MX MY) := by
      intro w g hg
      refine holdsBuf_full (τ := .scalar) fun ix hix => ?_
      obtain ⟨r, hr, hn⟩ := sumLoop_dot hv n (fun i => (NArr.getU [n] w.unwrap [i]).map g)
        (A := fun i => X [i]) (B := fun i => Y [i]) (M := fun i => MX [i]) (N := fun i => MY [i])
        (fun i hi => by
          obtain ⟨p, q, e, hpq⟩ := hg i hi
          exact ⟨p, q, by rw [read_getU w.unwrap [i] (inBounds_one' hi), ← e]; rfl, hpq⟩)
        (hv.anti (hR [] .nil) (by simp only [ContractImpl.terms]; omega) le_rfl)
      rw [fold_sumLoop] at hr
      cases hr
      exact hv.mono hn (by omega)
    cases x with
    | full sx fx =>
      have hfx : ∀ i, i < n → J k fx (X [i]) (MX [i]) := fun i hi =>
        hx.full (ds := [n]) (inBounds_one' hi)
      cases y with
      | full sy fy =>
        obtain ⟨K, hK, rfl⟩ := (Res.map_ok_iff _ _ _).1 h
        have hK : (ScalarFns.fromUsize n : Option F) = some K := by
          cases hh : (ScalarFns.fromUsize n : Option F) with
          | none => rw [hh] at hK; cases hK
          | some K' => rw [hh] at hK; cases hK; rfl
        exact holdsBuf_full (τ := .scalar) fun ix hix =>
          hv.mono (hv.times hK hfx (fun i hi => hy.full (ds := [n]) (inBounds_one' hi)) hlax
            (by have := hR1 [] .nil; simpa only [ContractImpl.fn, mul_one] using this)
            (hv.anti (hR [] .nil) (by omega) le_rfl)) (by omega)
      | raw b =>
        cases h
        exact loop (w := .raw b) fun i hi =>
          ⟨_, _, rfl, hfx i hi, hy.read (inBounds_one' hi)⟩
      | diagonal t fy =>
        cases h
        exact loop (w := .diagonal t fy) fun i hi =>
          ⟨_, _, rfl, hfx i hi, hy.read (ix := [i]) (inBounds_one' hi)⟩
    | raw b =>
      cases y with
      | full sy fy =>
        cases h
        exact loop (w := .raw b) (g := fun xi => xi * fy) fun i hi =>
          ⟨_, _, rfl, hx.read (inBounds_one' hi), hy.full (ds := [n]) (inBounds_one' hi)⟩
      | raw b' => exact general hx hy h
      | diagonal t fy => exact general hx hy h
    | diagonal sx fx =>
      cases y with
      | full sy fy =>
        cases h
        exact loop (w := .diagonal sx fx) (g := fun xi => xi * fy) fun i hi =>
          ⟨_, _, rfl, hx.read (ix := [i]) (inBounds_one' hi), hy.full (ds := [n]) (inBounds_one' hi)⟩
      | raw b' => exact general hx hy h
      | diagonal t fy => exact general hx hy h
  | mv n m =>
    have hmn : m ≤ n := hin
    -- row `i` of a multiple of the identity
    have row : ∀ {sx : Shp (.array [n, m])} {fx : F} (i : ℕ), i < m → ∀ {w : ℕ → F},
        HoldsBuf J k (BSpec.diagonal sx fx : BSpec F (.array [n, m])).unwrap
          (Buf.dims (.array [n, m]) (BSpec.diagonal sx fx : BSpec F (.array [n, m])).unwrap) X MX →
        (∀ j, j < m → J l (w j) (Y [j]) (MY [j])) →
        J (k + l + m + 3) (fx * w i) (∑ j ∈ Finset.range m, X [i, j] * Y [j])
          (∑ j ∈ Finset.range m, MX [i, j] * MY [j]) := by
      intro sx fx i hi w hx hw
      have ent : ∀ j, j < m → J k (if i = j then fx else 0) (X [i, j]) (MX [i, j]) := fun j hj => by
        have h1 := hx.read (ix := [i, j]) (inBounds_pair' (by omega) hj)
        rwa [read_diag2 sx fx i j (by omega) hj] at h1
      refine hv.sum_single (A := fun j => X [i, j] * Y [j]) (M := fun j => MX [i, j] * MY [j]) hi
        (fun j hj hji => ?_) ?_
      · have := ent j hj
        rw [if_neg (Ne.symm hji)] at this
        exact hv.mulz' this (hw j hj) (by omega)
      · have := ent i hi
        rw [if_pos rfl] at this
        exact hv.mul' this (hw i hi) (by omega) (hv.anti (hR [i] (inBounds_one' hi)) le_rfl
          (le_sum_range (f := fun j => MX [i, j] * MY [j])
            (fun j hj => mul_nonneg (hv.pos (ent j hj)) (hv.pos (hw j hj))) hi))
    cases x with
    | raw b => exact dense hx hy h
    | full sx fx =>
      replace h : (if ScalarFns.isZero fx then Res.ok (BSpec.zeroes ())
        else BSpec.denseContract (.mv n m) (.full sx fx) y) = .ok s := h
      split at h
      · next hz =>
        cases h
        refine holdsBuf_full (τ := .array [m]) fun ix hix => ?_
        obtain ⟨i, hi, rfl⟩ := Buf.inBounds_one.1 hix
        exact hv.sumz (A := fun j => X [i, j] * Y [j]) (M := fun j => MX [i, j] * MY [j]) m fun j hj =>
          hv.mulz' (hv.isZero hz (hx.full (ds := [n, m]) (inBounds_pair' (by omega) hj)))
            (hy.read (ix := [j]) (inBounds_one' (by omega))) (by omega)
      · exact dense hx hy h
    | diagonal sx fx =>
      have rest : ∀ {y : BSpec F (.array [n])} {s : BSpec F (.array [m])},
          HoldsBuf J l y.unwrap (Buf.dims (.array [n]) y.unwrap) Y MY →
          (if h : m = n then
            .ok (.raw (h ▸ NArr.mutate [n] y.unwrap (fun yi => fx * yi)))
          else BSpec.denseContract (.mv n m) (.diagonal sx fx) y) = Res.ok s →
          HoldsBuf J (k + l + m + 3) s.unwrap [m] ((ContractImpl.mv n m).fn X Y)
            ((ContractImpl.mv n m).fn MX MY) := by
        intro y s hy h
        split at h
        · next hmn =>
          subst hmn
          cases h
          refine holdsBuf_of_read rfl fun ix hix => ?_
          obtain ⟨i, hi, rfl⟩ := Buf.inBounds_one.1 hix
          have e : Buf.read (BSpec.raw (NArr.mutate [m] y.unwrap (fun yi => fx * yi)) :
              BSpec F (.array [m])).unwrap [i] = fx * Buf.read y.unwrap [i] :=
            read_of_getU (τ := .array [m]) (by
              show NArr.getU [m] (NArr.mutate [m] y.unwrap _) [i] = _
              rw [NArr.mutate_eq_map, NArr.getU_map, read_getU _ [i] hix]; rfl)
          have := row (sx := sx) (fx := fx) i hi (w := fun j => Buf.read y.unwrap [j]) hx
            (fun j hj => hy.read (ix := [j]) (inBounds_one' hj))
          rw [← e] at this
          exact this
        · exact dense hx hy h
      cases y with
      | full sy fy =>
        cases h
        refine holdsBuf_full (τ := .array [m]) fun ix hix => ?_
        obtain ⟨i, hi, rfl⟩ := Buf.inBounds_one.1 hix
        exact row (sx := sx) (fx := fx) i hi (w := fun _ => fy) hx
          (fun j hj => hy.full (ds := [n]) (inBounds_one' (by omega)))
      | raw b => exact rest hy h
      | diagonal t fy => exact rest hy h
  | vm n m =>
    have hmn : m ≤ n := hin
    have col : ∀ {sy : Shp (.array [n, m])} {fy : F} (i : ℕ), i < m → ∀ {w : ℕ → F},
        (∀ j, j < m → J k (w j) (X [j]) (MX [j])) →
        HoldsBuf J l (BSpec.diagonal sy fy : BSpec F (.array [n, m])).unwrap
          (Buf.dims (.array [n, m]) (BSpec.diagonal sy fy : BSpec F (.array [n, m])).unwrap) Y MY →
        J (k + l + m + 3) (w i * fy) (∑ j ∈ Finset.range m, X [j] * Y [j, i])
          (∑ j ∈ Finset.range m, MX [j] * MY [j, i]) := by
      intro sy fy i hi w hw hy
      have ent : ∀ j, j < m → J l (if j = i then fy else 0) (Y [j, i]) (MY [j, i]) := fun j hj => by
        have h1 := hy.read (ix := [j, i]) (inBounds_pair' (by omega) hi)
        rwa [read_diag2 sy fy j i (by omega) hi] at h1
      refine hv.sum_single (A := fun j => X [j] * Y [j, i]) (M := fun j => MX [j] * MY [j, i]) hi
        (fun j hj hji => ?_) ?_
      · have := ent j hj
        rw [if_neg hji] at this
        exact hv.mulz_swap (hw j hj) this (by omega)
      · have := ent i hi
        rw [if_pos rfl] at this
        exact hv.mul' (hw i hi) this (by omega) (hv.anti (hR [i] (inBounds_one' hi)) le_rfl
          (le_sum_range (f := fun j => MX [j] * MY [j, i])
            (fun j hj => mul_nonneg (hv.pos (hw j hj)) (hv.pos (ent j hj))) hi))
    have fullArm : ∀ {sy : Shp (.array [n, m])} {fy : F} {x : BSpec F (.array [n])}
        {s : BSpec F (.array [m])},
        HoldsBuf J k x.unwrap (Buf.dims (.array [n]) x.unwrap) X MX →
        HoldsBuf J l (BSpec.full sy fy : BSpec F (.array [n, m])).unwrap
          (Buf.dims (.array [n, m]) (BSpec.full sy fy : BSpec F (.array [n, m])).unwrap) Y MY →
        (if ScalarFns.isZero fy then .ok (BSpec.zeroes ())
          else BSpec.denseContract (.vm n m) x (.full sy fy)) = Res.ok s →
        HoldsBuf J (k + l + m + 3) s.unwrap [m] ((ContractImpl.vm n m).fn X Y)
          ((ContractImpl.vm n m).fn MX MY) := by
      intro sy fy x s hx hy h
      split at h
      · next hz =>
        cases h
        refine holdsBuf_full (τ := .array [m]) fun ix hix => ?_
        obtain ⟨i, hi, rfl⟩ := Buf.inBounds_one.1 hix
        exact hv.sumz (A := fun j => X [j] * Y [j, i]) (M := fun j => MX [j] * MY [j, i]) m fun j hj =>
          hv.mulz_swap (hx.read (ix := [j]) (inBounds_one' (by omega)))
            (hv.isZero hz (hy.full (ds := [n, m]) (inBounds_pair' (by omega) hi))) (by omega)
      · exact dense hx hy h
    have rest : ∀ {sy : Shp (.array [n, m])} {fy : F} {x : BSpec F (.array [n])}
        {s : BSpec F (.array [m])},
        HoldsBuf J k x.unwrap (Buf.dims (.array [n]) x.unwrap) X MX →
        HoldsBuf J l (BSpec.diagonal sy fy : BSpec F (.array [n, m])).unwrap
          (Buf.dims (.array [n, m]) (BSpec.diagonal sy fy : BSpec F (.array [n, m])).unwrap) Y MY →
        (if h : m = n then
          .ok (.raw (h ▸ NArr.mutate [n] x.unwrap (fun xi => xi * fy)))
        else BSpec.denseContract (.vm n m) x (.diagonal sy fy)) = Res.ok s →
        HoldsBuf J (k + l + m + 3) s.unwrap [m] ((ContractImpl.vm n m).fn X Y)
          ((ContractImpl.vm n m).fn MX MY) := by
      intro sy fy x s hx hy h
      split at h
      · next hmn =>
        subst hmn
        cases h
        refine holdsBuf_of_read rfl fun ix hix => ?_
        obtain ⟨i, hi, rfl⟩ := Buf.inBounds_one.1 hix
        have e : Buf.read (BSpec.raw (NArr.mutate [m] x.unwrap (fun xi => xi * fy)) :
            BSpec F (.array [m])).unwrap [i] = Buf.read x.unwrap [i] * fy :=
          read_of_getU (τ := .array [m]) (by
            show NArr.getU [m] (NArr.mutate [m] x.unwrap _) [i] = _
            rw [NArr.mutate_eq_map, NArr.getU_map, read_getU _ [i] hix]; rfl)
        have := col (sy := sy) (fy := fy) i hi (w := fun j => Buf.read x.unwrap [j])
          (fun j hj => hx.read (ix := [j]) (inBounds_one' hj)) hy
        rw [← e] at this
        exact this
      · exact dense hx hy h
    cases y with
    | raw b => cases x <;> exact dense hx hy h
    | full sy fy =>
      cases x with
      | raw b => exact fullArm hx hy h
      | full sx fx => exact fullArm hx hy h
      | diagonal sx fx => exact fullArm hx hy h
    | diagonal sy fy =>
      cases x with
      | raw b => exact rest hx hy h
      | diagonal sx fx => exact rest hx hy h
      | full sx fx =>
        cases h
        refine holdsBuf_full (τ := .array [m]) fun ix hix => ?_
        obtain ⟨i, hi, rfl⟩ := Buf.inBounds_one.1 hix
        exact col (sy := sy) (fy := fy) i hi (w := fun _ => fx)
          (fun j hj => hx.full (ds := [n]) (inBounds_one' (by omega))) hy
  | mm n z m =>
    cases x with
    | raw b => exact dense hx hy h
    | full sx fx =>
      cases y with
      | full sy fy =>
        obtain ⟨K, hK, rfl⟩ := (Res.map_ok_iff _ _ _).1 h
        have hK : (ScalarFns.fromUsize z : Option F) = some K := by
          cases hh : (ScalarFns.fromUsize z : Option F) with
          | none => rw [hh] at hK; cases hK
          | some K' => rw [hh] at hK; cases hK; rfl
        refine holdsBuf_full (τ := .array [n, m]) fun ix hix => ?_
        obtain ⟨i, j, hi, hj, rfl⟩ := inBounds_pair.1 hix
        exact hv.mono (hv.times (A := fun t => X [i, t]) (M := fun t => MX [i, t])
          (B := fun t => Y [t, j]) (N := fun t => MY [t, j]) hK
          (fun t ht => hx.full (ds := [n, z]) (inBounds_pair' hi ht))
          (fun t ht => hy.full (ds := [z, m]) (inBounds_pair' ht hj)) hlax
          (by have := hR1 [i, j] hix; simp only [ContractImpl.fn, mul_one] at this; exact this)
          (hv.anti (hR [i, j] hix) (by omega) le_rfl)) (by omega)
      | raw _ => exact dense hx hy h
      | diagonal _ _ => exact dense hx hy h
    | diagonal sx fx =>
      cases y with
      | full t fy => exact dense hx hy h
      | raw _ => exact dense hx hy h
      | diagonal sy fy =>
        replace h : (if n = z ∧ m = n then Res.ok (BSpec.diagonal () (fx * fy))
          else BSpec.denseContract (.mm n z m) (.diagonal sx fx) (.diagonal sy fy)) = .ok s := h
        split at h
        · next hc =>
          obtain ⟨rfl, rfl⟩ := hc
          cases h
          refine holdsBuf_of_read rfl fun ix hix => ?_
          obtain ⟨i, j, hi, hj, rfl⟩ := inBounds_pair.1 hix
          have entX : ∀ t, t < m → J k (if i = t then fx else 0) (X [i, t]) (MX [i, t]) :=
            fun t ht => by
              have h1 := hx.read (ix := [i, t]) (inBounds_pair' hi ht)
              rwa [read_diag2 sx fx i t hi ht] at h1
          have entY : ∀ t, t < m → J l (if t = j then fy else 0) (Y [t, j]) (MY [t, j]) :=
            fun t ht => by
              have h1 := hy.read (ix := [t, j]) (inBounds_pair' ht hj)
              rwa [read_diag2 sy fy t j ht hj] at h1
          have e := read_diag2 (() : Shp (.array [m, m])) (fx * fy) i j hi hj
          rw [e]
          refine hv.sum_single (A := fun t => X [i, t] * Y [t, j])
            (M := fun t => MX [i, t] * MY [t, j]) hi (fun t ht hti => ?_) ?_
          · have := entX t ht
            rw [if_neg (Ne.symm hti)] at this
            exact hv.mulz' this (entY t ht) (by omega)
          · have h1 := entX i hi
            have h2 := entY i hi
            rw [if_pos rfl] at h1
            by_cases hij : i = j
            · rw [if_pos hij] at h2 ⊢
              exact hv.mul' h1 h2 (by omega) (hv.anti (hR [i, j] hix) le_rfl
                (le_sum_range (f := fun t => MX [i, t] * MY [t, j])
                  (fun t ht => mul_nonneg (hv.pos (entX t ht)) (hv.pos (entY t ht))) hi))
            · rw [if_neg hij] at h2 ⊢
              exact hv.mulz_swap h1 h2 (by omega)
        · exact dense hx hy h

end

end Aegir
