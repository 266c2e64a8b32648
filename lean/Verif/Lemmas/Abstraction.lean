import Verif.Spec.Abstraction
import Verif.Lemmas.RoundingExpr
/-!
# Evaluation respects what scalars stand for
-/

namespace Aegir

open Spec

section
variable {F G : Type} [Zero F] [One F] [Add F] [Sub F] [Mul F] [ScalarFns F] [CommRing G]
variable {R : F → G → Prop}

/-- The entries of `b` stand for the values of `A`. -/
def RelBuf (R : F → G → Prop) {τ : BTy} (b : Buf F τ) (ds : Dims) (A : Idx → G) : Prop :=
  Buf.dims τ b = ds ∧ ∀ ix, InBounds ds ix → ∃ x, Buf.getU τ b ix = some x ∧ R x (A ix)

omit [One F] [Add F] [Sub F] [Mul F] [ScalarFns F] [CommRing G] in
theorem RelBuf.read {τ : BTy} {b : Buf F τ} {ds : Dims} {A : Idx → G} (h : RelBuf R b ds A)
    {ix : Idx} (hix : InBounds ds ix) : R (Buf.read b ix) (A ix) := by
  obtain ⟨x, hx, hn⟩ := h.2 ix hix
  rw [Buf.read, hx]; exact hn

omit [One F] [Add F] [Sub F] [Mul F] [ScalarFns F] [CommRing G] in
theorem relBuf_of_read {τ : BTy} {b : Buf F τ} {ds : Dims} {A : Idx → G} (hd : Buf.dims τ b = ds)
    (h : ∀ ix, InBounds ds ix → R (Buf.read b ix) (A ix)) : RelBuf R b ds A :=
  ⟨hd, fun ix hix => ⟨_, Buf.getU_read b ix (hd ▸ hix), h ix hix⟩⟩

omit [One F] [Add F] [Sub F] [Mul F] [ScalarFns F] [CommRing G] in
theorem RelBuf.full {τ : BTy} {s : Shp τ} {v : F} {ds : Dims} {A : Idx → G}
    (h : RelBuf R (BSpec.full s v : BSpec F τ).unwrap ds A) {ix : Idx} (hix : InBounds ds ix) :
    R v (A ix) := by
  have h1 := h.read hix
  have hd : ds = Shp.dims τ s := h.1.symm.trans (Buf.dims_full τ s v)
  have e : Buf.read (BSpec.full s v : BSpec F τ).unwrap ix = v := Buf.read_full s v ix (hd ▸ hix)
  rwa [e] at h1

omit [One F] [Add F] [Sub F] [Mul F] [ScalarFns F] [CommRing G] in
theorem relBuf_full {τ : BTy} {s : Shp τ} {v : F} {A : Idx → G}
    (h : ∀ ix, InBounds (Shp.dims τ s) ix → R v (A ix)) :
    RelBuf R (BSpec.full s v : BSpec F τ).unwrap (Shp.dims τ s) A :=
  relBuf_of_read (Buf.dims_full τ s v) fun ix hix => by
    have e : Buf.read (BSpec.full s v : BSpec F τ).unwrap ix = v := Buf.read_full s v ix hix
    rw [e]; exact h ix hix

namespace Spec.Sound

theorem add_zero (hR : Sound R) {x y : F} {a b : G} (h0 : ScalarFns.isZero y = true) (hx : R x a)
    (hy : R y b) : R x (a + b) := by
  rw [add_comm]; exact hR.zero_add h0 hy hx

theorem mul_zero (hR : Sound R) {x y : F} {a b : G} (h0 : ScalarFns.isZero y = true) (hx : R x a)
    (hy : R y b) : R 0 (a * b) := by
  rw [mul_comm]; exact hR.zero_mul h0 hy hx

/-- Numbers that zero stands for add up to such. -/
theorem zeros (hR : Sound R) {n : ℕ} {A : ℕ → G} (h : ∀ i < n, R 0 (A i)) :
    R 0 (∑ i ∈ Finset.range n, A i) := by
  induction n with
  | zero => simpa using hR.zero
  | succ n ih =>
    rw [Finset.sum_range_succ]
    exact hR.zero_add hR.isZero_zero (ih fun i hi => h i (by omega)) (h n (by omega))

/-- So do numbers of which all but one are such. -/
theorem single (hR : Sound R) {n k : ℕ} {A : ℕ → G} {x : F} (hk : k < n) (hx : R x (A k))
    (h : ∀ i < n, i ≠ k → R 0 (A i)) : R x (∑ i ∈ Finset.range n, A i) := by
  induction n with
  | zero => omega
  | succ n ih =>
    rw [Finset.sum_range_succ]
    by_cases hkn : k = n
    · subst hkn
      exact hR.zero_add hR.isZero_zero (hR.zeros fun i hi => h i (by omega) (by omega)) hx
    · exact hR.add_zero hR.isZero_zero (ih (by omega) fun i hi => h i (by omega))
        (h n (by omega) (by omega))

end Spec.Sound

/-- The loop of a contraction. -/
theorem sumLoop_rel (hR : Sound R) (n : ℕ) (g : ℕ → Option F) (A : ℕ → G)
    (hg : ∀ i, i < n → ∃ t, g i = some t ∧ R t (A i)) :
    ∃ w, sumLoop n g = some w ∧ R w (∑ i ∈ Finset.range n, A i) := by
  unfold sumLoop
  induction n with
  | zero => exact ⟨0, rfl, by simpa using hR.zero⟩
  | succ n ih =>
    obtain ⟨w, hw, hn⟩ := ih fun i hi => hg i (by omega)
    obtain ⟨t, ht, hnt⟩ := hg n (by omega)
    refine ⟨w + t, ?_, ?_⟩
    · rw [List.range_succ, List.foldlM_append, hw]
      simp [ht]
    · rw [Finset.sum_range_succ]
      exact hR.add hn hnt

variable {axes : ℕ} {a b c : BTy}

theorem relDense (hR : Sound R) (z : ContractImpl axes a b c) (hin : z.inRange)
    {x : Buf F a} {y : Buf F b} {X Y : Idx → G}
    (hx : RelBuf R x (Buf.dims a x) X) (hy : RelBuf R y (Buf.dims b y) Y)
    {r : Buf F c} (h : Buf.contract z x y = .ok r) :
    RelBuf R r (Shp.dims c z.outShape) (z.fn X Y) := by
  cases z with
  | ss0 =>
    cases h
    refine relBuf_of_read rfl fun ix hix => ?_
    cases hix
    exact hR.mul (hx.read .nil) (hy.read .nil)
  | ss1 =>
    cases h
    refine relBuf_of_read rfl fun ix hix => ?_
    cases hix
    exact hR.mul (hx.read .nil) (hy.read .nil)
  | vs0 n =>
    cases h
    refine relBuf_of_read rfl fun ix hix => ?_
    rw [NArr.mutate_eq_map, read_of_getU (τ := .array [n]) (x := Buf.read x ix * y)
      (by rw [Buf.getU]; rw [NArr.getU_map, read_getU x ix hix]; rfl)]
    exact hR.mul (hx.read hix) (hy.read .nil)
  | sv0 n =>
    cases h
    refine relBuf_of_read rfl fun ix hix => ?_
    rw [NArr.mutate_eq_map, read_of_getU (τ := .array [n]) (x := Buf.read y ix * x)
      (by rw [Buf.getU]; rw [NArr.getU_map, read_getU y ix hix]; rfl)]
    exact hR.mul (hy.read hix) (hx.read .nil)
  | ms0 n m =>
    cases h
    refine relBuf_of_read rfl fun ix hix => ?_
    rw [NArr.mutate_eq_map, read_of_getU (τ := .array [n, m]) (x := Buf.read x ix * y)
      (by rw [Buf.getU]; rw [NArr.getU_map, read_getU x ix hix]; rfl)]
    exact hR.mul (hx.read hix) (hy.read .nil)
  | sm0 n m =>
    cases h
    refine relBuf_of_read rfl fun ix hix => ?_
    rw [NArr.mutate_eq_map, read_of_getU (τ := .array [n, m]) (x := Buf.read y ix * x)
      (by rw [Buf.getU]; rw [NArr.getU_map, read_getU y ix hix]; rfl)]
    exact hR.mul (hy.read hix) (hx.read .nil)
  | vv0 n m =>
    cases h
    refine relBuf_of_read rfl fun ix hix => ?_
    obtain ⟨i, j, hi, hj, rfl⟩ := inBounds_pair.1 hix
    have hxi : NArr.elem x ⟨i, hi⟩ = Buf.read x [i] := Option.some.inj (by
      rw [← NArr.getU_elem, read_getU x [i] (inBounds_one' hi)])
    rw [read_of_getU (τ := .array [n, m]) (x := Buf.read x [i] * Buf.read y [j])
      (by
        show NArr.getU [n, m] (NArr.mkRows _) [i, j] = _
        rw [NArr.getU_mkRows _ _ _ hi, NArr.getU_map, read_getU y [j] (inBounds_one' hj), hxi]
        rfl)]
    exact hR.mul (hx.read (inBounds_one' hi)) (hy.read (inBounds_one' hj))
  | dot n =>
    have h : Res.ofOption (NArr.zipFoldSelf [n] x y 0 (fun acc (p : F × F) => acc + p.1 * p.2))
      = Res.ok r := h
    rw [zipFold_sumLoop] at h
    obtain ⟨w, hw, hn⟩ := sumLoop_rel hR n (fun i => (NArr.getU [n] x [i]).bind
      fun a => (NArr.getU [n] y [i]).map fun b => a * b) (fun i => X [i] * Y [i]) fun i hi =>
        ⟨Buf.read x [i] * Buf.read y [i], by
          rw [read_getU x [i] (inBounds_one' hi), read_getU y [i] (inBounds_one' hi)]; rfl,
          hR.mul (hx.read (inBounds_one' hi)) (hy.read (inBounds_one' hi))⟩
    rw [hw] at h
    cases h
    refine relBuf_of_read rfl fun ix hix => ?_
    cases hix
    exact hn
  | mv n m =>
    have hmn : m ≤ n := hin
    have key := fun i : Fin m => sumLoop_rel hR m
      (fun j => (NArr.getU [n, m] x [i.val, j]).bind fun a => (NArr.getU [n] y [j]).map fun b => a * b)
      (fun j => X [i.val, j] * Y [j]) fun j hj => by
        have h1 : InBounds [n, m] [i.val, j] := inBounds_pair' (by omega) hj
        have h2 : InBounds [n] [j] := inBounds_one' (by omega)
        exact ⟨Buf.read x [i.val, j] * Buf.read y [j], by rw [read_getU x _ h1, read_getU y _ h2]; rfl,
          hR.mul (hx.read h1) (hy.read h2)⟩
    choose w hw hn using key
    have h : Res.ofOption (NArr.ofElemsOpt (d := m) _) = Res.ok r := h
    rw [NArr.ofElemsOpt_some _ w hw] at h
    cases h
    refine relBuf_of_read rfl fun ix hix => ?_
    obtain ⟨i, hi, rfl⟩ := Buf.inBounds_one.1 hix
    rw [show Buf.read (τ := .array [m]) (NArr.ofElems w) [i] = w ⟨i, hi⟩ from
      read_of_getU (τ := .array [m]) (b := NArr.ofElems w) (ix := [i])
        (NArr.getU_ofElems w i hi)]
    exact hn ⟨i, hi⟩
  | vm n m =>
    have hmn : m ≤ n := hin
    have key := fun i : Fin m => sumLoop_rel hR m
      (fun j => (NArr.getU [n] x [j]).bind fun a => (NArr.getU [n, m] y [j, i.val]).map fun b => a * b)
      (fun j => X [j] * Y [j, i.val]) fun j hj => by
        have h1 : InBounds [n] [j] := inBounds_one' (by omega)
        have h2 : InBounds [n, m] [j, i.val] := inBounds_pair' (by omega) i.isLt
        exact ⟨Buf.read x [j] * Buf.read y [j, i.val],
          by rw [read_getU x _ h1, read_getU y _ h2]; rfl, hR.mul (hx.read h1) (hy.read h2)⟩
    choose w hw hn using key
    have h : Res.ofOption (NArr.ofElemsOpt (d := m) _) = Res.ok r := h
    rw [NArr.ofElemsOpt_some _ w hw] at h
    cases h
    refine relBuf_of_read rfl fun ix hix => ?_
    obtain ⟨i, hi, rfl⟩ := Buf.inBounds_one.1 hix
    rw [show Buf.read (τ := .array [m]) (NArr.ofElems w) [i] = w ⟨i, hi⟩ from
      read_of_getU (τ := .array [m]) (b := NArr.ofElems w) (ix := [i])
        (NArr.getU_ofElems w i hi)]
    exact hn ⟨i, hi⟩
  | mm n z m =>
    have key := fun (i : Fin n) (j : Fin m) => sumLoop_rel hR z
      (fun t => (NArr.getU [n, z] x [i.val, t]).bind fun a =>
        (NArr.getU [z, m] y [t, j.val]).map fun b => a * b)
      (fun t => X [i.val, t] * Y [t, j.val])
      fun t ht => by
        have h1 : InBounds [n, z] [i.val, t] := inBounds_pair' i.isLt ht
        have h2 : InBounds [z, m] [t, j.val] := inBounds_pair' ht j.isLt
        exact ⟨Buf.read x [i.val, t] * Buf.read y [t, j.val],
          by rw [read_getU x _ h1, read_getU y _ h2]; rfl, hR.mul (hx.read h1) (hy.read h2)⟩
    choose w hw hn using key
    have h : Res.ofOption (NArr.mkRowsOpt (d := n) (ds := [m]) _) = Res.ok r := h
    rw [NArr.mkRowsOpt_some (ds := [m]) _ (fun i => NArr.ofElems (w i))
      (fun i => NArr.ofElemsOpt_some _ (w i) (hw i))] at h
    cases h
    refine relBuf_of_read rfl fun ix hix => ?_
    obtain ⟨i, j, hi, hj, rfl⟩ := inBounds_pair.1 hix
    rw [read_of_getU (τ := .array [n, m]) (x := w ⟨i, hi⟩ ⟨j, hj⟩) (by
      show NArr.getU [n, m] (NArr.mkRows _) [i, j] = _
      rw [NArr.getU_mkRows _ _ _ hi]; exact NArr.getU_ofElems _ _ hj)]
    exact hn ⟨i, hi⟩ ⟨j, hj⟩

theorem relContract (hR : Sound R) (z : ContractImpl axes a b c) (hin : z.inRange)
    {x : BSpec F a} {y : BSpec F b} {X Y : Idx → G}
    (hx : RelBuf R x.unwrap (Buf.dims a x.unwrap) X)
    (hy : RelBuf R y.unwrap (Buf.dims b y.unwrap) Y)
    {s : BSpec F c} (h : BSpec.contract z x y = .ok s) :
    RelBuf R s.unwrap (Shp.dims c z.outShape) (z.fn X Y) := by
  have dense : ∀ {x : BSpec F a} {y : BSpec F b} {s : BSpec F c},
      RelBuf R x.unwrap (Buf.dims a x.unwrap) X →
      RelBuf R y.unwrap (Buf.dims b y.unwrap) Y →
      BSpec.denseContract z x y = .ok s →
      RelBuf R s.unwrap (Shp.dims c z.outShape) (z.fn X Y) := by
    intro x y s hx hy h
    obtain ⟨r, hr, rfl⟩ := (Res.map_ok_iff _ _ _).1 h
    exact relDense hR z hin hx hy hr
  cases z with
  | ss0 =>
    cases h
    refine relBuf_full fun ix hix => ?_
    cases hix
    exact hR.mul (hx.read .nil) (hy.read .nil)
  | ss1 =>
    cases h
    refine relBuf_full fun ix hix => ?_
    cases hix
    exact hR.mul (hx.read .nil) (hy.read .nil)
  | vs0 n =>
    cases x with
    | full sx fx =>
      cases h
      exact relBuf_full (τ := .array [n]) fun ix hix =>
        hR.mul (hx.full (ds := [n]) hix) (hy.read .nil)
    | raw _ => exact dense hx hy h
    | diagonal _ _ => exact dense hx hy h
  | sv0 n =>
    cases y with
    | full sx fx =>
      cases h
      refine relBuf_full (τ := .array [n]) fun ix hix => ?_
      have := hR.mul (hx.read .nil) (hy.full (ds := [n]) hix)
      simp only [ContractImpl.fn]
      rwa [mul_comm (Y ix)]
    | raw _ => exact dense hx hy h
    | diagonal _ _ => exact dense hx hy h
  | ms0 n m =>
    cases x with
    | full sx fx =>
      cases h
      exact relBuf_full (τ := .array [n, m]) fun ix hix =>
        hR.mul (hx.full (ds := [n, m]) hix) (hy.read .nil)
    | raw _ => exact dense hx hy h
    | diagonal _ _ => exact dense hx hy h
  | sm0 n m =>
    cases y with
    | full sx fx =>
      cases h
      exact relBuf_full (τ := .array [n, m]) fun ix hix =>
        hR.mul (hy.full (ds := [n, m]) hix) (hx.read .nil)
    | raw _ => exact dense hx hy h
    | diagonal _ _ => exact dense hx hy h
  | vv0 n m =>
    have fullL : ∀ {sx : Shp (.array [n])} {fx : F} {y : BSpec F (.array [m])}
        {s : BSpec F (.array [n, m])},
        (∀ i, i < n → R fx (X [i])) →
        RelBuf R y.unwrap (Buf.dims (.array [m]) y.unwrap) Y →
        (if ScalarFns.isZero fx then .ok (BSpec.zeroes ())
          else .ok (.raw (NArr.mkRows (d := n) (ds := [m])
            (fun _ => NArr.map [m] y.unwrap (fun yj => fx * yj)))) : Res IncShapes _) = .ok s →
        RelBuf R s.unwrap [n, m] ((ContractImpl.vv0 n m).fn X Y) := by
      intro sx fx y s hx hy h
      split at h
      · next hz =>
        cases h
        refine relBuf_full (τ := .array [n, m]) fun ix hix => ?_
        obtain ⟨i, j, hi, hj, rfl⟩ := inBounds_pair.1 hix
        exact hR.zero_mul hz (hx i hi) (hy.read (ix := [j]) (inBounds_one' hj))
      · cases h
        refine relBuf_of_read rfl fun ix hix => ?_
        obtain ⟨i, j, hi, hj, rfl⟩ := inBounds_pair.1 hix
        have e : Buf.read (τ := .array [n, m]) (NArr.mkRows (d := n) (ds := [m])
            (fun _ => NArr.map [m] y.unwrap (fun yj => fx * yj))) [i, j]
            = fx * Buf.read y.unwrap [j] := read_of_getU (τ := .array [n, m]) (by
          show NArr.getU [n, m] (NArr.mkRows _) [i, j] = _
          rw [NArr.getU_mkRows _ _ _ hi, NArr.getU_map, read_getU _ [j] (inBounds_one' hj)]
          rfl)
        have := hR.mul (hx i hi) (hy.read (ix := [j]) (inBounds_one' hj))
        rw [← e] at this
        exact this
    have fullR : ∀ {sy : Shp (.array [m])} {fy : F} {x : BSpec F (.array [n])}
        {s : BSpec F (.array [n, m])},
        RelBuf R x.unwrap (Buf.dims (.array [n]) x.unwrap) X →
        (∀ j, j < m → R fy (Y [j])) →
        (if ScalarFns.isZero fy then .ok (BSpec.zeroes ())
          else .ok (.raw (NArr.mkRows (d := n) (ds := [m])
            (fun i => NArr.ofElems (d := m)
              (fun _ => NArr.elem x.unwrap i * fy)))) : Res IncShapes _) = .ok s →
        RelBuf R s.unwrap [n, m] ((ContractImpl.vv0 n m).fn X Y) := by
      intro sy fy x s hx hy h
      split at h
      · next hz =>
        cases h
        refine relBuf_full (τ := .array [n, m]) fun ix hix => ?_
        obtain ⟨i, j, hi, hj, rfl⟩ := inBounds_pair.1 hix
        exact hR.mul_zero hz (hx.read (ix := [i]) (inBounds_one' hi)) (hy j hj)
      · cases h
        refine relBuf_of_read rfl fun ix hix => ?_
        obtain ⟨i, j, hi, hj, rfl⟩ := inBounds_pair.1 hix
        have hxi : NArr.elem x.unwrap ⟨i, hi⟩ = Buf.read x.unwrap [i] := Option.some.inj (by
          rw [← NArr.getU_elem, read_getU x.unwrap [i] (inBounds_one' hi)])
        have e : Buf.read (τ := .array [n, m]) (NArr.mkRows (d := n) (ds := [m])
            (fun i => NArr.ofElems (d := m) (fun _ => NArr.elem x.unwrap i * fy))) [i, j]
            = Buf.read x.unwrap [i] * fy := read_of_getU (τ := .array [n, m]) (by
          show NArr.getU [n, m] (NArr.mkRows _) [i, j] = _
          rw [NArr.getU_mkRows _ _ _ hi, NArr.getU_ofElems _ _ hj, hxi])
        have := hR.mul (hx.read (ix := [i]) (inBounds_one' hi)) (hy j hj)
        rw [← e] at this
        exact this
    cases x with
    | full sx fx =>
      have hfx : ∀ i, i < n → R fx (X [i]) := fun i hi =>
        hx.full (ds := [n]) (inBounds_one' hi)
      cases y with
      | full sy fy =>
        cases h
        refine relBuf_full (τ := .array [n, m]) fun ix hix => ?_
        obtain ⟨i, j, hi, hj, rfl⟩ := inBounds_pair.1 hix
        exact hR.mul (hfx i hi) (hy.full (ds := [m]) (inBounds_one' hj))
      | raw b => exact fullL (sx := sx) hfx hy h
      | diagonal t fy => exact fullL (sx := sx) hfx hy h
    | raw b =>
      cases y with
      | full sy fy =>
        exact fullR (sy := sy) hx (fun j hj => hy.full (ds := [m]) (inBounds_one' hj)) h
      | raw _ => exact dense hx hy h
      | diagonal _ _ => exact dense hx hy h
    | diagonal sx fx =>
      cases y with
      | full sy fy =>
        exact fullR (sy := sy) hx (fun j hj => hy.full (ds := [m]) (inBounds_one' hj)) h
      | raw _ => exact dense hx hy h
      | diagonal _ _ => exact dense hx hy h
  | dot n =>
    have general : ∀ {x y : BSpec F (.array [n])} {s : BSpec F .scalar},
        RelBuf R x.unwrap (Buf.dims (.array [n]) x.unwrap) X →
        RelBuf R y.unwrap (Buf.dims (.array [n]) y.unwrap) Y →
        (Buf.zipFold (.aa [n]) x.unwrap y.unwrap 0 (fun acc p => acc + p.1 * p.2)).map BSpec.raw
          = .ok s →
        RelBuf R s.unwrap [] ((ContractImpl.dot n).fn X Y) := fun hx hy h => dense hx hy h
    have loop : ∀ {w : BSpec F (.array [n])} {g : F → F},
        (∀ i, i < n → R (g (Buf.read w.unwrap [i])) (X [i] * Y [i])) →
        RelBuf R
          (BSpec.full () (NArr.fold [n] w.unwrap 0 (fun acc yi => acc + g yi)) :
            BSpec F .scalar).unwrap [] ((ContractImpl.dot n).fn X Y) := by
      intro w g hg
      refine relBuf_full (τ := .scalar) fun ix hix => ?_
      obtain ⟨r, hr, hn⟩ := sumLoop_rel hR n (fun i => (NArr.getU [n] w.unwrap [i]).map g)
        (fun i => X [i] * Y [i]) fun i hi =>
          ⟨_, by rw [read_getU w.unwrap [i] (inBounds_one' hi)]; rfl, hg i hi⟩
      rw [fold_sumLoop] at hr
      cases hr
      exact hn
    cases x with
    | full sx fx =>
      have hfx : ∀ i, i < n → R fx (X [i]) := fun i hi =>
        hx.full (ds := [n]) (inBounds_one' hi)
      cases y with
      | full sy fy =>
        obtain ⟨K, hK, rfl⟩ := (Res.map_ok_iff _ _ _).1 h
        have hK : (ScalarFns.fromUsize n : Option F) = some K := by
          cases hh : (ScalarFns.fromUsize n : Option F) with
          | none => rw [hh] at hK; cases hK
          | some K' => rw [hh] at hK; cases hK; rfl
        exact relBuf_full (τ := .scalar) fun ix hix =>
          hR.times_mul hK hfx fun i hi => hy.full (ds := [n]) (inBounds_one' hi)
      | raw b =>
        cases h
        exact loop (w := .raw b) fun i hi => hR.mul (hfx i hi) (hy.read (inBounds_one' hi))
      | diagonal t fy =>
        cases h
        exact loop (w := .diagonal t fy) fun i hi =>
          hR.mul (hfx i hi) (hy.read (ix := [i]) (inBounds_one' hi))
    | raw b =>
      cases y with
      | full sy fy =>
        cases h
        exact loop (w := .raw b) (g := fun xi => xi * fy) fun i hi =>
          hR.mul (hx.read (inBounds_one' hi)) (hy.full (ds := [n]) (inBounds_one' hi))
      | raw b' => exact general hx hy h
      | diagonal t fy => exact general hx hy h
    | diagonal sx fx =>
      cases y with
      | full sy fy =>
        cases h
        exact loop (w := .diagonal sx fx) (g := fun xi => xi * fy) fun i hi =>
          hR.mul (hx.read (ix := [i]) (inBounds_one' hi)) (hy.full (ds := [n]) (inBounds_one' hi))
      | raw b' => exact general hx hy h
      | diagonal t fy => exact general hx hy h
  | mv n m =>
    have hmn : m ≤ n := hin
    -- row `i` of a multiple of the identity
    have row : ∀ {sx : Shp (.array [n, m])} {fx : F} (i : ℕ), i < m → ∀ {w : ℕ → F},
        RelBuf R (BSpec.diagonal sx fx : BSpec F (.array [n, m])).unwrap
          (Buf.dims (.array [n, m]) (BSpec.diagonal sx fx : BSpec F (.array [n, m])).unwrap) X →
        (∀ j, j < m → R (w j) (Y [j])) →
        R (fx * w i) (∑ j ∈ Finset.range m, X [i, j] * Y [j]) := by
      intro sx fx i hi w hx hw
      have hd : ∀ j, j < m → R (if i = j then fx else 0) (X [i, j]) := fun j hj => by
        have h1 := hx.read (ix := [i, j]) (inBounds_pair' (by omega) hj)
        rwa [read_diag2 sx fx i j (by omega) hj] at h1
      refine hR.single hi (hR.mul (by simpa using hd i hi) (hw i hi)) fun j hj hji => ?_
      have h0 := hd j hj
      rw [if_neg (Ne.symm hji)] at h0
      exact hR.zero_mul hR.isZero_zero h0 (hw j hj)
    cases x with
    | raw b => exact dense hx hy h
    | full sx fx =>
      replace h : (if ScalarFns.isZero fx then Res.ok (BSpec.zeroes ())
        else BSpec.denseContract (.mv n m) (.full sx fx) y) = .ok s := h
      split at h
      · next hz =>
        cases h
        refine relBuf_full (τ := .array [m]) fun ix hix => ?_
        obtain ⟨i, hi, rfl⟩ := Buf.inBounds_one.1 hix
        exact hR.zeros fun j hj => hR.zero_mul hz
          (hx.full (ds := [n, m]) (inBounds_pair' (by omega) hj))
          (hy.read (ix := [j]) (inBounds_one' (by omega)))
      · exact dense hx hy h
    | diagonal sx fx =>
      have rest : ∀ {y : BSpec F (.array [n])} {s : BSpec F (.array [m])},
          RelBuf R y.unwrap (Buf.dims (.array [n]) y.unwrap) Y →
          (if h : m = n then
            .ok (.raw (h ▸ NArr.mutate [n] y.unwrap (fun yi => fx * yi)))
          else BSpec.denseContract (.mv n m) (.diagonal sx fx) y) = Res.ok s →
          RelBuf R s.unwrap [m] ((ContractImpl.mv n m).fn X Y) := by
        intro y s hy h
        split at h
        · next hmn =>
          subst hmn
          cases h
          refine relBuf_of_read rfl fun ix hix => ?_
          obtain ⟨i, hi, rfl⟩ := Buf.inBounds_one.1 hix
          have e : Buf.read (BSpec.raw (NArr.mutate [m] y.unwrap (fun yi => fx * yi)) :
              BSpec F (.array [m])).unwrap [i] = fx * Buf.read y.unwrap [i] :=
            read_of_getU (τ := .array [m]) (by
              show NArr.getU [m] (NArr.mutate [m] y.unwrap _) [i] = _
              rw [NArr.mutate_eq_map, NArr.getU_map, read_getU _ [i] hix]; rfl)
          rw [e]
          exact row (sx := sx) (fx := fx) i hi (w := fun j => Buf.read y.unwrap [j]) hx
            (fun j hj => hy.read (ix := [j]) (inBounds_one' hj))
        · exact dense hx hy h
      cases y with
      | full sy fy =>
        cases h
        refine relBuf_full (τ := .array [m]) fun ix hix => ?_
        obtain ⟨i, hi, rfl⟩ := Buf.inBounds_one.1 hix
        exact row (sx := sx) (fx := fx) i hi (w := fun _ => fy) hx
          (fun j hj => hy.full (ds := [n]) (inBounds_one' (by omega)))
      | raw b => exact rest hy h
      | diagonal t fy => exact rest hy h
  | vm n m =>
    have hmn : m ≤ n := hin
    have col : ∀ {sy : Shp (.array [n, m])} {fy : F} (i : ℕ), i < m → ∀ {w : ℕ → F},
        (∀ j, j < m → R (w j) (X [j])) →
        RelBuf R (BSpec.diagonal sy fy : BSpec F (.array [n, m])).unwrap
          (Buf.dims (.array [n, m]) (BSpec.diagonal sy fy : BSpec F (.array [n, m])).unwrap) Y →
        R (w i * fy) (∑ j ∈ Finset.range m, X [j] * Y [j, i]) := by
      intro sy fy i hi w hw hy
      have hd : ∀ j, j < m → R (if j = i then fy else 0) (Y [j, i]) := fun j hj => by
        have h1 := hy.read (ix := [j, i]) (inBounds_pair' (by omega) hi)
        rwa [read_diag2 sy fy j i (by omega) hi] at h1
      refine hR.single hi (hR.mul (hw i hi) (by simpa using hd i hi)) fun j hj hji => ?_
      have h0 := hd j hj
      rw [if_neg hji] at h0
      exact hR.mul_zero hR.isZero_zero (hw j hj) h0
    have fullArm : ∀ {sy : Shp (.array [n, m])} {fy : F} {x : BSpec F (.array [n])}
        {s : BSpec F (.array [m])},
        RelBuf R x.unwrap (Buf.dims (.array [n]) x.unwrap) X →
        RelBuf R (BSpec.full sy fy : BSpec F (.array [n, m])).unwrap
          (Buf.dims (.array [n, m]) (BSpec.full sy fy : BSpec F (.array [n, m])).unwrap) Y →
        (if ScalarFns.isZero fy then .ok (BSpec.zeroes ())
          else BSpec.denseContract (.vm n m) x (.full sy fy)) = Res.ok s →
        RelBuf R s.unwrap [m] ((ContractImpl.vm n m).fn X Y) := by
      intro sy fy x s hx hy h
      split at h
      · next hz =>
        cases h
        refine relBuf_full (τ := .array [m]) fun ix hix => ?_
        obtain ⟨i, hi, rfl⟩ := Buf.inBounds_one.1 hix
        exact hR.zeros fun j hj => hR.mul_zero hz
          (hx.read (ix := [j]) (inBounds_one' (by omega)))
          (hy.full (ds := [n, m]) (inBounds_pair' (by omega) hi))
      · exact dense hx hy h
    have rest : ∀ {sy : Shp (.array [n, m])} {fy : F} {x : BSpec F (.array [n])}
        {s : BSpec F (.array [m])},
        RelBuf R x.unwrap (Buf.dims (.array [n]) x.unwrap) X →
        RelBuf R (BSpec.diagonal sy fy : BSpec F (.array [n, m])).unwrap
          (Buf.dims (.array [n, m]) (BSpec.diagonal sy fy : BSpec F (.array [n, m])).unwrap) Y →
        (if h : m = n then
          .ok (.raw (h ▸ NArr.mutate [n] x.unwrap (fun xi => xi * fy)))
        else BSpec.denseContract (.vm n m) x (.diagonal sy fy)) = Res.ok s →
        RelBuf R s.unwrap [m] ((ContractImpl.vm n m).fn X Y) := by
      intro sy fy x s hx hy h
      split at h
      · next hmn =>
        subst hmn
        cases h
        refine relBuf_of_read rfl fun ix hix => ?_
        obtain ⟨i, hi, rfl⟩ := Buf.inBounds_one.1 hix
        have e : Buf.read (BSpec.raw (NArr.mutate [m] x.unwrap (fun xi => xi * fy)) :
            BSpec F (.array [m])).unwrap [i] = Buf.read x.unwrap [i] * fy :=
          read_of_getU (τ := .array [m]) (by
            show NArr.getU [m] (NArr.mutate [m] x.unwrap _) [i] = _
            rw [NArr.mutate_eq_map, NArr.getU_map, read_getU _ [i] hix]; rfl)
        rw [e]
        exact col (sy := sy) (fy := fy) i hi (w := fun j => Buf.read x.unwrap [j])
          (fun j hj => hx.read (ix := [j]) (inBounds_one' hj)) hy
      · exact dense hx hy h
    cases y with
    | raw b => cases x <;> exact dense hx hy h
    | full sy fy =>
      cases x with
      | raw b => exact fullArm hx hy h
      | full sx fx => exact fullArm hx hy h
      | diagonal sx fx => exact fullArm hx hy h
    | diagonal sy fy =>
      cases x with
      | raw b => exact rest hx hy h
      | diagonal sx fx => exact rest hx hy h
      | full sx fx =>
        cases h
        refine relBuf_full (τ := .array [m]) fun ix hix => ?_
        obtain ⟨i, hi, rfl⟩ := Buf.inBounds_one.1 hix
        exact col (sy := sy) (fy := fy) i hi (w := fun _ => fx)
          (fun j hj => hx.full (ds := [n]) (inBounds_one' (by omega))) hy
  | mm n z m =>
    cases x with
    | raw b => exact dense hx hy h
    | full sx fx =>
      cases y with
      | full sy fy =>
        obtain ⟨K, hK, rfl⟩ := (Res.map_ok_iff _ _ _).1 h
        have hK : (ScalarFns.fromUsize z : Option F) = some K := by
          cases hh : (ScalarFns.fromUsize z : Option F) with
          | none => rw [hh] at hK; cases hK
          | some K' => rw [hh] at hK; cases hK; rfl
        refine relBuf_full (τ := .array [n, m]) fun ix hix => ?_
        obtain ⟨i, j, hi, hj, rfl⟩ := inBounds_pair.1 hix
        exact hR.times_mul (a := fun t => X [i, t]) (b := fun t => Y [t, j]) hK
          (fun t ht => hx.full (ds := [n, z]) (inBounds_pair' hi ht))
          (fun t ht => hy.full (ds := [z, m]) (inBounds_pair' ht hj))
      | raw _ => exact dense hx hy h
      | diagonal _ _ => exact dense hx hy h
    | diagonal sx fx =>
      cases y with
      | full t fy => exact dense hx hy h
      | raw _ => exact dense hx hy h
      | diagonal sy fy =>
        replace h : (if n = z ∧ m = n then Res.ok (BSpec.diagonal () (fx * fy))
          else BSpec.denseContract (.mm n z m) (.diagonal sx fx) (.diagonal sy fy)) = .ok s := h
        split at h
        · next hc =>
          obtain ⟨rfl, rfl⟩ := hc
          cases h
          refine relBuf_of_read rfl fun ix hix => ?_
          obtain ⟨i, j, hi, hj, rfl⟩ := inBounds_pair.1 hix
          have hX : ∀ t, t < m → R (if i = t then fx else 0) (X [i, t]) := fun t ht => by
            have h1 := hx.read (ix := [i, t]) (inBounds_pair' hi ht)
            rwa [read_diag2 sx fx i t hi ht] at h1
          have hY : ∀ t, t < m → R (if t = j then fy else 0) (Y [t, j]) := fun t ht => by
            have h1 := hy.read (ix := [t, j]) (inBounds_pair' ht hj)
            rwa [read_diag2 sy fy t j ht hj] at h1
          rw [read_diag2 _ _ i j hi hj]
          have off : ∀ t, t < m → t ≠ i → R 0 (X [i, t] * Y [t, j]) := fun t ht hti => by
            have h0 := hX t ht
            rw [if_neg (Ne.symm hti)] at h0
            exact hR.zero_mul hR.isZero_zero h0 (hY t ht)
          by_cases hij : i = j
          · subst hij
            rw [if_pos rfl]
            exact hR.single hi (hR.mul (by simpa using hX i hi) (by simpa using hY i hi)) off
          · rw [if_neg hij]
            refine hR.single hi ?_ off
            have h0 := hY i hi
            rw [if_neg hij] at h0
            exact hR.mul_zero hR.isZero_zero (hX i hi) h0
        · exact dense hx hy h

end

end Aegir
