import Verif.Spec.Rounding
import Verif.Lemmas.Calc
import Mathlib.Tactic.Linarith
import Mathlib.Tactic.Positivity
import Mathlib.Algebra.Order.BigOperators.Group.Finset
/-!
# Rounding errors
-/

namespace Aegir

open Spec

/-- `r` is the number `a` up to `k` roundings relative to the magnitude `m`. -/
def near (u : ℝ) (k : ℕ) (r a m : ℝ) : Prop := |a| ≤ m ∧ |r - a| ≤ ((1 + u) ^ k - 1) * m

namespace near
variable {u : ℝ} {k l : ℕ} {r s a b m n : ℝ}

theorem mag (h : near u k r a m) : 0 ≤ m := (abs_nonneg _).trans h.1

theorem exact (u : ℝ) (r : ℝ) : near u 0 r r |r| := ⟨le_refl _, by simp⟩

theorem pow_one (hu : 0 ≤ u) (k : ℕ) : 1 ≤ (1 + u) ^ k := one_le_pow₀ (by linarith)

theorem mono (hu : 0 ≤ u) (h : near u k r a m) (hk : k ≤ l) : near u l r a m := by
  refine ⟨h.1, h.2.trans ?_⟩
  have : (1 + u) ^ k ≤ (1 + u) ^ l := pow_le_pow_right₀ (by linarith) hk
  exact mul_le_mul_of_nonneg_right (by linarith) h.mag

theorem le_mag (h : near u k r a m) : |r| ≤ (1 + u) ^ k * m := by
  have h1 : |r| ≤ |r - a| + |a| := by
    have := abs_add_le (r - a) a
    rwa [sub_add_cancel] at this
  calc |r| ≤ |r - a| + |a| := h1
    _ ≤ ((1 + u) ^ k - 1) * m + m := add_le_add h.2 h.1
    _ = (1 + u) ^ k * m := by ring

theorem round (hu : 0 ≤ u) (h : near u k r a m) {δ : ℝ} (hδ : |δ| ≤ u) :
    near u (k + 1) (r * (1 + δ)) a m := by
  refine ⟨h.1, ?_⟩
  have e : r * (1 + δ) - a = (r - a) + r * δ := by ring
  calc |r * (1 + δ) - a| ≤ |r - a| + |r| * |δ| := by rw [e, ← abs_mul]; exact abs_add_le _ _
    _ ≤ ((1 + u) ^ k - 1) * m + (1 + u) ^ k * m * u :=
        add_le_add h.2 (mul_le_mul h.le_mag hδ (abs_nonneg _)
          (mul_nonneg (zero_le_one.trans (pow_one hu k)) h.mag))
    _ = ((1 + u) ^ (k + 1) - 1) * m := by ring

theorem add (hu : 0 ≤ u) (h : near u k r a m) (h' : near u l s b n) :
    near u (max k l) (r + s) (a + b) (m + n) := by
  have h1 := h.mono hu (le_max_left k l)
  have h2 := h'.mono hu (le_max_right k l)
  refine ⟨(abs_add_le _ _).trans (add_le_add h.1 h'.1), ?_⟩
  have e : r + s - (a + b) = (r - a) + (s - b) := by ring
  rw [e, mul_add]
  exact (abs_add_le _ _).trans (add_le_add h1.2 h2.2)

theorem neg (h : near u k r a m) : near u k (-r) (-a) m := by
  refine ⟨by rw [abs_neg]; exact h.1, ?_⟩
  have e : -r - -a = -(r - a) := by ring
  rw [e, abs_neg]; exact h.2

theorem sub (hu : 0 ≤ u) (h : near u k r a m) (h' : near u l s b n) :
    near u (max k l) (r - s) (a - b) (m + n) := by
  rw [sub_eq_add_neg, sub_eq_add_neg]
  exact h.add hu h'.neg

theorem mul (hu : 0 ≤ u) (h : near u k r a m) (h' : near u l s b n) :
    near u (k + l) (r * s) (a * b) (m * n) := by
  refine ⟨by rw [abs_mul]; exact mul_le_mul h.1 h'.1 (abs_nonneg _) h.mag, ?_⟩
  have e : r * s - a * b = (r - a) * s + a * (s - b) := by ring
  have p := pow_one hu k
  have q := pow_one hu l
  calc |r * s - a * b| ≤ |r - a| * |s| + |a| * |s - b| := by
        rw [e, ← abs_mul, ← abs_mul]; exact abs_add_le _ _
    _ ≤ ((1 + u) ^ k - 1) * m * ((1 + u) ^ l * n) + m * (((1 + u) ^ l - 1) * n) :=
        add_le_add (mul_le_mul h.2 h'.le_mag (abs_nonneg _) (mul_nonneg (by linarith) h.mag))
          (mul_le_mul h.1 h'.2 (abs_nonneg _) h.mag)
    _ = ((1 + u) ^ (k + l) - 1) * (m * n) := by ring

theorem sum {ι : Type} {s : Finset ι} {r a m : ι → ℝ} (h : ∀ i ∈ s, near u k (r i) (a i) (m i)) :
    near u k (∑ i ∈ s, r i) (∑ i ∈ s, a i) (∑ i ∈ s, m i) := by
  refine ⟨(Finset.abs_sum_le_sum_abs _ _).trans (Finset.sum_le_sum fun i hi => (h i hi).1), ?_⟩
  rw [← Finset.sum_sub_distrib, Finset.mul_sum]
  exact (Finset.abs_sum_le_sum_abs _ _).trans (Finset.sum_le_sum fun i hi => (h i hi).2)

end near

section
variable {F : Type} [Zero F] [One F] [Add F] [Sub F] [Mul F] [Neg F] [ScalarFns F]
variable {val : F → ℝ} {u : ℝ} {k l : ℕ} {x y : F} {a b m n : ℝ}

namespace Spec.Rounding

theorem nadd (hv : Rounding val u) (h : near u k (val x) a m) (h' : near u l (val y) b n) :
    near u (max k l + 1) (val (x + y)) (a + b) (m + n) := by
  obtain ⟨δ, hδ, e⟩ := hv.add x y
  rw [e]; exact (h.add hv.nonneg h').round hv.nonneg hδ

theorem nsub (hv : Rounding val u) (h : near u k (val x) a m) (h' : near u l (val y) b n) :
    near u (max k l + 1) (val (x - y)) (a - b) (m + n) := by
  obtain ⟨δ, hδ, e⟩ := hv.sub x y
  rw [e]; exact (h.sub hv.nonneg h').round hv.nonneg hδ

theorem nmul (hv : Rounding val u) (h : near u k (val x) a m) (h' : near u l (val y) b n) :
    near u (k + l + 1) (val (x * y)) (a * b) (m * n) := by
  obtain ⟨δ, hδ, e⟩ := hv.mul x y
  rw [e]; exact (h.mul hv.nonneg h').round hv.nonneg hδ

theorem nzero (hv : Rounding val u) : near u 0 (val 0) 0 0 := by
  have := near.exact u (val 0)
  rwa [hv.zero, abs_zero] at *

theorem nunit (hv : Rounding val u) : near u 0 (val 1) 1 1 := by
  have := near.exact u (val 1)
  rwa [hv.one, abs_one] at *

/-- Adding a zero may be skipped. -/
theorem nadd_zero (hv : Rounding val u) (h : near u k (val x) a m) (h' : near u l (val y) b n)
    (hx : ScalarFns.isZero x = true) : near u (max k l + 1) (val y) (a + b) (m + n) := by
  have := (h.add hv.nonneg h').mono hv.nonneg (Nat.le_succ _)
  rwa [hv.isZero x hx, zero_add] at this

/-- Multiplying by a zero may be skipped. -/
theorem nmul_zero (hv : Rounding val u) (h : near u k (val x) a m) (h' : near u l (val y) b n)
    (hx : ScalarFns.isZero x = true) : near u (k + l + 1) (val 0) (a * b) (m * n) := by
  have := (h.mul hv.nonneg h').mono hv.nonneg (Nat.le_succ _)
  rwa [hv.isZero x hx, zero_mul, ← hv.zero] at this

end Spec.Rounding

/-- The scalar `x` is the number `a` up to `k` roundings relative to the magnitude `m`. -/
abbrev nearJ (val : F → ℝ) (u : ℝ) : ℕ → F → ℝ → ℝ → Prop := fun k x a m => near u k (val x) a m

theorem Spec.Rounding.calc (hv : Rounding val u) : Calc (nearJ val u) (fun _ _ => True) True := by
  have hu := hv.nonneg
  have scale : ∀ {k n : ℕ} {r : ℝ} {A M : ℕ → ℝ}, (∀ i, i < n → near u k r (A i) (M i)) →
      near u k (n * r) (∑ i ∈ Finset.range n, A i) (∑ i ∈ Finset.range n, M i) :=
    fun {k n r A M} h => by
      have := near.sum (s := Finset.range n) (r := fun _ => r) fun i hi => h i (Finset.mem_range.1 hi)
      rwa [Finset.sum_const, Finset.card_range, nsmul_eq_mul] at this
  exact {
    anti := fun _ _ _ => trivial
    mag := fun h => h.1
    mono := fun h hk => h.mono hu hk
    zero := hv.nzero
    one := hv.nunit
    two := hv.nadd hv.nunit hv.nunit
    isZero := fun {k x a m} hx h => by
      have h : near u k (val x) a m := h
      show near u k (val 0) a m
      rwa [hv.zero, ← hv.isZero x hx]
    neg := fun {k x a m} h => by
      show near u k (val (-x)) (-a) m
      rw [hv.neg]; exact h.neg
    add := fun h h' _ => hv.nadd h h'
    sub := fun h h' _ => hv.nsub h h'
    mul := fun h h' _ => hv.nmul h h'
    square := fun {k x a m} h _ => by
      obtain ⟨δ, hδ, e⟩ := hv.square x
      have := (near.mul hu h h).round hu hδ
      rw [← pow_two, ← pow_two, ← pow_two, ← e] at this
      exact this.mono hu (by omega)
    addz := fun {k x a b m n} h h' => by
      have := near.add hu h h'
      rwa [hv.zero, add_zero, max_self] at this
    subz := fun {k x a b m n} h h' => by
      have := near.sub hu h h'
      rwa [hv.zero, sub_zero, max_self] at this
    mulz := fun {k l y a b m n} h h' => by
      have := near.mul hu h h'
      rw [hv.zero, zero_mul] at this
      show near u _ (val 0) _ _
      rw [hv.zero]
      exact this.mono hu (by omega)
    scale := fun {k x K n A M} hK h _ _ => by
      obtain ⟨δ1, h1, e1⟩ := hv.fromUsize n K hK
      obtain ⟨δ2, h2, e2⟩ := hv.mul K x
      have := ((scale h).round hu h1).round hu h2
      show near u _ (val (K * x)) _ _
      rwa [e2, e1, show (n : ℝ) * (1 + δ1) * val x * (1 + δ2) = n * val x * (1 + δ1) * (1 + δ2) by ring]
    times := fun {k l x y K n A B M N} hK h h' _ _ _ => by
      obtain ⟨δ1, h1, e1⟩ := hv.fromUsize n K hK
      obtain ⟨δ2, h2, e2⟩ := hv.mul K x
      obtain ⟨δ3, h3, e3⟩ := hv.mul (K * x) y
      have := (((scale fun i hi => near.mul hu (h i hi) (h' i hi)).round hu h1).round hu h2).round hu h3
      show near u _ (val (K * x * y)) _ _
      rwa [e3, e2, e1, show (n : ℝ) * (1 + δ1) * val x * (1 + δ2) * val y * (1 + δ3)
        = n * (val x * val y) * (1 + δ1) * (1 + δ2) * (1 + δ3) by ring] }

end

/-! ### What the arms of `Add`, `Sub` and `Mul` compute, for any scalar type -/

section
variable {F : Type}

/-- Every entry `w` of `r` is related to the entries `u`, `v` of `x` and `y` it comes from. -/
def ZipRel {a b c : BTy} (x : Buf F a) (y : Buf F b) (P : F → F → F → Prop) (r : Buf F c) : Prop :=
  BCast (Buf.dims a x) (Buf.dims b y) (Buf.dims c r) ∧
    ∀ ix, InBounds (Buf.dims c r) ix →
      ∃ u v w, Buf.getU a x (bIdx (Buf.dims a x) ix) = some u ∧
        Buf.getU b y (bIdx (Buf.dims b y) ix) = some v ∧ Buf.getU c r ix = some w ∧ P u v w

theorem zipRel_of_zipMap {a b c : BTy} {z : ZipImpl a b c} {x : Buf F a} {y : Buf F b}
    {f : F → F → F} {r : Buf F c} {P : F → F → F → Prop} (h : Buf.zipMap z x y f = .ok r)
    (hP : ∀ u v, Buf.Entry x u → Buf.Entry y v → P u v (z.eff f u v)) : ZipRel x y P r := by
  have hz := Buf.zipMap_isZip z x y f r h
  refine ⟨hz.1, fun ix hix => ?_⟩
  obtain ⟨u, v, hu, hv, hr⟩ := hz.2 ix hix
  exact ⟨u, v, _, hu, hv, hr, hP u v ⟨_, hu⟩ ⟨_, hv⟩⟩

theorem eff_twice {A : Type} {a b c : BTy} (z : ZipImpl a b c) (f : F → F → A) :
    z.eff (z.eff f) = f := by
  unfold ZipImpl.eff; split <;> rfl

theorem eff_cases {A : Type} {a b c : BTy} (z : ZipImpl a b c) (f : F → F → A) (u v : F) :
    z.eff f u v = f u v ∨ z.eff f u v = f v u := by
  unfold ZipImpl.eff; split
  · exact .inr rfl
  · exact .inl rfl

variable [Zero F]

theorem zipRel_general {a b c : BTy} {z : ZipImpl a b c} {x : BSpec F a} {y : BSpec F b}
    {f : F → F → F} {s : BSpec F c} {P : F → F → F → Prop} (h : zipGeneral z f x y = .ok s)
    (hP : ∀ u v, P u v (z.eff f u v)) : ZipRel x.unwrap y.unwrap P s.unwrap :=
  zipRel_of_zipMap ((zipGeneral_sameOk z f x y s.unwrap).1 ⟨s, h, rfl⟩) fun u v _ _ => hP u v

theorem zipRel_full {a b c : BTy} {z : ZipImpl a b c} {sx : Shp a} {sy : Shp b} {fx fy w : F}
    {s : BSpec F c} {P : F → F → F → Prop}
    (h : Res.ofExcept ((z.broadcast sx sy).map (fun sz => BSpec.full sz w)) = .ok s)
    (hP : P fx fy w) :
    ZipRel (BSpec.full sx fx : BSpec F a).unwrap (BSpec.full sy fy : BSpec F b).unwrap P
      s.unwrap := by
  have h := (Res.ofExcept_ok_iff _ _).1 h
  have h2 := zipMap_full z sx sy fx fy (fun _ _ => w)
  have he : z.eff (fun _ _ => w) fx fy = w := by unfold ZipImpl.eff; split <;> rfl
  cases hb : z.broadcast sx sy with
  | error e => rw [hb] at h; cases h
  | ok sz =>
    rw [hb] at h h2
    cases h
    refine zipRel_of_zipMap (z := z) (f := fun _ _ => w) (h2.trans (by rw [he]; rfl))
      fun u v hu hv => ?_
    rw [Buf.entry_full hu, Buf.entry_full hv, he]
    exact hP

theorem zipRel_zero {a b c : BTy} {z : ZipImpl a b c} {x : BSpec F a} {y : BSpec F b}
    {s : BSpec F c} {P : F → F → F → Prop} (sx : Shp a) (sy : Shp b) (hx : x.shape = sx)
    (hy : y.shape = sy)
    (h : Res.ofExcept ((z.broadcast sx sy).map (fun sz => (BSpec.zeroes sz : BSpec F c))) = .ok s)
    (hP : ∀ u v, Buf.Entry x.unwrap u → Buf.Entry y.unwrap v → P u v 0) :
    ZipRel x.unwrap y.unwrap P s.unwrap := by
  have h := (Res.ofExcept_ok_iff _ _).1 h
  have he : ∀ u v : F, z.eff (fun _ _ => (0 : F)) u v = 0 := fun u v => by
    unfold ZipImpl.eff; split <;> rfl
  have h2 := zipMap_const z x.unwrap y.unwrap (fun _ _ => (0 : F)) 0 fun u v _ _ => he u v
  rw [BSpec.shape_unwrap, BSpec.shape_unwrap, hx, hy] at h2
  cases hb : z.broadcast sx sy with
  | error e => rw [hb] at h; cases h
  | ok sz =>
    rw [hb] at h h2
    cases h
    refine zipRel_of_zipMap (z := z) h2 fun u v hu hv => ?_
    rw [he]
    exact hP u v hu hv

theorem zipRel_keepL {a b c : BTy} {z : ZipImpl a b c} {x : Buf F a} {sy : Shp b} {fy : F}
    {s : BSpec F c} {P : F → F → F → Prop}
    (h : Res.ofExcept ((Buf.zipShape z x sy).map BSpec.raw) = .ok s) (hP : ∀ u, P u fy u) :
    ZipRel (BSpec.raw x : BSpec F a).unwrap (BSpec.full sy fy : BSpec F b).unwrap P s.unwrap := by
  have h := (Res.ofExcept_ok_iff _ _).1 h
  have h2 := Buf.zipShape_eq z x (Buf.full b sy fy)
  rw [Buf.shape_full] at h2
  rw [h2] at h
  cases hm : Buf.zipMap z x (Buf.full b sy fy) (z.eff fun u _ => u) with
  | error e => rw [hm] at h; cases h
  | ok r =>
    rw [hm] at h
    cases h
    refine zipRel_of_zipMap hm fun u v _ hv => ?_
    rw [eff_twice, Buf.entry_full hv]
    exact hP u

theorem zipRel_keepR {a b c : BTy} {z : ZipImpl a b c} {sx : Shp a} {fx : F} {y : Buf F b}
    {s : BSpec F c} {P : F → F → F → Prop}
    (h : (Res.ofExcept ((Buf.zipShape z.symm y sx).map BSpec.raw)).mapErr IncShapes.reverse = .ok s)
    (hP : ∀ v, P fx v v) :
    ZipRel (BSpec.full sx fx : BSpec F a).unwrap (BSpec.raw y : BSpec F b).unwrap P s.unwrap := by
  have h := (Res.ofExcept_ok_iff _ _).1 ((Res.mapErr_ok_iff _ _ _).1 h)
  have h2 := Buf.zipShape_eq z.symm y (Buf.full a sx fx)
  rw [Buf.shape_full] at h2
  rw [h2] at h
  have h3 := zipMap_symm z (Buf.full a sx fx) y (z.eff fun _ v => v)
  rw [eff_twice] at h3
  cases hm : Buf.zipMap z.symm y (Buf.full a sx fx) (z.symm.eff fun u _ => u) with
  | error e => rw [hm] at h; cases h
  | ok r =>
    rw [hm] at h h3
    cases h
    have h4 := (Res.ofExcept_ok_iff _ _).1 h3.symm
    refine zipRel_of_zipMap h4 fun u v hu _ => ?_
    rw [eff_twice, Buf.entry_full hu]
    exact hP v

variable [ScalarFns F]

theorem addSpec_rel [Add F] {a b c : BTy} (z : ZipImpl a b c) (x : BSpec F a) (y : BSpec F b)
    (s : BSpec F c) (h : addSpec z x y = .ok s) :
    ZipRel x.unwrap y.unwrap (fun u v w => w = u + v ∨ w = v + u ∨
      (ScalarFns.isZero u = true ∧ w = v) ∨ (ScalarFns.isZero v = true ∧ w = u)) s.unwrap := by
  have gen : ∀ u v : F, z.eff (· + ·) u v = u + v ∨ z.eff (· + ·) u v = v + u ∨
      (ScalarFns.isZero u = true ∧ z.eff (· + ·) u v = v) ∨
      (ScalarFns.isZero v = true ∧ z.eff (· + ·) u v = u) := fun u v =>
    (eff_cases z (· + ·) u v).imp_right .inl
  cases x with
  | raw x =>
    cases y with
    | full sy fy =>
      simp only [addSpec] at h
      split at h
      · next h0 => exact zipRel_keepL h fun u => .inr (.inr (.inr ⟨h0, rfl⟩))
      · exact zipRel_general h gen
    | _ => exact zipRel_general h gen
  | full sx fx =>
    cases y with
    | raw y =>
      simp only [addSpec] at h
      split at h
      · next h0 => exact zipRel_keepR h fun v => .inr (.inr (.inl ⟨h0, rfl⟩))
      · exact zipRel_general h gen
    | full sy fy => exact zipRel_full h (.inl rfl)
    | diagonal sy fy => exact zipRel_general h gen
  | diagonal sx fx => cases y <;> exact zipRel_general h gen

theorem subSpec_rel [Sub F] {a b c : BTy} (z : ZipImpl a b c) (hz : z.swaps = false)
    (x : BSpec F a) (y : BSpec F b) (s : BSpec F c) (h : subSpec z x y = .ok s) :
    ZipRel x.unwrap y.unwrap (fun u v w => w = u - v ∨ (ScalarFns.isZero v = true ∧ w = u))
      s.unwrap := by
  have gen : ∀ u v : F, z.eff (· - ·) u v = u - v ∨
      (ScalarFns.isZero v = true ∧ z.eff (· - ·) u v = u) := fun u v => by
    rw [ZipImpl.eff_of_not_swaps z hz]; exact .inl rfl
  cases x with
  | raw x =>
    cases y with
    | full sy fy =>
      simp only [subSpec] at h
      split at h
      · next h0 => exact zipRel_keepL h fun u => .inr ⟨h0, rfl⟩
      · exact zipRel_general h gen
    | _ => exact zipRel_general h gen
  | full sx fx =>
    cases y with
    | full sy fy => exact zipRel_full h (.inl rfl)
    | _ => exact zipRel_general h gen
  | diagonal sx fx => cases y <;> exact zipRel_general h gen

theorem mulSpec_rel [Mul F] {a b c : BTy} (z : ZipImpl a b c) (x : BSpec F a) (y : BSpec F b)
    (s : BSpec F c) (h : mulSpec z x y = .ok s) :
    ZipRel x.unwrap y.unwrap (fun u v w => w = u * v ∨ w = v * u ∨
      ((ScalarFns.isZero u = true ∨ ScalarFns.isZero v = true) ∧ w = 0)) s.unwrap := by
  have gen : ∀ u v : F, z.eff (· * ·) u v = u * v ∨ z.eff (· * ·) u v = v * u ∨
      ((ScalarFns.isZero u = true ∨ ScalarFns.isZero v = true) ∧ z.eff (· * ·) u v = 0) :=
    fun u v => (eff_cases z (· * ·) u v).imp_right .inl
  have zl : ∀ (sx : Shp a) (fx : F) (y : BSpec F b), ScalarFns.isZero fx = true →
      Res.ofExcept ((z.broadcast sx y.shape).map (fun sz => (BSpec.zeroes sz : BSpec F c))) = .ok s →
      ZipRel (BSpec.full sx fx : BSpec F a).unwrap y.unwrap (fun u v w => w = u * v ∨ w = v * u ∨
        ((ScalarFns.isZero u = true ∨ ScalarFns.isZero v = true) ∧ w = 0)) s.unwrap :=
    fun sx fx y h0 h => zipRel_zero sx _ rfl rfl h fun u v hu _ => by
      rw [Buf.entry_full hu]; exact .inr (.inr ⟨.inl h0, rfl⟩)
  have zr : ∀ (x : BSpec F a) (sy : Shp b) (fy : F), ScalarFns.isZero fy = true →
      Res.ofExcept ((z.broadcast x.shape sy).map (fun sz => (BSpec.zeroes sz : BSpec F c))) = .ok s →
      ZipRel x.unwrap (BSpec.full sy fy : BSpec F b).unwrap (fun u v w => w = u * v ∨ w = v * u ∨
        ((ScalarFns.isZero u = true ∨ ScalarFns.isZero v = true) ∧ w = 0)) s.unwrap :=
    fun x sy fy h0 h => zipRel_zero _ sy rfl rfl h fun u v _ hv => by
      rw [Buf.entry_full hv]; exact .inr (.inr ⟨.inr h0, rfl⟩)
  cases x with
  | full sx fx =>
    cases y with
    | full sy fy => exact zipRel_full h (.inl rfl)
    | raw y =>
      simp only [mulSpec] at h
      split at h
      · next h0 => exact zl sx fx (.raw y) h0 h
      · exact zipRel_general h gen
    | diagonal sy fy =>
      simp only [mulSpec] at h
      split at h
      · next h0 => exact zl sx fx (.diagonal sy fy) h0 h
      · exact zipRel_general h gen
  | raw x =>
    cases y with
    | full sy fy =>
      simp only [mulSpec] at h
      split at h
      · next h0 => exact zr (.raw x) sy fy h0 h
      · exact zipRel_general h gen
    | _ => exact zipRel_general h gen
  | diagonal sx fx =>
    cases y with
    | full sy fy =>
      simp only [mulSpec] at h
      split at h
      · next h0 => exact zr (.diagonal sx fx) sy fy h0 h
      · exact zipRel_general h gen
    | _ => exact zipRel_general h gen

end

end Aegir
