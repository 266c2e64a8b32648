import Verif.Spec.Approx
import Verif.Lemmas.AbstractionExpr
import Verif.Lemmas.Forward
/-!
# Finite precision: limits of scalars and of sums
-/

namespace Aegir

open Spec Filter Topology

/-! ### Scalars of finer and finer arithmetics -/

section
universe v
variable {ι : Type v} {F : ι → Type} [∀ i, Zero (F i)] [∀ i, One (F i)] [∀ i, Add (F i)]
  [∀ i, Sub (F i)] [∀ i, Mul (F i)] [∀ i, Div (F i)] [∀ i, Neg (F i)] [∀ i, ScalarFns (F i)]
  {val : ∀ i, F i → ℝ} {u : ι → ℝ} {l : Filter ι} {x y : ∀ i, F i} {a b : ℝ}

theorem lim_perturb {w t : ι → ℝ} (hu : Tendsto u l (𝓝 0)) (ht : Tendsto t l (𝓝 a))
    (h : ∀ᶠ i in l, |w i - t i| ≤ u i * (1 + |t i|)) : Tendsto w l (𝓝 a) := by
  have h1 : Tendsto (fun i => u i * (1 + |t i|)) l (𝓝 0) := by
    simpa using hu.mul (ht.abs.const_add 1)
  have h2 : Tendsto (fun i => w i - t i) l (𝓝 0) :=
    squeeze_zero_norm' (h.mono fun i hi => by rwa [Real.norm_eq_abs]) h1
  simpa using h2.add ht

theorem lim_relative {w t : ι → ℝ} (hu : Tendsto u l (𝓝 0)) (ht : Tendsto t l (𝓝 a))
    (h0 : ∀ i, 0 ≤ u i) (h : ∀ᶠ i in l, ∃ δ, |δ| ≤ u i ∧ w i = t i * (1 + δ)) :
    Tendsto w l (𝓝 a) := by
  refine lim_perturb hu ht (h.mono fun i hi => ?_)
  obtain ⟨δ, hδ, e⟩ := hi
  rw [e, show t i * (1 + δ) - t i = δ * t i by ring, abs_mul]
  have := mul_le_mul_of_nonneg_right hδ (abs_nonneg (t i))
  nlinarith [h0 i]

variable (hA : ∀ i, Approx (val i) (u i)) (hu : Tendsto u l (𝓝 0))
  (hx : Tendsto (fun i => val i (x i)) l (𝓝 a)) (hy : Tendsto (fun i => val i (y i)) l (𝓝 b))

include hA in
theorem lim_one : Tendsto (fun i => val i (1 : F i)) l (𝓝 1) :=
  tendsto_const_nhds.congr fun i => ((hA i).one).symm

include hA hu hx hy in
theorem lim_add : Tendsto (fun i => val i (x i + y i)) l (𝓝 (a + b)) :=
  lim_relative hu (hx.add hy) (fun i => (hA i).nonneg) (.of_forall fun i => (hA i).add _ _)

include hA hu hx hy in
theorem lim_sub : Tendsto (fun i => val i (x i - y i)) l (𝓝 (a - b)) :=
  lim_relative hu (hx.sub hy) (fun i => (hA i).nonneg) (.of_forall fun i => (hA i).sub _ _)

include hA hu hx hy in
theorem lim_mul : Tendsto (fun i => val i (x i * y i)) l (𝓝 (a * b)) :=
  lim_relative hu (hx.mul hy) (fun i => (hA i).nonneg) (.of_forall fun i => (hA i).mul _ _)

include hA hu hx hy in
theorem lim_div (hb : b ≠ 0) : Tendsto (fun i => val i (x i / y i)) l (𝓝 (a / b)) :=
  lim_relative hu (hx.div hy hb) (fun i => (hA i).nonneg)
    ((hy.eventually_ne hb).mono fun i hi => (hA i).div _ _ hi)

include hA hx in
theorem lim_neg : Tendsto (fun i => val i (-x i)) l (𝓝 (-a)) :=
  hx.neg.congr fun i => ((hA i).neg _).symm

/-- Domains are open. -/
theorem isOpen_inside (op : UnOp) : IsOpen {a | UnOp.Inside op a} := by
  have naturals : IsOpen {a : ℝ | ∀ m : ℕ, a ≠ -m} := by
    have h : IsClosed (Set.range fun m : ℕ => (-m : ℝ)) := by
      have : Topology.IsClosedEmbedding (fun m : ℕ => (m : ℝ)) := Nat.isClosedEmbedding_coe_real
      have h2 := (Homeomorph.neg ℝ).isClosedEmbedding.comp this
      exact h2.isClosed_range
    convert h.isOpen_compl using 1
    ext a
    simp [eq_comm]
  cases op
  case sign => exact isOpen_ne
  case abs => exact isOpen_ne
  case dirac => exact isOpen_ne
  case ln => exact isOpen_Ioi
  case xlnx => exact isOpen_Ioi
  case gamma => exact naturals
  case digamma => exact naturals
  case logGamma => exact naturals
  case acos => exact isOpen_Ioo
  case asin => exact isOpen_Ioo
  case atanh => exact isOpen_Ioo
  case acosh => exact isOpen_Ioi
  case tan => exact isOpen_ne_fun Real.continuous_cos continuous_const
  all_goals exact isOpen_univ

include hA hu hx in
theorem lim_library {op : UnOp} (h : UnOp.library op = true) (hi : UnOp.Inside op a) :
    Tendsto (fun i => val i (op.apply (x i))) l (𝓝 (op.apply a)) :=
  lim_perturb hu ((differentiableAt_un op a hi).continuousAt.tendsto.comp hx)
    ((hx.eventually ((isOpen_inside op).mem_nhds hi)).mono fun i hi => (hA i).library op _ h hi)

include hA hu hx in
theorem lim_un {op : UnOp} (hi : op = .abs ∨ UnOp.Inside op a) :
    Tendsto (fun i => val i (op.apply (x i))) l (𝓝 (op.apply a)) := by
  by_cases hop : UnOp.library op = true
  · rcases hi with rfl | hi
    · cases hop
    · exact lim_library hA hu hx hop hi
  have one := lim_one (l := l) hA
  cases op <;> try exact absurd rfl hop
  case subOne => exact lim_sub hA hu hx one
  case oneSub => exact lim_sub hA hu one hx
  case addOne => exact lim_add hA hu hx one
  case square =>
    have h := lim_relative hu (hx.pow 2) (fun i => (hA i).nonneg)
      (.of_forall fun i => (hA i).square (x i))
    rw [← rpow_two'] at h
    exact h
  case double => exact lim_mul hA hu (lim_add hA hu one one) hx
  case negate => exact lim_neg hA hx
  case dirac =>
    have ha : a ≠ 0 := hi.resolve_left (by simp)
    have h0 : (UnOp.apply .dirac a : ℝ) = 0 := by simp [UnOp.apply, ScalarFns.eqb, ha]
    rw [h0]
    refine tendsto_const_nhds.congr' ((hx.eventually_ne ha).mono fun i hne => ?_)
    have : ¬ ScalarFns.eqb (x i) 0 = true := fun h => hne (((hA i).eqb _ _ h).trans (hA i).zero)
    simp only [UnOp.apply, if_neg this]
    exact (hA i).zero.symm
  case sign =>
    have ha : a ≠ 0 := hi.resolve_left (by simp)
    have hz : (UnOp.apply .sign a : ℝ) = ScalarFns.signum a := by
      simp [UnOp.apply, ScalarFns.isZero, ha]
    rw [hz]
    have key : ∀ᶠ i in l, val i (UnOp.apply .sign (x i)) = ScalarFns.signum a := by
      have hs : ∀ᶠ i in l, (val i (x i) < 0 ↔ a < 0) := by
        rcases lt_or_gt_of_ne ha with hn | hp
        · exact (hx.eventually (gt_mem_nhds hn)).mono fun i h => ⟨fun _ => hn, fun _ => h⟩
        · exact (hx.eventually (lt_mem_nhds hp)).mono fun i h =>
            ⟨fun h' => absurd h' h.le.not_gt, fun h' => absurd h' (le_of_lt hp).not_gt⟩
      filter_upwards [hx.eventually_ne ha, hs] with i hne hs
      have : ¬ ScalarFns.isZero (x i) = true := fun h => hne ((hA i).isZero _ h)
      simp only [UnOp.apply, if_neg this]
      rw [(hA i).signum _ hne]
      simp only [ScalarFns.signum, hs]
    exact tendsto_const_nhds.congr' (key.mono fun i h => h.symm)
  case abs => exact hx.abs.congr fun i => ((hA i).abs _).symm
  case xlnx =>
    have ha : 0 < a := hi.resolve_left (by simp)
    have hz : (UnOp.apply .xlnx a : ℝ) = a * ScalarFns.ln a := by
      simp [UnOp.apply, ScalarFns.leb, not_le.2 ha]
    rw [hz]
    have h := lim_mul hA hu hx (lim_library hA hu hx (op := .ln) rfl ha)
    refine h.congr' ((hx.eventually (lt_mem_nhds ha)).mono fun i hpos => ?_)
    have : ¬ ScalarFns.leb (x i) 0 = true := fun h =>
      absurd ((hA i).leb _ _ h) (by rw [(hA i).zero]; exact hpos.not_ge)
    simp only [UnOp.apply, if_neg this]
  case rabbit => exact lim_mul hA hu hx (lim_sub hA hu one hx)
  case sigmoid =>
    have e1 : (UnOp.apply .sigmoid a : ℝ) = 1 / (1 + Real.exp (-a)) := by
      simp only [UnOp.apply, sigmoid]
      split
      · rfl
      · show Real.exp a / (1 + Real.exp a) = _
        rw [Real.exp_neg]; field_simp
        ring
    have e2 : (UnOp.apply .sigmoid a : ℝ) = Real.exp a / (1 + Real.exp a) := by
      rw [e1, Real.exp_neg]; field_simp
      ring
    have pos : ∀ r : ℝ, (1 : ℝ) + Real.exp r ≠ 0 := fun r => by positivity
    have h1 := lim_div hA hu one (lim_add hA hu one (lim_library hA hu (lim_neg hA hx) (op := .exp)
      rfl trivial)) (pos _)
    have ex := lim_library hA hu hx (op := .exp) rfl trivial
    have h2 := lim_div hA hu ex (lim_add hA hu one ex) (pos _)
    have h1 : Tendsto (fun i => val i (1 / (1 + ScalarFns.exp (-x i)))) l
        (𝓝 (UnOp.apply .sigmoid a)) := by rw [e1]; exact h1
    have h2 : Tendsto (fun i => val i (ScalarFns.exp (x i) / (1 + ScalarFns.exp (x i)))) l
        (𝓝 (UnOp.apply .sigmoid a)) := by rw [e2]; exact h2
    rw [Metric.tendsto_nhds] at h1 h2 ⊢
    intro ε hε
    filter_upwards [h1 ε hε, h2 ε hε] with i g1 g2
    simp only [UnOp.apply, sigmoid]
    split
    · exact g1
    · exact g2

end

/-! ### Single steps -/

/-- A scalar of some arithmetic. -/
structure Point where
  /-- the scalars -/
  F : Type
  [zero : Zero F]
  [one : One F]
  [add : Add F]
  [sub : Sub F]
  [mul : Mul F]
  [div : Div F]
  [neg : Neg F]
  [fns : ScalarFns F]
  /-- the numbers they stand for -/
  val : F → ℝ
  /-- the precision -/
  u : ℝ
  ok : Approx val u
  /-- the scalar -/
  x : F

attribute [instance] Point.zero Point.one Point.add Point.sub Point.mul Point.div Point.neg Point.fns

/-- Unary operators are continuous as computed. -/
theorem step_un {op : UnOp} {a : ℝ} (hi : op = .abs ∨ UnOp.Inside op a) {ε : ℝ} (hε : 0 < ε) :
    ∃ δ, 0 < δ ∧ ∀ {F : Type} [Zero F] [One F] [Add F] [Sub F] [Mul F] [Div F] [Neg F] [ScalarFns F]
      {val : F → ℝ} {u : ℝ}, Approx val u → u ≤ δ → ∀ x, Close val δ x a →
        Close val ε (op.apply x) (op.apply a) := by
  let l : Filter Point := comap (fun p => (p.u, p.val p.x)) (𝓝 (0, a))
  have hl : Tendsto (fun p : Point => (p.u, p.val p.x)) l (𝓝 (0, a)) := tendsto_comap
  have h := lim_un (val := fun p : Point => p.val) (fun p : Point => p.ok)
    ((continuous_fst.tendsto (0, a)).comp hl)
    (x := fun p => p.x) ((continuous_snd.tendsto (0, a)).comp hl) hi
  have h1 := h.eventually (Metric.closedBall_mem_nhds _ hε)
  rw [eventually_comap, Metric.nhds_basis_closedBall.eventually_iff] at h1
  obtain ⟨δ, hδ, h1⟩ := h1
  refine ⟨δ, hδ, ?_⟩
  intro F _ _ _ _ _ _ _ _ val u hA hu x hx
  have := h1 (x := (u, val x)) (by
    rw [Metric.mem_closedBall, Prod.dist_eq, max_le_iff]
    refine ⟨?_, hx⟩
    simp only [dist_zero_right, Real.norm_eq_abs, abs_of_nonneg hA.nonneg]
    exact hu) ⟨F, val, u, hA, x⟩ rfl
  exact this

/-- A rounded function of two variables is continuous where the function is. -/
theorem step_two {f : ℝ → ℝ → ℝ} {D : ℝ → ℝ → Prop} {a b : ℝ}
    (hf : ContinuousAt (fun p : ℝ × ℝ => f p.1 p.2) (a, b)) (hD : ∀ᶠ p in 𝓝 (a, b), D p.1 p.2)
    {ε : ℝ} (hε : 0 < ε) :
    ∃ δ, 0 < δ ∧ ∀ u x y w : ℝ, 0 ≤ u → u ≤ δ → |x - a| ≤ δ → |y - b| ≤ δ →
      (D x y → |w - f x y| ≤ u * (1 + |f x y|)) → |w - f a b| ≤ ε := by
  have h1 := (hf.eventually (Metric.closedBall_mem_nhds _ (half_pos hε))).and hD
  rw [Metric.nhds_basis_closedBall.eventually_iff] at h1
  obtain ⟨δ, hδ, h1⟩ := h1
  have hk : 0 < 1 + |f a b| + ε / 2 := by positivity
  refine ⟨min δ ((ε / 2) / (1 + |f a b| + ε / 2)), lt_min hδ (by positivity), ?_⟩
  intro u x y w hu0 hu hx hy hw
  obtain ⟨h2, h3⟩ := h1 (x := (x, y)) (by
    rw [Metric.mem_closedBall, Prod.dist_eq, max_le_iff]
    exact ⟨hx.trans (min_le_left _ _), hy.trans (min_le_left _ _)⟩)
  have hw := hw h3
  have h2 : |f x y - f a b| ≤ ε / 2 := h2
  have h4 : |f x y| ≤ |f a b| + ε / 2 := by
    have := abs_sub_abs_le_abs_sub (f x y) (f a b)
    linarith
  have h5 : u * (1 + |f x y|) ≤ ε / 2 := by
    calc u * (1 + |f x y|) ≤ ((ε / 2) / (1 + |f a b| + ε / 2)) * (1 + |f a b| + ε / 2) :=
          mul_le_mul (hu.trans (min_le_right _ _)) (by linarith) (by positivity) (by positivity)
      _ = ε / 2 := by field_simp
  have := abs_sub_le w (f x y) (f a b)
  linarith

/-- Neighbourhoods of families contain all families that are uniformly close. -/
theorem exists_delta {A B : Idx → ℝ} {U : Set ((Idx → ℝ) × (Idx → ℝ) × ℝ)} (hU : U ∈ 𝓝 (A, B, (0 : ℝ))) :
    ∃ δ, 0 < δ ∧ ∀ f g u, (∀ ix, |f ix - A ix| ≤ δ) → (∀ ix, |g ix - B ix| ≤ δ) → 0 ≤ u → u ≤ δ →
      (f, g, u) ∈ U := by
  by_contra hcon
  push Not at hcon
  have hn : ∀ n : ℕ, (0 : ℝ) < 1 / (n + 1) := fun n => by positivity
  choose f g u hf hg hu0 hu hnot using fun n : ℕ => hcon _ (hn n)
  have ht : Tendsto (fun n : ℕ => (1 : ℝ) / (n + 1)) atTop (𝓝 0) := tendsto_one_div_add_atTop_nhds_zero_nat
  have lim : ∀ {f : ℕ → Idx → ℝ} {A : Idx → ℝ}, (∀ n ix, |f n ix - A ix| ≤ 1 / ((n : ℝ) + 1)) →
      Tendsto f atTop (𝓝 A) := by
    intro f A h
    refine tendsto_pi_nhds.2 fun ix => ?_
    rw [tendsto_iff_dist_tendsto_zero]
    exact squeeze_zero (fun _ => dist_nonneg) (fun n => h n ix) ht
  have h3 : Tendsto u atTop (𝓝 0) := squeeze_zero hu0 hu ht
  have h4 : Tendsto (fun n => (f n, g n, u n)) atTop (𝓝 (A, B, (0 : ℝ))) :=
    (lim hf).prodMk_nhds ((lim hg).prodMk_nhds h3)
  obtain ⟨n, hn⟩ := (h4.eventually hU).exists
  exact hnot n hn

theorem continuous_sumOver {X : Type} [TopologicalSpace X] (ds : Dims) {f : X → Idx → ℝ}
    (hf : ∀ ix, Continuous fun x => f x ix) : Continuous fun x => sumOver ds (f x) := by
  induction ds generalizing f with
  | nil => exact hf []
  | cons k ks ih => exact continuous_finsetSum _ fun t _ => ih fun ix => hf (t :: ix)

/-- A rounded sum of products is continuous. -/
theorem step_sum (ds : Dims) (p q : Idx → Idx) (K : ℕ) (A B : Idx → ℝ) {ε : ℝ} (hε : 0 < ε) :
    ∃ δ, 0 < δ ∧ ∀ (f g : Idx → ℝ) (u w : ℝ), (∀ ix, |f ix - A ix| ≤ δ) →
      (∀ ix, |g ix - B ix| ≤ δ) → 0 ≤ u → u ≤ δ →
      |w - sumOver ds (fun t => f (p t) * g (q t))|
        ≤ ((1 + u) ^ K - 1) * sumOver ds (fun t => |f (p t)| * |g (q t)|) →
      |w - sumOver ds (fun t => A (p t) * B (q t))| ≤ ε := by
  have c1 : Continuous fun x : (Idx → ℝ) × (Idx → ℝ) × ℝ =>
      sumOver ds (fun t => x.1 (p t) * x.2.1 (q t)) :=
    continuous_sumOver ds (f := fun (x : (Idx → ℝ) × (Idx → ℝ) × ℝ) t => x.1 (p t) * x.2.1 (q t)) fun ix => by fun_prop
  have c2 : Continuous fun x : (Idx → ℝ) × (Idx → ℝ) × ℝ =>
      ((1 + x.2.2) ^ K - 1) * sumOver ds (fun t => |x.1 (p t)| * |x.2.1 (q t)|) := by
    have := continuous_sumOver ds (f := fun (x : (Idx → ℝ) × (Idx → ℝ) × ℝ) t =>
      |x.1 (p t)| * |x.2.1 (q t)|) fun ix => by fun_prop
    fun_prop
  have h1 := c1.continuousAt (x := (A, B, (0 : ℝ)))
    |>.eventually (Metric.closedBall_mem_nhds _ (half_pos hε))
  have h2 := c2.continuousAt (x := (A, B, (0 : ℝ)))
    |>.eventually (Metric.closedBall_mem_nhds _ (half_pos hε))
  obtain ⟨δ, hδ, h⟩ := exists_delta (h1.and h2)
  refine ⟨δ, hδ, fun f g u w hf hg h0 hu hw => ?_⟩
  obtain ⟨g1, g2⟩ := h f g u hf hg h0 hu
  simp only [Real.dist_eq, add_zero, one_pow, sub_self, zero_mul, sub_zero]
    at g1 g2
  have := abs_sub_le w (sumOver ds fun t => f (p t) * g (q t)) (sumOver ds fun t => A (p t) * B (q t))
  have g2 := (le_abs_self _).trans g2
  linarith

/-- What holds for small enough `δ` at every index holds at all indices for some `δ`. -/
theorem uniform_delta {ds : Dims} {Q : Idx → ℝ → Prop}
    (hm : ∀ ix {δ δ'}, δ' ≤ δ → Q ix δ → Q ix δ')
    (h : ∀ ix, InBounds ds ix → ∃ δ, 0 < δ ∧ Q ix δ) :
    ∃ δ, 0 < δ ∧ ∀ ix, InBounds ds ix → Q ix δ := by
  have gen : ∀ l : List Idx, (∀ ix ∈ l, ∃ δ, 0 < δ ∧ Q ix δ) → ∃ δ, 0 < δ ∧ ∀ ix ∈ l, Q ix δ := by
    intro l hl
    induction l with
    | nil => exact ⟨1, one_pos, by simp⟩
    | cons i l ih =>
      obtain ⟨δ1, h1, q1⟩ := hl i List.mem_cons_self
      obtain ⟨δ2, h2, q2⟩ := ih fun ix hix => hl ix (List.mem_cons_of_mem _ hix)
      refine ⟨min δ1 δ2, lt_min h1 h2, fun ix hix => ?_⟩
      rcases List.mem_cons.1 hix with rfl | hix
      · exact hm _ (min_le_left _ _) q1
      · exact hm _ (min_le_right _ _) (q2 ix hix)
  obtain ⟨δ, hδ, hq⟩ := gen (Shape.indices ds) fun ix hix => h ix (mem_indices.1 hix)
  exact ⟨δ, hδ, fun ix hix => hq ix (mem_indices.2 hix)⟩

end Aegir
