import Verif.Lemmas.LearningRounded
import Verif.Lemmas.LearningMean
import Verif.Spec.Float
import Verif.Props.C75_LinearConverges
import Verif.Props.C61_Rounding
import Mathlib.Probability.Distributions.Uniform
import Mathlib.Probability.ProbabilityMassFunction.Integrals
/-!
# C76: the linear regression example (`aegir/examples/linear.rs`) in floating-point arithmetic

C53 and C75 are about exact reals. Here every operation of the program is rounded: the labels, the
evaluation of the adjoint and the update of the weights.
-/

namespace Aegir.Examples

open Aegir.Spec
open MeasureTheory ProbabilityTheory Filter Topology
open scoped ENNReal

variable {F : Type} [Zero F] [One F] [Add F] [Sub F] [Mul F] [Div F] [Neg F] [ScalarFns F]
variable {N : Nat} {val : F → ℝ} {u : ℝ}

/-- The numbers that the entries of an array stand for. -/
def vals (val : F → ℝ) (a : NArr F [N]) : Fin N → ℝ := fun i => val (a.elem i)

/-! ### Given samples -/

/-- One iteration in rounded arithmetic never panics, and every weight is the one that a step of
gradient descent in exact arithmetic takes it to, up to `3 N + 15` roundings. -/
theorem C76_step (hv : Rounding val u)
    (η : F) (tw : NArr F [N]) (s : Data F N) (x : NArr F [N]) :
    ∃ s', linearStep η tw s x = .ok s' ∧ ∀ k,
      |vals val s'.w k - lmsStep (val η) (vals val tw) (vals val s.w) (vals val x) k| ≤
        ((1 + u) ^ (3 * N + 15) - 1) * (|vals val s.w k| + |val η| * (2 *
          (∑ i, |vals val x i| * |vals val s.w i| + ∑ i, |vals val x i| * |vals val tw i|) *
            |vals val x k|)) :=
  linearStep_near hv η tw s x

/-- The distance to the true weights after one iteration. -/
theorem step_dist (hv : Rounding val u)
    {η : F} (hη : 0 ≤ val η) {r : ℝ} (tw : NArr F [N]) (s : Data F N) {x : NArr F [N]}
    (hx : val η * inner' (vals val x) (vals val x) ≤ r) :
    ∃ s', linearStep η tw s x = .ok s' ∧
      √(dist2 (vals val s'.w) (vals val tw)) ≤
        √(dist2 (lmsStep (val η) (vals val tw) (vals val s.w) (vals val x)) (vals val tw)) +
        ((1 + u) ^ (3 * N + 15) - 1) * ((1 + 2 * r) * √(dist2 (vals val s.w) (vals val tw)) +
          (1 + 4 * r) * √(inner' (vals val tw) (vals val tw))) := by
  obtain ⟨s', h, hw⟩ := C76_step hv η tw s x
  have hγ : 0 ≤ (1 + u) ^ (3 * N + 15) - 1 := by
    have : 1 ≤ (1 + u) ^ (3 * N + 15) := one_le_pow₀ (by linarith [hv.nonneg])
    linarith
  exact ⟨s', h, perturbed_step hη hγ hx hw⟩

/-- Whatever the samples are (as long as `η |x|² ≤ r ≤ 1`), the program never panics, and rounding
errors take the weights away from the true ones at most at a rate proportional to the unit
roundoff. -/
theorem C76_run (hv : Rounding val u)
    {η : F} (hη : 0 ≤ val η) {r : ℝ} (hr : r ≤ 1) (tw : NArr F [N]) (xs : List (NArr F [N]))
    (hx : ∀ x ∈ xs, val η * inner' (vals val x) (vals val x) ≤ r) (s : Data F N) :
    ∃ s', linearRun η tw s xs = .ok s' ∧
      ∀ γ, γ = (1 + u) ^ (3 * N + 15) - 1 →
        √(dist2 (vals val s'.w) (vals val tw)) ≤
          (1 + (1 + 2 * r) * γ) ^ xs.length * √(dist2 (vals val s.w) (vals val tw)) +
          (1 + 4 * r) * γ * √(inner' (vals val tw) (vals val tw)) *
            ∑ j ∈ Finset.range xs.length, (1 + (1 + 2 * r) * γ) ^ j := by
  induction xs generalizing s with
  | nil => exact ⟨s, rfl, fun γ _ => by simp⟩
  | cons x xs ih =>
    have hxr := hx x List.mem_cons_self
    obtain ⟨s1, h1, hd⟩ := step_dist hv hη tw s hxr
    obtain ⟨s2, h2, hd2⟩ := ih (fun y hy => hx y (List.mem_cons_of_mem _ hy)) s1
    refine ⟨s2, by rw [linearRun, h1]; exact h2, fun γ hγ => (hd2 γ hγ).trans ?_⟩
    rw [← hγ] at hd
    have hγ0 : 0 ≤ γ := by
      have : 1 ≤ (1 + u) ^ (3 * N + 15) := one_le_pow₀ (by linarith [hv.nonneg])
      linarith
    have hr0 : 0 ≤ r := le_trans (mul_nonneg hη (inner_self_nonneg' _)) hxr
    have hle : √(dist2 (lmsStep (val η) (vals val tw) (vals val s.w) (vals val x)) (vals val tw)) ≤
        √(dist2 (vals val s.w) (vals val tw)) := by
      refine Real.sqrt_le_sqrt ?_
      rw [C53_distance]
      have : 0 ≤ 4 * val η * (1 - val η * inner' (vals val x) (vals val x)) *
          err (vals val tw) (vals val s.w) (vals val x) ^ 2 := by
        have : 0 ≤ 1 - val η * inner' (vals val x) (vals val x) := by linarith
        positivity
      linarith
    set d := √(dist2 (vals val s.w) (vals val tw))
    set d1 := √(dist2 (vals val s1.w) (vals val tw))
    set t := √(inner' (vals val tw) (vals val tw))
    have hc : 0 ≤ 1 + (1 + 2 * r) * γ := by positivity
    have h3 : d1 ≤ (1 + (1 + 2 * r) * γ) * d + (1 + 4 * r) * γ * t := by linarith
    have h4 := mul_le_mul_of_nonneg_left h3 (pow_nonneg hc xs.length)
    rw [List.length_cons, Finset.sum_range_succ, pow_succ]
    linarith

/-- The constants for double precision and thirty weights. -/
theorem C76_gamma {u : ℝ} (hu : 0 ≤ u) (hu1 : u ≤ 1 / 20000) : (1 + u) ^ (3 * 30 + 15) - 1 ≤ 106 * u := by
  have h := Props.C61_gamma hu (3 * 30 + 15) (by push_cast; linarith)
  refine h.trans ?_
  push_cast
  rw [div_le_iff₀ (by linarith)]
  nlinarith

/-! ### Random samples -/

theorem linearRun_append (η : F) (tw : NArr F [N]) (s : Data F N) (xs ys : List (NArr F [N])) :
    linearRun η tw s (xs ++ ys) = (linearRun η tw s xs).bind fun s' => linearRun η tw s' ys := by
  induction xs generalizing s with
  | nil => rfl
  | cons x xs ih =>
    rw [List.cons_append, linearRun, linearRun]
    cases h : linearStep η tw s x with
    | ok s' => exact ih s'
    | err e => rfl
    | panic => rfl

section
variable {Ω S : Type} [MeasurableSpace Ω] {P : Measure Ω} [IsProbabilityMeasure P]
  [MeasurableSpace S] [Countable S] [MeasurableSingletonClass S] {X : ℕ → Ω → S} {μ : Measure S}
  {draw : S → NArr F [N]} {η : F} {r l : ℝ}

/-- Independent samples of any distribution (over countably many machine numbers) that is bounded and
sees every direction: the program never panics, and the expected distance to the true weights shrinks
geometrically until only what is due to rounding is left. -/
theorem C76_random (hv : Rounding val u)
    (hX : ∀ k, Measurable (X k)) (hi : iIndepFun X P) (hμ : ∀ k, P.map (X k) = μ)
    (hη : 0 < val η) (hr : r ≤ 1) (hl0 : 0 ≤ l)
    (hb : ∀ᵐ x ∂μ, val η * inner' (vals val (draw x)) (vals val (draw x)) ≤ r)
    (hl : ∀ v : Fin N → ℝ, l * inner' v v ≤ ∫ x, inner' (vals val (draw x)) v ^ 2 ∂μ)
    (tw : NArr F [N]) (s : Data F N) {γ c : ℝ} (hγ : γ = (1 + u) ^ (3 * N + 15) - 1)
    (hc : c = 1 - 2 * val η * (1 - r) * l + (1 + 2 * r) * γ) :
    ∃ W : ℕ → Ω → Fin N → ℝ,
      (∀ n ω, ∃ s', linearRun η tw s (List.ofFn fun i : Fin n => draw (X i ω)) = .ok s' ∧
        vals val s'.w = W n ω) ∧
      ∀ n, Integrable (fun ω => √(dist2 (W n ω) (vals val tw))) P ∧
        ∫ ω, √(dist2 (W n ω) (vals val tw)) ∂P ≤
          c ^ n * √(dist2 (vals val s.w) (vals val tw)) +
            (1 + 4 * r) * γ * √(inner' (vals val tw) (vals val tw)) * ∑ j ∈ Finset.range n, c ^ j := by
  have hprob : IsProbabilityMeasure μ := hμ 0 ▸ Measure.isProbabilityMeasure_map (hX 0).aemeasurable
  have hγ0 : 0 ≤ γ := by
    have : 1 ≤ (1 + u) ^ (3 * N + 15) := one_le_pow₀ (by linarith [hv.nonneg])
    linarith
  have hr0 : 0 ≤ r := by
    obtain ⟨x, hx⟩ := hb.exists
    exact le_trans (mul_nonneg hη.le (inner_self_nonneg' _)) hx
  -- the weights as a function of the samples
  have htot : ∀ xs : List (NArr F [N]), ∃ s', linearRun η tw s xs = .ok s' := fun xs => by
    induction xs using List.reverseRecOn with
    | nil => exact ⟨s, rfl⟩
    | append_singleton xs x ih =>
      obtain ⟨s', h⟩ := ih
      obtain ⟨s'', h', -⟩ := C76_step hv η tw s' x
      exact ⟨s'', by rw [linearRun_append, h]; show (linearStep η tw s' x).bind _ = _; rw [h']; rfl⟩
  choose st hst using htot
  have hnext : ∀ xs x, linearStep η tw (st xs) x = .ok (st (xs ++ [x])) := fun xs x => by
    have h := hst (xs ++ [x])
    rw [linearRun_append, hst] at h
    obtain ⟨s'', h', -⟩ := C76_step hv η tw (st xs) x
    have h2 : (linearStep η tw (st xs) x).bind (fun s' => linearRun η tw s' []) = .ok (st (xs ++ [x])) := h
    rw [h'] at h2 ⊢
    exact h2
  set t := √(inner' (vals val tw) (vals val tw)) with ht
  have ht0 : 0 ≤ t := Real.sqrt_nonneg _
  have hsn : ∀ n ω, (seen X n ω).map draw = List.ofFn fun i : Fin n => draw (X i ω) := fun n ω => by
    rw [seen, List.map_ofFn]
    rfl
  refine ⟨fun n ω => vals val (st ((seen X n ω).map draw)).w, fun n ω => ?_, fun n => ?_⟩
  · refine ⟨_, ?_, rfl⟩
    rw [← hsn]
    exact hst _
  · rcases Nat.eq_zero_or_pos N with hN | hN
    · subst hN
      simp [dist2, ht, inner']
    have h := noisy_mean hX hi hμ (draw := fun x => vals val (draw x)) (M := n)
      (a := (1 + 2 * r) * γ) (b := (1 + 4 * r) * γ * t) hN.ne' hη hr hl0 hb hl (vals val tw)
      (fun xs => vals val (st (xs.map draw)).w) (by positivity) (by positivity)
      (fun xs _ => hb.mono fun x hx => by
        obtain ⟨s', h, hle⟩ := step_dist hv hη.le tw (st (xs.map draw)) hx
        rw [hnext] at h
        cases h
        rw [← hγ] at hle
        rw [List.map_append]
        refine hle.trans (le_of_eq ?_)
        ring) hc le_rfl
    have hs0 : st [] = s := by
      have := hst []
      cases this
      rfl
    simp only [List.map_nil, hs0] at h
    exact h

end

/-- The numbers of the program. -/
theorem program_bound {u V h t γ : ℝ} (hu0 : 0 ≤ u) (hV0 : 0 < V) (hV4 : V ≤ 1 / 4)
    (hu : 50000 * u ≤ V) (hη1 : 0.00999 ≤ h) (hη2 : h ≤ 0.010001) (hγ0 : 0 ≤ γ) (hγ1 : γ ≤ 106 * u)
    (ht0 : 0 ≤ t) (ht1 : t ≤ 5.478) (n : ℕ) {c : ℝ}
    (hc : c = 1 - 2 * h * (1 - 30 * h) * V + (1 + 2 * (30 * h)) * γ) :
    c ^ n * t + (1 + 4 * (30 * h)) * γ * t * ∑ j ∈ Finset.range n, c ^ j ≤
      6 * (1 - V / 100) ^ n + 130000 * u / V := by
  obtain ⟨r, hr⟩ : ∃ r, r = 30 * h := ⟨_, rfl⟩
  rw [← hr] at hc ⊢
  have hr1 : r ≤ 0.30003 := by linarith
  have hr0 : 0.2997 ≤ r := by linarith
  have hcu : c ≤ 1 - V / 100 := by
    have e1 : 0.0139 ≤ 2 * h * (1 - r) := by nlinarith
    have e2 : 0.0139 * V ≤ 2 * h * (1 - r) * V := mul_le_mul_of_nonneg_right e1 hV0.le
    have e3 : (1 + 2 * r) * γ ≤ 1.6001 * (106 * u) := by gcongr; linarith
    linarith
  have hcl : 0 ≤ c := by
    have e1 : 2 * h * (1 - r) ≤ 1 := by nlinarith
    have e2 : 2 * h * (1 - r) * V ≤ 1 * V := mul_le_mul_of_nonneg_right e1 hV0.le
    have e3 : 0 ≤ (1 + 2 * r) * γ := mul_nonneg (by linarith) hγ0
    linarith
  have hb : (1 + 4 * r) * γ * t ≤ 1300 * u := by
    have e1 : (1 + 4 * r) * γ ≤ 2.2002 * (106 * u) := by gcongr; linarith
    have e2 : (1 + 4 * r) * γ * t ≤ 2.2002 * (106 * u) * 5.478 := by gcongr
    linarith
  have hs0 : 0 ≤ ∑ j ∈ Finset.range n, c ^ j := Finset.sum_nonneg fun j _ => pow_nonneg hcl j
  have hs : (∑ j ∈ Finset.range n, c ^ j) ≤ 100 / V := by
    have e1 := mul_neg_geom_sum c n
    have e2 : 0 ≤ c ^ n := pow_nonneg hcl n
    rw [le_div_iff₀ hV0]
    have e4 : V / 100 * (∑ j ∈ Finset.range n, c ^ j) ≤ (1 - c) * ∑ j ∈ Finset.range n, c ^ j := by
      gcongr
      linarith
    linarith
  have hA : c ^ n * t ≤ (1 - V / 100) ^ n * 6 :=
    mul_le_mul (pow_le_pow_left₀ hcl hcu n) (by linarith) ht0 (pow_nonneg (by linarith) n)
  have hB : (1 + 4 * r) * γ * t * ∑ j ∈ Finset.range n, c ^ j ≤ 1300 * u * (100 / V) := by gcongr
  have e : 1300 * u * (100 / V) = 130000 * u / V := by ring
  linarith

omit [Zero F] [One F] [Add F] [Sub F] [Mul F] [Div F] [Neg F] [ScalarFns F] in
theorem vals_ofElems (a : Fin N → F) : vals val (NArr.ofElems a) = fun k => val (a k) :=
  funext fun k => congrArg val (NArr.row_mkRows (ds := []) _ k)

/-- Samples of independent entries see every direction. -/
theorem machine_excites {T : Type} [MeasurableSpace T] [Countable T] [MeasurableSingletonClass T]
    {ν : Measure T} [IsProbabilityMeasure ν] {g : T → ℝ} (h01 : ∀ t, 0 ≤ g t ∧ g t ≤ 1) :
    Var[g; ν] ≤ 1 / 4 ∧ ∀ v : Fin N → ℝ, Var[g; ν] * inner' v v ≤
      ∫ x, inner' (fun k => g (x k)) v ^ 2 ∂(Measure.pi fun _ : Fin N => ν) := by
  have hg : Measurable g := measurable_of_countable _
  have hgp : IsProbabilityMeasure (ν.map g) := Measure.isProbabilityMeasure_map hg.aemeasurable
  have hae : ∀ᵐ x ∂ν.map g, x ∈ Set.Icc (0 : ℝ) 1 :=
    (ae_map_iff hg.aemeasurable measurableSet_Icc (p := fun x => x ∈ Set.Icc (0 : ℝ) 1)).2
      (.of_forall fun t => h01 t)
  have hVar : Var[id; ν.map g] = Var[g; ν] := by
    rw [variance_map aemeasurable_id hg.aemeasurable]
    rfl
  refine ⟨?_, fun v => ?_⟩
  · have := variance_le_sub_mul_sub (X := id) hae aemeasurable_id
    rw [hVar] at this
    nlinarith [sq_nonneg (2 * (∫ x, id x ∂ν.map g) - 1)]
  · have h := variance_excites hae v
    rw [hVar] at h
    refine h.trans (le_of_eq ?_)
    have hp : (Measure.pi fun _ : Fin N => ν.map g) =
        (Measure.pi fun _ : Fin N => ν).map fun x i => g (x i) :=
      (Measure.pi_map_pi fun _ => hg.aemeasurable).symm
    have hm : Measurable fun x : Fin N → ℝ => inner' x v ^ 2 := ((continuous_inner v).pow 2).measurable
    rw [hp, integral_map (measurable_of_countable _).aemeasurable hm.aestronglyMeasurable]

/-- The program as written (thirty weights, rate `0.01` up to rounding, weights starting at zero) with
true weights in the unit interval, when all entries of all samples are drawn independently from a
distribution on the machine numbers in the unit interval, of variance `V`: the expected distance to the
true weights after `n` iterations is at most `6 (1 - V / 100)ⁿ`, and `130000 u / V` for rounding. -/
theorem C76_program {Ω T : Type} [MeasurableSpace Ω] {P : Measure Ω} [IsProbabilityMeasure P]
    [MeasurableSpace T] [Countable T] [MeasurableSingletonClass T] {ν : Measure T}
    [IsProbabilityMeasure ν] (hv : Rounding val u)
    {gen : T → F}
    (h01 : ∀ t, 0 ≤ val (gen t) ∧ val (gen t) ≤ 1) {V : ℝ} (hV : V = Var[fun t => val (gen t); ν])
    (hV0 : 0 < V) (hu : 50000 * u ≤ V) {X : ℕ → Ω → Fin 30 → T} (hX : ∀ k, Measurable (X k))
    (hi : iIndepFun X P) (hμ : ∀ k, P.map (X k) = Measure.pi fun _ => ν) {η : F}
    (hη : |val η - 1 / 100| ≤ u / 100) (tw : NArr F [30])
    (ht : ∀ i, 0 ≤ vals val tw i ∧ vals val tw i ≤ 1) :
    ∃ W : ℕ → Ω → Fin 30 → ℝ,
      (∀ n ω, ∃ s', linearRun η tw (linearInit 30)
        (List.ofFn fun i : Fin n => NArr.ofElems fun k => gen (X i ω k)) = .ok s' ∧
        vals val s'.w = W n ω) ∧
      ∀ n, Integrable (fun ω => √(dist2 (W n ω) (vals val tw))) P ∧
        ∫ ω, √(dist2 (W n ω) (vals val tw)) ∂P ≤ 6 * (1 - V / 100) ^ n + 130000 * u / V := by
  have hu0 := hv.nonneg
  have hsum : ∀ a : Fin 30 → ℝ, (∀ i, 0 ≤ a i ∧ a i ≤ 1) → inner' a a ≤ 30 := fun a ha => by
    calc inner' a a ≤ ∑ _i : Fin 30, (1 : ℝ) :=
          Finset.sum_le_sum fun i _ => mul_le_one₀ (ha i).2 (ha i).1 (ha i).2
      _ = 30 := by simp
  obtain ⟨hV4, hex⟩ := machine_excites (N := 30) (ν := ν) h01
  rw [← hV] at hV4 hex
  have hη' := abs_le.1 hη
  have hη1 : 0.00999 ≤ val η := by linarith
  have hη2 : val η ≤ 0.010001 := by linarith
  have hγ1 := C76_gamma hu0 (by linarith)
  have hγ0 : 0 ≤ (1 + u) ^ (3 * 30 + 15) - 1 := by
    have : 1 ≤ (1 + u) ^ (3 * 30 + 15) := one_le_pow₀ (by linarith)
    linarith
  obtain ⟨γ, hγ⟩ : ∃ γ : ℝ, γ = (1 + u) ^ (3 * 30 + 15) - 1 := ⟨_, rfl⟩
  rw [← hγ] at hγ1 hγ0
  obtain ⟨W, h1, h2⟩ := C76_random (X := X) (draw := fun x => NArr.ofElems fun k => gen (x k))
    (r := 30 * val η) (l := V) hv hX hi hμ (by linarith : 0 < val η) (by linarith) hV0.le
    (.of_forall fun x => by
      rw [vals_ofElems, mul_comm 30]
      exact mul_le_mul_of_nonneg_left (hsum _ fun i => h01 _) (by linarith))
    (fun v => by simpa only [vals_ofElems] using hex v) tw (linearInit 30) hγ rfl
  refine ⟨W, h1, fun n => ⟨(h2 n).1, (h2 n).2.trans ?_⟩⟩
  have h0 : vals val (linearInit (F := F) 30).w = fun _ => 0 := by
    funext i
    rw [← hv.zero]
    exact congrArg val (NArr.row_mkRows _ i)
  have hd : dist2 (vals val (linearInit (F := F) 30).w) (vals val tw) =
      inner' (vals val tw) (vals val tw) := by
    rw [h0]
    simp [dist2, inner', pow_two]
  rw [hd]
  exact program_bound hu0 hV0 hV4 hu hη1 hη2 hγ0 hγ1 (Real.sqrt_nonneg _)
    (Real.sqrt_le_iff.2 ⟨by norm_num, (hsum _ ht).trans (by norm_num)⟩) n rfl

/-- The variance of a uniformly distributed multiple of `1 / m` in the unit interval. -/
theorem variance_grid (m : ℕ) [NeZero m] :
    Var[fun t : Fin m => (t : ℝ) / m; (PMF.uniformOfFintype (Fin m)).toMeasure] =
      (1 - 1 / (m : ℝ) ^ 2) / 12 := by
  have hm : (m : ℝ) ≠ 0 := Nat.cast_ne_zero.2 (NeZero.ne m)
  have hs1 : ∑ t : Fin m, (t : ℝ) = m * (m - 1) / 2 := by
    rw [Fin.sum_univ_eq_sum_range (fun i => (i : ℝ))]
    clear hm
    induction m with
    | zero => simp
    | succ k ih =>
      rw [Finset.sum_range_succ]
      rcases Nat.eq_zero_or_pos k with h | h
      · subst h; simp
      · have : NeZero k := ⟨h.ne'⟩
        rw [ih]; push_cast; ring
  have hs2 : ∑ t : Fin m, (t : ℝ) ^ 2 = m * (m - 1) * (2 * m - 1) / 6 := by
    rw [Fin.sum_univ_eq_sum_range (fun i => (i : ℝ) ^ 2)]
    clear hm hs1
    induction m with
    | zero => simp
    | succ k ih =>
      rw [Finset.sum_range_succ]
      rcases Nat.eq_zero_or_pos k with h | h
      · subst h; simp
      · have : NeZero k := ⟨h.ne'⟩
        rw [ih]; push_cast; ring
  have hp : ∀ t : Fin m, (PMF.uniformOfFintype (Fin m) t).toReal = 1 / m := fun t => by
    simp
  have hmem : MemLp (fun t : Fin m => (t : ℝ) / m) 2 (PMF.uniformOfFintype (Fin m)).toMeasure :=
    MemLp.of_bound (measurable_of_countable _).aestronglyMeasurable 1 (.of_forall fun t => by
      rw [Real.norm_of_nonneg (by positivity), div_le_one (by positivity)]
      exact_mod_cast t.2.le)
  rw [variance_eq_sub hmem, PMF.integral_eq_sum, PMF.integral_eq_sum]
  simp only [hp, Pi.pow_apply, smul_eq_mul, div_pow, ← Finset.mul_sum, ← Finset.sum_div, hs1, hs2]
  field_simp
  ring

/-- The program in double precision (exponents unbounded), samples drawn uniformly from the multiples
of `1 / m` in the unit interval, where `m = 2 ^ 53` for `rng.gen()`: after `50000` iterations or more
the expected distance to the true weights is below `10 ^ (-9)`. -/
theorem C76_double {Ω : Type} [MeasurableSpace Ω] {P : Measure Ω} [IsProbabilityMeasure P]
    {m : ℕ} [NeZero m] (hm : 2 ≤ m) {X : ℕ → Ω → Fin 30 → Fin m} (hX : ∀ k, Measurable (X k))
    (hi : iIndepFun X P)
    (hμ : ∀ k, P.map (X k) = Measure.pi fun _ => (PMF.uniformOfFintype (Fin m)).toMeasure)
    (tw : NArr (Fl 52) [30]) (ht : ∀ i, 0 ≤ vals Fl.val tw i ∧ vals Fl.val tw i ≤ 1) (n : ℕ)
    (hn : 50000 ≤ n) :
    ∃ W : Ω → Fin 30 → ℝ,
      (∀ ω, ∃ s', linearRun (⟨rnd 52 (1 / 100)⟩ : Fl 52) tw (linearInit 30)
        (List.ofFn fun i : Fin n => NArr.ofElems fun k => ⟨(X i ω k : ℝ) / m⟩) = .ok s' ∧
        vals Fl.val s'.w = W ω) ∧
      Integrable (fun ω => √(dist2 (W ω) (vals Fl.val tw))) P ∧
      ∫ ω, √(dist2 (W ω) (vals Fl.val tw)) ∂P < (1 / 10) ^ 9 := by
  have hm2 : (2 : ℝ) ≤ m := by exact_mod_cast hm
  have hVl : 1 / 16 ≤ (1 - 1 / (m : ℝ) ^ 2) / 12 := by
    have : 1 / (m : ℝ) ^ 2 ≤ 1 / 2 ^ 2 := one_div_le_one_div_of_le (by norm_num) (by gcongr)
    linarith
  obtain ⟨V, hV⟩ : ∃ V : ℝ, V = (1 - 1 / (m : ℝ) ^ 2) / 12 := ⟨_, rfl⟩
  rw [← hV] at hVl
  obtain ⟨W, h1, h2⟩ := C76_program (gen := fun t : Fin m => (⟨(t : ℝ) / m⟩ : Fl 52))
    (η := (⟨rnd 52 (1 / 100)⟩ : Fl 52)) (V := V) Props.C61_double
    (fun t => ⟨by positivity, (div_le_one (by linarith)).2 (by exact_mod_cast t.2.le)⟩)
    (hV.trans (variance_grid m).symm) (by linarith)
    (le_trans (by norm_num) hVl) hX hi hμ (by
      obtain ⟨δ, hδ, e⟩ := rnd_error 52 (1 / 100)
      show |rnd 52 (1 / 100) - 1 / 100| ≤ _
      rw [e, show (1 / 100 * (1 + δ) - 1 / 100 : ℝ) = δ / 100 by ring, abs_div,
        abs_of_pos (by norm_num : (0 : ℝ) < 100)]
      have : |δ| ≤ 1 / 2 ^ 53 := hδ
      linarith) tw ht
  refine ⟨W n, h1 n, (h2 n).1, lt_of_le_of_lt (h2 n).2 ?_⟩
  have hV1 : V ≤ 1 := by
    have : 0 ≤ 1 / (m : ℝ) ^ 2 := by positivity
    linarith
  have e1 : (1 - V / 100) ^ n ≤ Real.exp (-31) := by
    have h0 : 0 ≤ 1 - V / 100 := by linarith
    have hle : 1 - V / 100 ≤ Real.exp (-(1 / 1600)) := by
      have := Real.add_one_le_exp (-(1 / 1600) : ℝ)
      linarith
    calc (1 - V / 100) ^ n ≤ (1 - V / 100) ^ 50000 :=
          pow_le_pow_of_le_one h0 (by linarith) hn
      _ ≤ Real.exp (-(1 / 1600)) ^ 50000 := pow_le_pow_left₀ h0 hle _
      _ = Real.exp (-(50000 / 1600)) := by
          rw [← Real.exp_nat_mul]
          congr 1
          norm_num
      _ ≤ Real.exp (-31) := Real.exp_le_exp.2 (by norm_num)
  have e2 : Real.exp (-31) ≤ 1 / 2 ^ 40 := by
    have h27 : (2.7 : ℝ) ≤ Real.exp 1 := by linarith [Real.exp_one_gt_d9]
    have : (2.7 : ℝ) ^ 31 ≤ Real.exp 31 := by
      have := pow_le_pow_left₀ (by norm_num) h27 31
      rwa [← Real.exp_nat_mul, Nat.cast_ofNat, mul_one] at this
    rw [Real.exp_neg, ← one_div]
    exact one_div_le_one_div_of_le (by norm_num) (le_trans (by norm_num) this)
  have e3 : 130000 * (1 / 2 ^ 53) / V ≤ 130000 * (1 / 2 ^ 53) / (1 / 16) := by gcongr
  calc 6 * (1 - V / 100) ^ n + 130000 * (1 / 2 ^ 53) / V
      ≤ 6 * (1 / 2 ^ 40) + 130000 * (1 / 2 ^ 53) / (1 / 16) := by linarith
    _ < (1 / 10) ^ 9 := by norm_num

/-- The numbers that the samples consist of fit into `p + 1` significant bits. -/
theorem C76_drawn (p : ℕ) (j : ℕ) (hj : j < 2 ^ (p + 1)) :
    rnd p ((j : ℝ) / 2 ^ (p + 1)) = (j : ℝ) / 2 ^ (p + 1) := by
  rcases Nat.eq_zero_or_pos j with h0 | h0
  · subst h0; simp [rnd]
  have hlo : 2 ^ Nat.log 2 j ≤ j := Nat.pow_log_le_self 2 h0.ne'
  have hhi : j < 2 ^ (Nat.log 2 j + 1) := Nat.lt_pow_succ_log_self (by norm_num) j
  have hk : Nat.log 2 j ≤ p := by
    have := lt_of_le_of_lt hlo hj
    have := (Nat.pow_lt_pow_iff_right (by norm_num : 1 < 2)).1 this
    omega
  generalize Nat.log 2 j = k at hlo hhi hk
  have hlo' : (2 : ℝ) ^ k ≤ j := by exact_mod_cast hlo
  have hhi' : (j : ℝ) < 2 ^ (k + 1) := by exact_mod_cast hhi
  have hP : (0 : ℝ) < 2 ^ (p + 1) := by positivity
  have habs : |(j : ℝ) / 2 ^ (p + 1)| = j / 2 ^ (p + 1) := abs_of_nonneg (by positivity)
  refine rnd_fits p (k := (k : ℤ) - (p + 1 : ℕ)) (m := j * 2 ^ (p - k)) ?_ ?_ ?_
  · rw [habs, zpow_sub₀ (by norm_num), zpow_natCast, zpow_natCast]
    gcongr
  · rw [habs, show (k : ℤ) - (p + 1 : ℕ) + 1 = ((k + 1 : ℕ) : ℤ) - (p + 1 : ℕ) by push_cast; ring,
      zpow_sub₀ (by norm_num), zpow_natCast, zpow_natCast]
    gcongr
  · obtain ⟨q, rfl⟩ := Nat.exists_eq_add_of_le hk
    rw [show ((k : ℤ) - (k + q + 1 : ℕ) - (k + q : ℕ)) = -((q + (k + q + 1) : ℕ) : ℤ) by
      push_cast; ring, zpow_neg, zpow_natCast, Nat.add_sub_cancel_left]
    push_cast
    rw [pow_add 2 q]
    field_simp

/-! ### Concrete cases -/

/-- Samples as `C76_random`, `C76_program` and `C76_double` take them exist. -/
example (m : ℕ) [NeZero m] : ∃ (Ω : Type) (_ : MeasurableSpace Ω) (P : Measure Ω)
    (_ : IsProbabilityMeasure P) (X : ℕ → Ω → Fin 30 → Fin m), (∀ k, Measurable (X k)) ∧
      iIndepFun X P ∧
      ∀ k, P.map (X k) = Measure.pi fun _ => (PMF.uniformOfFintype (Fin m)).toMeasure :=
  ⟨ℕ → Fin 30 → Fin m, inferInstance,
    Measure.infinitePi fun _ => Measure.pi fun _ => (PMF.uniformOfFintype (Fin m)).toMeasure,
    inferInstance, fun k ω => ω k, fun k => measurable_pi_apply k,
    iIndepFun_infinitePi (X := fun _ x => x) fun _ => measurable_id,
    fun k => Measure.infinitePi_map_eval
      (fun _ : ℕ => Measure.pi fun _ : Fin 30 => (PMF.uniformOfFintype (Fin m)).toMeasure) k⟩

/-- Given samples of ones, a thousand iterations of the program in double precision (`C76_run`). -/
example (tw : NArr (Fl 52) [30]) (s : Data (Fl 52) 30) :
    ∃ s', linearRun (⟨1 / 128⟩ : Fl 52) tw s (List.replicate 1000 (NArr.ofElems fun _ => 1)) = .ok s' := by
  obtain ⟨s', h, -⟩ := C76_run (r := 1) (η := (⟨1 / 128⟩ : Fl 52)) Props.C61_double
    (by norm_num) le_rfl tw
    (List.replicate 1000 (NArr.ofElems fun _ => 1)) (fun x hx => by
      rw [List.eq_of_mem_replicate hx, vals_ofElems]
      have : Fl.val (1 : Fl 52) = 1 := rfl
      simp only [inner', this]
      norm_num) s
  exact ⟨s', h⟩

/-- With exact arithmetic (`u = 0`) an iteration is exactly a step of gradient descent (C53). -/
example (η : ℝ) (tw : NArr ℝ [N]) (s : Data ℝ N) (x : NArr ℝ [N]) :
    ∃ s', linearStep η tw s x = .ok s' ∧
      ∀ k, s'.w.elem k = lmsStep η tw.elem s.w.elem x.elem k := by
  obtain ⟨s', h, hw⟩ := C76_step Props.realRounding η tw s x
  refine ⟨s', h, fun k => ?_⟩
  have := hw k
  rw [add_zero, one_pow, sub_self, zero_mul] at this
  exact sub_eq_zero.1 (abs_nonpos_iff.1 this)

end Aegir.Examples
