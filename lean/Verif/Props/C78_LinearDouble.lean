import Verif.Lemmas.LearningRange
import Verif.Props.C76_LinearFloat
import Verif.Props.C77_Range
/-!
# C78: the linear regression example (`aegir/examples/linear.rs`) in IEEE arithmetic

C76 leaves exponents unbounded. Here numbers overflow to infinity and underflow, infinities turn into
NaNs, and none of this happens.
-/

namespace Aegir.Examples

open Aegir.Spec
open MeasureTheory ProbabilityTheory Filter Topology
open scoped ENNReal

variable {F : Type} [Zero F] [One F] [Add F] [Sub F] [Mul F] [Div F] [Neg F] [ScalarFns F]
variable {N : Nat} {val : F → ℝ} {fin : F → Prop} {u lo hi θ A Y : ℝ}

/-! ### Given samples -/

/-- One iteration, as long as numbers are of moderate size: it never panics, all weights remain
numbers, and each is the one that a step of gradient descent in exact arithmetic takes it to, up to
`3 N + 15` roundings, when numbers less than `θ` are counted as `θ`. -/
theorem C78_step (hv : Ranged val fin u lo hi) (hs : Sizes N u lo hi θ A Y) (hN : N ≠ 0)
    {η : F} (hη : fin η ∧ |val η| ≤ Y) {tw : NArr F [N]}
    (ht : ∀ i, fin (tw.elem i) ∧ |vals val tw i| ≤ A) {s : Data F N}
    (hw : ∀ i, fin (s.w.elem i) ∧ |vals val s.w i| ≤ Y) {x : NArr F [N]}
    (hx : ∀ i, fin (x.elem i) ∧ |vals val x i| ≤ A) :
    ∃ s', linearStep η tw s x = .ok s' ∧ ∀ k, fin (s'.w.elem k) ∧
      |vals val s'.w k - lmsStep (val η) (vals val tw) (vals val s.w) (vals val x) k| ≤
        ((1 + u) ^ (3 * N + 15) - 1) * (max θ |vals val s.w k| + max θ |val η| *
          (2 * max θ |vals val x k| * (∑ i, max θ |vals val x i| * max θ |vals val s.w i| + θ +
            ∑ i, max θ |vals val x i| * max θ |vals val tw i|))) :=
  linearStep_ranged hv hs hN hη ht hw hx

/-- The entries of a sample are numbers of absolute value at most `A`, and `η |x|² ≤ r`, where numbers
less than `θ` are counted as `θ`. -/
def Sample (val : F → ℝ) (fin : F → Prop) (θ A r : ℝ) (η : F) (x : NArr F [N]) : Prop :=
  (∀ i, fin (x.elem i) ∧ |vals val x i| ≤ A) ∧
    max θ |val η| * inner' (fun i => max θ |vals val x i|) (fun i => max θ |vals val x i|) ≤ r

omit [Zero F] [One F] [Add F] [Sub F] [Mul F] [Div F] [Neg F] [ScalarFns F] in
theorem Sample.le {r : ℝ} {η : F} {x : NArr F [N]} (h : Sample val fin θ A r η x) :
    val η * inner' (vals val x) (vals val x) ≤ r := by
  refine le_trans ?_ h.2
  have h1 : inner' (vals val x) (vals val x) ≤
      inner' (fun i => max θ |vals val x i|) (fun i => max θ |vals val x i|) :=
    Finset.sum_le_sum fun i _ => by
      rw [← abs_mul_abs_self (vals val x i)]
      exact mul_self_le_mul_self (abs_nonneg _) (le_max_right _ _)
  exact mul_le_mul ((le_abs_self _).trans (le_max_right _ _)) h1 (inner_self_nonneg' _)
    ((abs_nonneg _).trans (le_max_right _ _))

/-- The distance to the true weights after one iteration. -/
theorem step_range (hv : Ranged val fin u lo hi) (hs : Sizes N u lo hi θ A Y) (hN : N ≠ 0)
    {η : F} (hη : fin η ∧ |val η| ≤ Y) {tw : NArr F [N]}
    (ht : ∀ i, fin (tw.elem i) ∧ |vals val tw i| ≤ A) {s : Data F N} (hw : ∀ i, fin (s.w.elem i))
    (hwY : √(dist2 (vals val s.w) (vals val tw)) + √(inner' (vals val tw) (vals val tw)) ≤ Y)
    {r : ℝ} {x : NArr F [N]} (hx : Sample val fin θ A r η x) :
    ∃ s', linearStep η tw s x = .ok s' ∧ (∀ k, fin (s'.w.elem k)) ∧
      √(dist2 (vals val s'.w) (vals val tw)) ≤
        √(dist2 (lmsStep (val η) (vals val tw) (vals val s.w) (vals val x)) (vals val tw)) +
        ((1 + u) ^ (3 * N + 15) - 1) * ((1 + 2 * r) * √(dist2 (vals val s.w) (vals val tw)) +
          ((1 + 4 * r) * (√(inner' (vals val tw) (vals val tw)) + √N * θ) + 2 * r)) := by
  have hb : ∀ i, |vals val s.w i| ≤ Y := fun i => by
    refine (le_len _ i).trans (le_trans ?_ hwY)
    rw [dist_eq_len]
    have := len_add_le (fun i => vals val s.w i - vals val tw i) (vals val tw)
    simp only [sub_add_cancel] at this
    exact this
  obtain ⟨s', h, hk⟩ := C78_step hv hs hN hη ht (fun i => ⟨hw i, hb i⟩) hx.1
  have hγ : 0 ≤ (1 + u) ^ (3 * N + 15) - 1 := by
    have : 1 ≤ (1 + u) ^ (3 * N + 15) := one_le_pow₀ (by linarith [hv.nonneg])
    linarith
  exact ⟨s', h, fun k => (hk k).1, perturbed_floor hN hs.pos.le
    ((abs_nonneg _).trans (le_max_right _ _)) hγ hx.2 fun k => (hk k).2⟩

/-- In exact arithmetic no step leads away from the true weights. -/
theorem exact_step_le {h r : ℝ} (hh : 0 ≤ h) (hr : r ≤ 1) {tw w x : Fin N → ℝ}
    (hx : h * inner' x x ≤ r) : √(dist2 (lmsStep h tw w x) tw) ≤ √(dist2 w tw) := by
  refine Real.sqrt_le_sqrt ?_
  rw [C53_distance]
  have : 0 ≤ 4 * h * (1 - h * inner' x x) * err tw w x ^ 2 := by
    have : 0 ≤ 1 - h * inner' x x := by linarith
    positivity
  linarith

/-- Whatever the samples are (as long as they are of moderate size and `η |x|² ≤ r ≤ 1`), the program
never panics, no weight becomes infinite or NaN, and the distance to the true weights grows by at most
`β` per iteration, which is proportional to the unit roundoff. The bound `R` on the distance has to
leave room for this. -/
theorem C78_run (hv : Ranged val fin u lo hi) (hs : Sizes N u lo hi θ A Y) (hN : N ≠ 0) {η : F}
    (hη : fin η ∧ 0 ≤ val η ∧ val η ≤ Y) {tw : NArr F [N]}
    (ht : ∀ i, fin (tw.elem i) ∧ |vals val tw i| ≤ A) {r R β γ : ℝ} (hr : r ≤ 1) (hR0 : 0 ≤ R)
    (hγ : γ = (1 + u) ^ (3 * N + 15) - 1) (hβ : β = γ * ((1 + 2 * r) * R +
      ((1 + 4 * r) * (√(inner' (vals val tw) (vals val tw)) + √N * θ) + 2 * r)))
    (hR : R + √(inner' (vals val tw) (vals val tw)) ≤ Y) (xs : List (NArr F [N]))
    (hx : ∀ x ∈ xs, Sample val fin θ A r η x) {s : Data F N} (hw : ∀ i, fin (s.w.elem i))
    (hd : √(dist2 (vals val s.w) (vals val tw)) + xs.length * β ≤ R) :
    ∃ s', linearRun η tw s xs = .ok s' ∧ (∀ i, fin (s'.w.elem i)) ∧
      √(dist2 (vals val s'.w) (vals val tw)) ≤
        √(dist2 (vals val s.w) (vals val tw)) + xs.length * β := by
  have hγ0 : 0 ≤ γ := by
    have : 1 ≤ (1 + u) ^ (3 * N + 15) := one_le_pow₀ (by linarith [hv.nonneg])
    linarith
  induction xs generalizing s with
  | nil => exact ⟨s, rfl, hw, by simp⟩
  | cons x xs ih =>
    have hxs := hx x List.mem_cons_self
    have hr0 : 0 ≤ r := le_trans (mul_nonneg hη.2.1 (inner_self_nonneg' _)) hxs.le
    have hq : 0 ≤ √N * θ := mul_nonneg (Real.sqrt_nonneg _) hs.pos.le
    have hT := Real.sqrt_nonneg (inner' (vals val tw) (vals val tw))
    rw [List.length_cons] at hd
    push_cast at hd
    have hd0 := Real.sqrt_nonneg (dist2 (vals val s.w) (vals val tw))
    have hβ0 : 0 ≤ β := by rw [hβ]; positivity
    have hdR : √(dist2 (vals val s.w) (vals val tw)) ≤ R := by
      have : 0 ≤ ((xs.length : ℝ) + 1) * β := by positivity
      linarith
    obtain ⟨s1, h1, hf1, hd1⟩ := step_range hv hs hN
      ⟨hη.1, by rw [abs_of_nonneg hη.2.1]; exact hη.2.2⟩ ht hw (by linarith) hxs
    rw [← hγ] at hd1
    have hstep : √(dist2 (vals val s1.w) (vals val tw)) ≤
        √(dist2 (vals val s.w) (vals val tw)) + β := by
      have h2 := exact_step_le hη.2.1 hr (tw := vals val tw) (w := vals val s.w) hxs.le
      have h3 : γ * ((1 + 2 * r) * √(dist2 (vals val s.w) (vals val tw)) +
          ((1 + 4 * r) * (√(inner' (vals val tw) (vals val tw)) + √N * θ) + 2 * r)) ≤ β := by
        rw [hβ]
        gcongr
      linarith
    obtain ⟨s2, h2, hf2, hd2⟩ := ih (fun y hy => hx y (List.mem_cons_of_mem _ hy)) hf1 (by linarith)
    refine ⟨s2, by rw [linearRun, h1]; exact h2, hf2, hd2.trans ?_⟩
    rw [List.length_cons]
    push_cast
    linarith

/-! ### Random samples -/

/-- Independent samples of any distribution that is bounded and sees every direction, for up to `M`
iterations: no weight ever becomes infinite or NaN, and the expected distance to the true weights
shrinks geometrically until only what is due to rounding is left. -/
theorem C78_random {Ω S : Type} [MeasurableSpace Ω] {P : Measure Ω} [IsProbabilityMeasure P]
    [MeasurableSpace S] [Countable S] [MeasurableSingletonClass S] {X : ℕ → Ω → S} {μ : Measure S}
    {draw : S → NArr F [N]} (hv : Ranged val fin u lo hi) (hs : Sizes N u lo hi θ A Y) (hN : N ≠ 0)
    {η : F} (hη : fin η ∧ 0 < val η ∧ val η ≤ Y) {tw : NArr F [N]}
    (ht : ∀ i, fin (tw.elem i) ∧ |vals val tw i| ≤ A) {r R β γ l b c : ℝ} (hr : r ≤ 1) (hR0 : 0 ≤ R)
    (hl0 : 0 ≤ l) (hγ : γ = (1 + u) ^ (3 * N + 15) - 1)
    (hb : b = γ * ((1 + 4 * r) * (√(inner' (vals val tw) (vals val tw)) + √N * θ) + 2 * r))
    (hβ : β = γ * (1 + 2 * r) * R + b) (hR : R + √(inner' (vals val tw) (vals val tw)) ≤ Y)
    (hX : ∀ k, Measurable (X k)) (hi : iIndepFun X P) (hμ : ∀ k, P.map (X k) = μ)
    (hx : ∀ x, Sample val fin θ A r η (draw x))
    (hl : ∀ v : Fin N → ℝ, l * inner' v v ≤ ∫ x, inner' (vals val (draw x)) v ^ 2 ∂μ)
    {s : Data F N} (hw : ∀ i, fin (s.w.elem i)) {M : ℕ}
    (hd : √(dist2 (vals val s.w) (vals val tw)) + M * β ≤ R)
    (hc : c = 1 - 2 * val η * (1 - r) * l + (1 + 2 * r) * γ) :
    ∃ W : ℕ → Ω → Fin N → ℝ, ∀ n ≤ M,
      (∀ ω, ∃ s', linearRun η tw s (List.ofFn fun i : Fin n => draw (X i ω)) = .ok s' ∧
        (∀ i, fin (s'.w.elem i)) ∧ vals val s'.w = W n ω) ∧
      Integrable (fun ω => √(dist2 (W n ω) (vals val tw))) P ∧
      ∫ ω, √(dist2 (W n ω) (vals val tw)) ∂P ≤
        c ^ n * √(dist2 (vals val s.w) (vals val tw)) + b * ∑ j ∈ Finset.range n, c ^ j := by
  have hprob : IsProbabilityMeasure μ := hμ 0 ▸ Measure.isProbabilityMeasure_map (hX 0).aemeasurable
  have hne : Nonempty S := by
    by_contra h
    rw [not_nonempty_iff] at h
    have := measure_univ (μ := μ)
    simp [Measure.eq_zero_of_isEmpty μ] at this
  have hγ0 : 0 ≤ γ := by
    have : 1 ≤ (1 + u) ^ (3 * N + 15) := one_le_pow₀ (by linarith [hv.nonneg])
    linarith
  have hr0 : 0 ≤ r := le_trans (mul_nonneg hη.2.1.le (inner_self_nonneg' _)) (hx hne.some).le
  have hq : 0 ≤ √N * θ := mul_nonneg (Real.sqrt_nonneg _) hs.pos.le
  have hT := Real.sqrt_nonneg (inner' (vals val tw) (vals val tw))
  have hb0 : 0 ≤ b := by rw [hb]; positivity
  have hβ0 : 0 ≤ β := by rw [hβ]; positivity
  have hβ' : β = γ * ((1 + 2 * r) * R +
      ((1 + 4 * r) * (√(inner' (vals val tw) (vals val tw)) + √N * θ) + 2 * r)) := by
    rw [hβ, hb]; ring
  -- the weights as a function of the samples
  have hrun : ∀ xs : List S, ∃ s', xs.length ≤ M → linearRun η tw s (xs.map draw) = .ok s' ∧
      (∀ i, fin (s'.w.elem i)) ∧ √(dist2 (vals val s'.w) (vals val tw)) ≤ R := fun xs => by
    by_cases hlen : xs.length ≤ M
    · have h1 : ((xs.map draw).length : ℝ) * β ≤ M * β := by
        rw [List.length_map]
        exact mul_le_mul_of_nonneg_right (by exact_mod_cast hlen) hβ0
      obtain ⟨s', h, hf, hd'⟩ := C78_run hv hs hN ⟨hη.1, hη.2.1.le, hη.2.2⟩ ht hr hR0 hγ hβ' hR
        (xs.map draw) (fun y hy => by
          obtain ⟨x, -, rfl⟩ := List.mem_map.1 hy
          exact hx x) hw (by linarith)
      exact ⟨s', fun _ => ⟨h, hf, by linarith⟩⟩
    · exact ⟨s, fun h => absurd h hlen⟩
  choose st hst using hrun
  have hsn : ∀ n ω, (seen X n ω).map draw = List.ofFn fun i : Fin n => draw (X i ω) := fun n ω => by
    rw [seen, List.map_ofFn]
    rfl
  refine ⟨fun n ω => vals val (st (seen X n ω)).w, fun n hn => ⟨fun ω => ?_, ?_⟩⟩
  · obtain ⟨h, hf, -⟩ := hst (seen X n ω) (by simpa [seen] using hn)
    rw [hsn] at h
    exact ⟨_, h, hf, rfl⟩
  · have h := noisy_mean hX hi hμ (draw := fun x => vals val (draw x)) (M := M)
      (a := (1 + 2 * r) * γ) (b := b) hN hη.2.1 hr hl0 (.of_forall fun x => (hx x).le) hl (vals val tw)
      (fun xs => vals val (st xs).w) (by positivity) hb0
      (fun xs hlen => .of_forall fun x => by
        obtain ⟨h1, hf1, hd1⟩ := hst xs hlen.le
        obtain ⟨h2, -, -⟩ := hst (xs ++ [x]) (by simpa using hlen)
        obtain ⟨s', h, -, hle⟩ := step_range hv hs hN
          ⟨hη.1, by rw [abs_of_nonneg hη.2.1.le]; exact hη.2.2⟩ ht hf1 (by linarith) (hx x)
        have he : s' = st (xs ++ [x]) := by
          rw [List.map_append, linearRun_append, h1] at h2
          have h3 : (linearStep η tw (st xs) (draw x)).bind (fun s' => linearRun η tw s' []) =
            .ok (st (xs ++ [x])) := h2
          rw [h] at h3
          cases h3
          rfl
        rw [← hγ, he] at hle
        refine hle.trans (le_of_eq ?_)
        rw [hb]
        ring) hc hn
    have hs0 : st [] = s := by
      obtain ⟨h, -⟩ := hst [] (Nat.zero_le _)
      cases h
      rfl
    simp only [hs0] at h
    exact h

/-- The numbers of the program. -/
theorem program_range {u V h t q γ : ℝ} (hu0 : 0 ≤ u) (hV0 : 0 < V) (hV4 : V ≤ 1 / 4)
    (hu : 50000 * u ≤ V) (hη1 : 0.00999 ≤ h) (hη2 : h ≤ 0.010001) (hγ0 : 0 ≤ γ) (hγ1 : γ ≤ 106 * u)
    (ht0 : 0 ≤ t) (ht1 : t ≤ 5.478) (hq0 : 0 ≤ q) (hq1 : q ≤ 0.011) (n : ℕ) {b c : ℝ}
    (hb : b = γ * ((1 + 4 * (30 * h)) * (t + q) + 2 * (30 * h)))
    (hc : c = 1 - 2 * h * (1 - 30 * h) * V + (1 + 2 * (30 * h)) * γ) :
    b ≤ 1350 * u ∧
      c ^ n * t + b * ∑ j ∈ Finset.range n, c ^ j ≤ 6 * (1 - V / 100) ^ n + 135000 * u / V := by
  obtain ⟨r, hr⟩ : ∃ r, r = 30 * h := ⟨_, rfl⟩
  rw [← hr] at hb hc
  have hr1 : r ≤ 0.30003 := by linarith
  have hr0 : 0.2997 ≤ r := by linarith
  have hcu : c ≤ 1 - V / 100 := by
    have e1 : 0.0139 ≤ 2 * h * (1 - r) := by nlinarith
    have e2 : 0.0139 * V ≤ 2 * h * (1 - r) * V := mul_le_mul_of_nonneg_right e1 hV0.le
    have e3 : (1 + 2 * r) * γ ≤ 1.6001 * (106 * u) := by gcongr; linarith
    linarith
  have hcl : 0 ≤ c := by
    have e1 : 2 * h * (1 - r) ≤ 1 := by nlinarith
    have e2 : 2 * h * (1 - r) * V ≤ 1 * V := mul_le_mul_of_nonneg_right e1 hV0.le
    have e3 : 0 ≤ (1 + 2 * r) * γ := mul_nonneg (by linarith) hγ0
    linarith
  have hb1 : b ≤ 1350 * u := by
    have e1 : (1 + 4 * r) * (t + q) + 2 * r ≤ 2.2002 * 5.489 + 0.60006 := by
      have : (1 + 4 * r) * (t + q) ≤ 2.2002 * 5.489 :=
        mul_le_mul (by linarith) (by linarith) (by linarith) (by norm_num)
      linarith
    have e2 : b ≤ 106 * u * (2.2002 * 5.489 + 0.60006) := by
      rw [hb]
      exact mul_le_mul hγ1 e1 (by positivity) (by positivity)
    linarith
  refine ⟨hb1, ?_⟩
  have hs0 : 0 ≤ ∑ j ∈ Finset.range n, c ^ j := Finset.sum_nonneg fun j _ => pow_nonneg hcl j
  have hs : (∑ j ∈ Finset.range n, c ^ j) ≤ 100 / V := by
    have e1 := mul_neg_geom_sum c n
    have e2 : 0 ≤ c ^ n := pow_nonneg hcl n
    rw [le_div_iff₀ hV0]
    have e4 : V / 100 * (∑ j ∈ Finset.range n, c ^ j) ≤ (1 - c) * ∑ j ∈ Finset.range n, c ^ j := by
      gcongr
      linarith
    linarith
  have hA : c ^ n * t ≤ (1 - V / 100) ^ n * 6 :=
    mul_le_mul (pow_le_pow_left₀ hcl hcu n) (by linarith) ht0 (pow_nonneg (by linarith) n)
  have hB : b * ∑ j ∈ Finset.range n, c ^ j ≤ 1350 * u * (100 / V) := by gcongr
  have e : 1350 * u * (100 / V) = 135000 * u / V := by ring
  linarith

/-- The program as written (thirty weights, or fewer, rate `0.01` up to rounding, weights at first zero), for
true weights in the unit interval and samples whose entries are drawn independently from a distribution
on the machine numbers in the unit interval, of variance `V`: for up to `M` iterations, where
`20000 u M ≤ 90`, all weights remain numbers, and the expected distance to the true weights after `n`
iterations is at most `6 (1 - V / 100)ⁿ`, and `135000 u / V` for rounding. -/
theorem C78_program {Ω T : Type} [MeasurableSpace Ω] {P : Measure Ω} [IsProbabilityMeasure P]
    [MeasurableSpace T] [Countable T] [MeasurableSingletonClass T] {ν : Measure T}
    [IsProbabilityMeasure ν] (hN : N ≠ 0) (hN' : N ≤ 30) (hv : Ranged val fin u lo hi)
    (hs : Sizes N u lo hi (1 / 512) 1 512)
    {gen : T → F} (h01 : ∀ t, fin (gen t) ∧ 0 ≤ val (gen t) ∧ val (gen t) ≤ 1) {V : ℝ}
    (hV : V = Var[fun t => val (gen t); ν]) (hV0 : 0 < V) (hu : 50000 * u ≤ V)
    {X : ℕ → Ω → Fin N → T} (hX : ∀ k, Measurable (X k)) (hi : iIndepFun X P)
    (hμ : ∀ k, P.map (X k) = Measure.pi fun _ => ν) {η : F}
    (hη : fin η ∧ |val η - 1 / 100| ≤ u / 100) {tw : NArr F [N]}
    (ht : ∀ i, fin (tw.elem i) ∧ 0 ≤ vals val tw i ∧ vals val tw i ≤ 1) {M : ℕ}
    (hM : 20000 * u * M ≤ 90) :
    ∃ W : ℕ → Ω → Fin N → ℝ, ∀ n ≤ M,
      (∀ ω, ∃ s', linearRun η tw (linearInit N)
        (List.ofFn fun i : Fin n => NArr.ofElems fun k => gen (X i ω k)) = .ok s' ∧
        (∀ i, fin (s'.w.elem i)) ∧ vals val s'.w = W n ω) ∧
      Integrable (fun ω => √(dist2 (W n ω) (vals val tw))) P ∧
      ∫ ω, √(dist2 (W n ω) (vals val tw)) ∂P ≤ 6 * (1 - V / 100) ^ n + 135000 * u / V := by
  have hu0 := hv.nonneg
  have hsum : ∀ a : Fin N → ℝ, (∀ i, 0 ≤ a i ∧ a i ≤ 1) → inner' a a ≤ 30 := fun a ha => by
    calc inner' a a ≤ ∑ _i : Fin N, (1 : ℝ) :=
          Finset.sum_le_sum fun i _ => mul_le_one₀ (ha i).2 (ha i).1 (ha i).2
      _ = N := by simp
      _ ≤ 30 := by exact_mod_cast hN'
  obtain ⟨hV4, hex⟩ := machine_excites (N := N) (ν := ν) fun t => (h01 t).2
  rw [← hV] at hV4 hex
  have hη' := abs_le.1 hη.2
  have hη1 : 0.00999 ≤ val η := by linarith
  have hη2 : val η ≤ 0.010001 := by linarith
  have hγ1 : (1 + u) ^ (3 * N + 15) - 1 ≤ 106 * u := by
    have := C76_gamma hu0 (by linarith)
    have : (1 + u) ^ (3 * N + 15) ≤ (1 + u) ^ (3 * 30 + 15) :=
      pow_le_pow_right₀ (by linarith) (by omega)
    linarith
  have hγ0 : 0 ≤ (1 + u) ^ (3 * N + 15) - 1 := by
    have : 1 ≤ (1 + u) ^ (3 * N + 15) := one_le_pow₀ (by linarith)
    linarith
  obtain ⟨γ, hγ⟩ : ∃ γ : ℝ, γ = (1 + u) ^ (3 * N + 15) - 1 := ⟨_, rfl⟩
  rw [← hγ] at hγ1 hγ0
  set t := √(inner' (vals val tw) (vals val tw)) with ht'
  have ht0 : 0 ≤ t := Real.sqrt_nonneg _
  have ht1 : t ≤ 5.478 :=
    Real.sqrt_le_iff.2 ⟨by norm_num, (hsum _ fun i => (ht i).2).trans (by norm_num)⟩
  obtain ⟨q, hq⟩ : ∃ q : ℝ, q = √(N : ℝ) * (1 / 512) := ⟨_, rfl⟩
  have hq0 : 0 ≤ q := by rw [hq]; positivity
  have hq1 : q ≤ 0.011 := by
    have : √(N : ℝ) ≤ 5.478 := by
      have : (N : ℝ) ≤ 30 := by exact_mod_cast hN'
      exact Real.sqrt_le_iff.2 ⟨by norm_num, by linarith⟩
    rw [hq]
    linarith
  obtain ⟨b, hb⟩ : ∃ b : ℝ, b = γ * ((1 + 4 * (30 * val η)) * (t + q) + 2 * (30 * val η)) := ⟨_, rfl⟩
  obtain ⟨c, hc⟩ : ∃ c : ℝ,
    c = 1 - 2 * val η * (1 - 30 * val η) * V + (1 + 2 * (30 * val η)) * γ := ⟨_, rfl⟩
  have hnum := fun n => program_range hu0 hV0 hV4 hu hη1 hη2 hγ0 hγ1 ht0 ht1 hq0 hq1 n hb hc
  have h0 : vals val (linearInit (F := F) N).w = fun _ => 0 := by
    funext i
    rw [← hv.zero.2]
    exact congrArg val (NArr.row_mkRows _ i)
  have hd : dist2 (vals val (linearInit (F := F) N).w) (vals val tw) =
      inner' (vals val tw) (vals val tw) := by
    rw [h0]
    simp [dist2, inner', pow_two]
  have hx : ∀ x : Fin N → T, Sample val fin (1 / 512) 1 (30 * val η) η
      (NArr.ofElems fun k => gen (x k)) := fun x => by
    refine ⟨fun i => ?_, ?_⟩
    · have := h01 (x i)
      rw [vals_ofElems, abs_of_nonneg this.2.1,
        show (NArr.ofElems fun k => gen (x k)).elem i = gen (x i) from NArr.row_mkRows (ds := []) _ i]
      exact ⟨this.1, this.2.2⟩
    · rw [vals_ofElems, abs_of_nonneg (by linarith : 0 ≤ val η), max_eq_right (by linarith), mul_comm 30]
      refine mul_le_mul_of_nonneg_left (hsum _ fun i => ?_) (by linarith)
      have := (h01 (x i)).2
      rw [abs_of_nonneg this.1]
      exact ⟨le_trans this.1 (le_max_right _ _), max_le (by norm_num) this.2⟩
  have hw : ∀ i, fin ((linearInit (F := F) N).w.elem i) := fun i => by
    rw [show (linearInit (F := F) N).w.elem i = 0 from NArr.row_mkRows _ i]
    exact hv.zero.1
  have hfar : √(dist2 (vals val (linearInit (F := F) N).w) (vals val tw)) +
      M * (γ * (1 + 2 * (30 * val η)) * 100 + b) ≤ 100 := by
    rw [hd, ← ht']
    have hb1 := (hnum 0).1
    have e1 : γ * (1 + 2 * (30 * val η)) * 100 ≤ 106 * u * 1.60006 * 100 := by
      gcongr
      linarith
    have e2 : γ * (1 + 2 * (30 * val η)) * 100 + b ≤ 20000 * u := by linarith
    have e3 : (M : ℝ) * (γ * (1 + 2 * (30 * val η)) * 100 + b) ≤ M * (20000 * u) :=
      mul_le_mul_of_nonneg_left e2 (Nat.cast_nonneg M)
    linarith
  obtain ⟨W, hW⟩ := C78_random (X := X) (draw := fun x => NArr.ofElems fun k => gen (x k))
    (r := 30 * val η) (l := V) (R := 100) (s := linearInit N) (M := M) (tw := tw) (b := b) hv hs
    hN ⟨hη.1, by linarith, by linarith⟩
    (fun i => ⟨(ht i).1, by rw [abs_of_nonneg (ht i).2.1]; exact (ht i).2.2⟩) (by linarith)
    (by norm_num) hV0.le hγ (by rw [← ht', ← hq]; exact hb) rfl (by rw [← ht']; linarith) hX hi hμ
    hx (fun v => by simpa only [vals_ofElems] using hex v) hw hfar hc
  refine ⟨W, fun n hn => ⟨(hW n hn).1, (hW n hn).2.1, (hW n hn).2.2.trans ?_⟩⟩
  rw [hd]
  exact (hnum n).2

/-! ### Double precision -/

theorem sizes_double (hN : N ≤ 30) :
    Sizes N (1 / 2 ^ 53) (2 ^ (-1022 : ℤ)) (largest 52 971) (1 / 512) 1 512 := by
  have h := C76_gamma (u := (1 / 2 ^ 53 : ℝ)) (by positivity) (by norm_num)
  have h2 : (1 + 1 / 2 ^ 53 : ℝ) ^ (3 * N + 15) ≤ 2 := by
    have h0 : (1 + 1 / 2 ^ 53 : ℝ) ^ (3 * N + 15) ≤ (1 + 1 / 2 ^ 53) ^ (3 * 30 + 15) :=
      pow_le_pow_right₀ (by norm_num) (by omega)
    have : (106 * (1 / 2 ^ 53) : ℝ) ≤ 1 := by norm_num
    linarith
  have h3 : (1 + 1 / 2 ^ 53 : ℝ) ^ (N + 1) ≤ (1 + 1 / 2 ^ 53) ^ (3 * N + 15) :=
    pow_le_pow_right₀ (by norm_num) (by omega)
  have e : (512 : ℝ) ^ (3 * N + 16) ≤ 2 ^ 1022 := by
    rw [show (512 : ℝ) = 2 ^ 9 by norm_num, ← pow_mul]
    exact pow_le_pow_right₀ (by norm_num) (by omega)
  refine ⟨by norm_num, by norm_num, by norm_num, by norm_num, by norm_num, ?_, ?_, ?_⟩
  · have e1 : (N : ℝ) ≤ 30 := by exact_mod_cast hN
    calc (1 + 1 / 2 ^ 53 : ℝ) ^ (N + 1) * (N * 1 ^ 2) ≤ 2 * (30 * 1 ^ 2) :=
          mul_le_mul (h3.trans h2) (by linarith) (by positivity) (by norm_num)
      _ ≤ 512 := by norm_num
  · rw [zpow_neg, one_div, inv_pow]
    refine inv_anti₀ (by positivity) ?_
    exact_mod_cast e
  · exact le_trans (mul_le_mul e h2 (by positivity) (by positivity)) Props.large_double

/-- What is left of the distance. -/
theorem double_bound {V : ℝ} (h0 : 1 / 16 ≤ V) (h1 : V ≤ 1) {n : ℕ} (hn : 50000 ≤ n) :
    6 * (1 - V / 100) ^ n + 135000 * (1 / 2 ^ 53) / V < (1 / 10) ^ 9 := by
  have e1 : (1 - V / 100) ^ n ≤ Real.exp (-31) := by
    have h0' : 0 ≤ 1 - V / 100 := by linarith
    have hle : 1 - V / 100 ≤ Real.exp (-(1 / 1600)) := by
      have := Real.add_one_le_exp (-(1 / 1600) : ℝ)
      linarith
    calc (1 - V / 100) ^ n ≤ (1 - V / 100) ^ 50000 :=
          pow_le_pow_of_le_one h0' (by linarith) hn
      _ ≤ Real.exp (-(1 / 1600)) ^ 50000 := pow_le_pow_left₀ h0' hle _
      _ = Real.exp (-(50000 / 1600)) := by
          rw [← Real.exp_nat_mul]
          congr 1
          norm_num
      _ ≤ Real.exp (-31) := Real.exp_le_exp.2 (by norm_num)
  have e2 : Real.exp (-31) ≤ 1 / 2 ^ 40 := by
    have h27 : (2.7 : ℝ) ≤ Real.exp 1 := by linarith [Real.exp_one_gt_d9]
    have : (2.7 : ℝ) ^ 31 ≤ Real.exp 31 := by
      have := pow_le_pow_left₀ (by norm_num) h27 31
      rwa [← Real.exp_nat_mul, Nat.cast_ofNat, mul_one] at this
    rw [Real.exp_neg, ← one_div]
    exact one_div_le_one_div_of_le (by norm_num) (le_trans (by norm_num) this)
  have e3 : 135000 * (1 / 2 ^ 53) / V ≤ 135000 * (1 / 2 ^ 53) / (1 / 16) := by gcongr
  calc 6 * (1 - V / 100) ^ n + 135000 * (1 / 2 ^ 53) / V
      ≤ 6 * (1 / 2 ^ 40) + 135000 * (1 / 2 ^ 53) / (1 / 16) := by linarith
    _ < (1 / 10) ^ 9 := by norm_num

/-- The rate of the program in double precision. -/
theorem rate_double : (Fp.round (1 / 100) : Double).Finite ∧
    |(Fp.round (1 / 100) : Double).val - 1 / 100| ≤ 1 / 2 ^ 53 / 100 := by
  have ha : |(1 / 100 : ℝ)| = 1 / 100 := abs_of_pos (by norm_num)
  have hf : (Fp.round (1 / 100) : Double).Finite := Fp.round_fin (by
    rw [ha]
    exact le_trans (by norm_num) (Fp.one_le_largest (p := 52) (E := 971)))
  have hl : (-7 : ℤ) ≤ Int.log 2 (1 / 100 : ℝ) :=
    (Int.zpow_le_iff_le_log (by norm_num) (by norm_num)).1 (by norm_num)
  have h := fround_normal (p := 52) (q := 1074) (x := 1 / 100) (by
    unfold place
    rw [ha, max_eq_left]
    push_cast
    omega) (by norm_num)
  rw [ha] at h
  rw [Fp.val_round hf]
  exact ⟨hf, h.trans (le_of_eq (by norm_num))⟩

/-- What `rand` draws, `j / 2 ^ 53`, is a double. -/
theorem C78_drawn (j : ℕ) (hj : j < 2 ^ 53) :
    (Fp.round ((j : ℝ) / 2 ^ 53) : Double).Finite ∧
      (Fp.round ((j : ℝ) / 2 ^ 53) : Double).val = (j : ℝ) / 2 ^ 53 := by
  have hj' : (j : ℝ) < 2 ^ 53 := by exact_mod_cast hj
  have h1 : (j : ℝ) / 2 ^ 53 < 1 := (div_lt_one (by positivity)).2 hj'
  have h0 : 0 ≤ (j : ℝ) / 2 ^ 53 := by positivity
  have hf : (Fp.round ((j : ℝ) / 2 ^ 53) : Double).Finite := Fp.round_fin (by
    rw [abs_of_nonneg h0]
    exact h1.le.trans (Fp.one_le_largest (p := 52) (E := 971)))
  refine ⟨hf, (Fp.val_round hf).trans ?_⟩
  rcases Nat.eq_zero_or_pos j with h | h
  · subst h
    simp [fround_zero]
  have hp : 0 < (j : ℝ) / 2 ^ 53 := div_pos (by exact_mod_cast h) (by positivity)
  have hl : Int.log 2 |(j : ℝ) / 2 ^ 53| < 0 := by
    rw [abs_of_pos hp]
    exact (Int.lt_zpow_iff_log_lt (by norm_num) hp).1 (by simpa using h1)
  have hpl : place 52 1074 ((j : ℝ) / 2 ^ 53) ≤ -53 := by
    unfold place
    push_cast
    omega
  obtain ⟨d, hd⟩ : ∃ d : ℕ, (-53 : ℤ) = place 52 1074 ((j : ℝ) / 2 ^ 53) + d :=
    ⟨(-53 - place 52 1074 ((j : ℝ) / 2 ^ 53)).toNat, by omega⟩
  refine fround_of_mul (m := j * 2 ^ d) ?_
  push_cast
  rw [mul_assoc, ← zpow_natCast (2 : ℝ) d, ← zpow_add₀ (by norm_num), add_comm, ← hd, zpow_neg,
    div_eq_mul_inv]
  norm_cast

/-- The program in double precision, with up to thirty weights, the true weights being doubles of the unit interval and the samples
drawn uniformly and independently from the doubles `0, 1/m, …, (m - 1)/m`. For ten trillion iterations
no weight ever becomes infinite or NaN, nothing panics, and from the 50000th iteration on the expected
distance to the true weights is below a billionth. -/
theorem C78_double {Ω : Type} [MeasurableSpace Ω] {P : Measure Ω} [IsProbabilityMeasure P]
    (hN : N ≠ 0) (hN' : N ≤ 30) {m : ℕ} [NeZero m] (hm : 2 ≤ m) {gen : Fin m → Double}
    (hg : ∀ t, (gen t).Finite ∧ (gen t).val = t / m) {X : ℕ → Ω → Fin N → Fin m}
    (hX : ∀ k, Measurable (X k)) (hi : iIndepFun X P)
    (hμ : ∀ k, P.map (X k) = Measure.pi fun _ => (PMF.uniformOfFintype (Fin m)).toMeasure)
    {tw : NArr Double [N]}
    (ht : ∀ i, (tw.elem i).Finite ∧ 0 ≤ vals Fp.val tw i ∧ vals Fp.val tw i ≤ 1) {n : ℕ}
    (hn : n ≤ 10 ^ 13) :
    ∃ W : Ω → Fin N → ℝ,
      (∀ ω, ∃ s', linearRun (Fp.round (1 / 100) : Double) tw (linearInit N)
        (List.ofFn fun i : Fin n => NArr.ofElems fun k => gen (X i ω k)) = .ok s' ∧
        (∀ i, (s'.w.elem i).Finite) ∧ vals Fp.val s'.w = W ω) ∧
      Integrable (fun ω => √(dist2 (W ω) (vals Fp.val tw))) P ∧
      (50000 ≤ n → ∫ ω, √(dist2 (W ω) (vals Fp.val tw)) ∂P < (1 / 10) ^ 9) := by
  have hm2 : (2 : ℝ) ≤ m := by exact_mod_cast hm
  obtain ⟨V, hV⟩ : ∃ V : ℝ, V = (1 - 1 / (m : ℝ) ^ 2) / 12 := ⟨_, rfl⟩
  have hVl : 1 / 16 ≤ V := by
    have : 1 / (m : ℝ) ^ 2 ≤ 1 / 2 ^ 2 := one_div_le_one_div_of_le (by norm_num) (by gcongr)
    linarith
  have hV1 : V ≤ 1 := by
    have : 0 ≤ 1 / (m : ℝ) ^ 2 := by positivity
    linarith
  have hη : (Fp.round (1 / 100) : Double).Finite ∧
      |(Fp.round (1 / 100) : Double).val - 1 / 100| ≤ 1 / 2 ^ 53 / 100 := rate_double
  obtain ⟨W, hW⟩ := C78_program (gen := gen) (η := (Fp.round (1 / 100) : Double)) (V := V) (tw := tw)
    (M := n) hN hN' Props.C77_double (sizes_double hN')
    (fun t => ⟨(hg t).1, by rw [(hg t).2]; positivity, by
      rw [(hg t).2]
      exact (div_le_one (by linarith)).2 (by exact_mod_cast t.2.le)⟩)
    (by
      simp only [(hg _).2]
      exact hV.trans (variance_grid m).symm) (by linarith) (le_trans (by norm_num) hVl) hX hi hμ hη ht (by
        have : (n : ℝ) ≤ 10 ^ 13 := by exact_mod_cast hn
        linarith)
  refine ⟨W n, (hW n le_rfl).1, (hW n le_rfl).2.1, fun h => lt_of_le_of_lt (hW n le_rfl).2.2 ?_⟩
  exact double_bound hVl hV1 h

/-! ### Concrete cases -/

theorem init_double (i : Fin 30) : ((linearInit (F := Double) 30).w.elem i).Finite ∧
    vals Fp.val (linearInit (F := Double) 30).w i = 0 := by
  have h : (linearInit (F := Double) 30).w.elem i = 0 := NArr.row_mkRows _ i
  exact ⟨by rw [h]; trivial, (congrArg Fp.val h).trans rfl⟩

/-- Ones as doubles. -/
theorem ones_double (i : Fin 30) : ((NArr.ofElems fun _ : Fin 30 => (1 : Double)).elem i).Finite ∧
    vals Fp.val (NArr.ofElems fun _ : Fin 30 => (1 : Double)) i = 1 := by
  rw [vals_ofElems, show (NArr.ofElems fun _ : Fin 30 => (1 : Double)).elem i = 1
    from NArr.row_mkRows (ds := []) _ i]
  exact ⟨trivial, rfl⟩

/-- One iteration of the program in double precision on a sample of ones (`C78_step`). -/
example : ∃ s', linearStep (Fp.round (1 / 100) : Double) (NArr.ofElems fun _ => 1) (linearInit 30)
    (NArr.ofElems fun _ => 1) = .ok s' ∧ ∀ k, (s'.w.elem k).Finite := by
  have hη := rate_double
  have hη' := abs_le.1 hη.2
  have h1 : ∀ i, ((NArr.ofElems fun _ : Fin 30 => (1 : Double)).elem i).Finite ∧
      |vals Fp.val (NArr.ofElems fun _ : Fin 30 => (1 : Double)) i| ≤ 1 := fun i =>
    ⟨(ones_double i).1, by rw [(ones_double i).2, abs_one]⟩
  obtain ⟨s', h, hf⟩ := C78_step (tw := NArr.ofElems fun _ => 1) (s := linearInit 30)
    (x := NArr.ofElems fun _ => 1) Props.C77_double (sizes_double le_rfl) (by norm_num)
    (η := (Fp.round (1 / 100) : Double))
    ⟨hη.1, by rw [abs_le]; constructor <;> norm_num at hη' ⊢ <;> linarith⟩ h1
    (fun i => ⟨(init_double i).1, by rw [(init_double i).2]; norm_num⟩) h1
  exact ⟨s', h, fun k => (hf k).1⟩

/-- The program on fair coin tosses, zero or a half (`C78_double`, and so
`C78_program`, `C78_random` and `C78_run`). -/
example (n : ℕ) (h1 : 50000 ≤ n) (h2 : n ≤ 10 ^ 13) : ∃ (Ω : Type) (_ : MeasurableSpace Ω)
    (P : Measure Ω) (X : ℕ → Ω → Fin 30 → Double) (W : Ω → Fin 30 → ℝ),
      (∀ ω, ∃ s', linearRun (Fp.round (1 / 100) : Double) (NArr.ofElems fun _ => 1) (linearInit 30)
        (List.ofFn fun i : Fin n => NArr.ofElems (X i ω)) = .ok s' ∧
        (∀ i, (s'.w.elem i).Finite) ∧ vals Fp.val s'.w = W ω) ∧
      ∫ ω, √(dist2 (W ω) fun _ => 1) ∂P < (1 / 10) ^ 9 := by
  have hg : ∀ t : Fin 2, (Fp.round (((t * 2 ^ 52 : ℕ) : ℝ) / 2 ^ 53) : Double).Finite ∧
      (Fp.round (((t * 2 ^ 52 : ℕ) : ℝ) / 2 ^ 53) : Double).val = (t : ℝ) / (2 : ℕ) := fun t => by
    have h := C78_drawn (t * 2 ^ 52) (by have := t.2; omega)
    refine ⟨h.1, h.2.trans ?_⟩
    push_cast
    ring
  have hone : vals Fp.val (NArr.ofElems fun _ : Fin 30 => (1 : Double)) = fun _ => 1 :=
    funext fun i => (ones_double i).2
  obtain ⟨W, hW, -, hE⟩ := C78_double (N := 30)
    (P := Measure.infinitePi fun _ : ℕ => Measure.pi fun _ : Fin 30 =>
      (PMF.uniformOfFintype (Fin 2)).toMeasure)
    (X := fun k ω => ω k) (tw := NArr.ofElems fun _ => 1) (n := n) (by decide) le_rfl le_rfl hg
    (fun k => measurable_pi_apply k) (iIndepFun_infinitePi (X := fun _ x => x) fun _ => measurable_id)
    (fun k => Measure.infinitePi_map_eval _ k)
    (fun i => ⟨(ones_double i).1, by rw [(ones_double i).2]; norm_num⟩) h2
  rw [hone] at hE
  refine ⟨ℕ → Fin 30 → Fin 2, inferInstance, Measure.infinitePi fun _ : ℕ => Measure.pi
    fun _ : Fin 30 => (PMF.uniformOfFintype (Fin 2)).toMeasure,
    fun k ω j => Fp.round (((ω k j * 2 ^ 52 : ℕ) : ℝ) / 2 ^ 53), W, hW, ?_⟩
  exact hE h1

end Aegir.Examples
