import Verif.Lemmas.LearningIter
/-!
# How likely random steps lead far away
-/

namespace Aegir.Examples

open MeasureTheory ProbabilityTheory
open scoped ENNReal

variable {Ω S E : Type} [MeasurableSpace Ω] {P : Measure Ω} [IsProbabilityMeasure P]
  [MeasurableSpace S] [MeasurableSpace E] {X : ℕ → Ω → S} {μ : Measure S} {step : E → S → E}

/-- What grows by a factor of at most `c` per step on average has grown by at most `c ^ n` after `n` steps. -/
theorem mean_grow (hs : Measurable fun p : E × S => step p.1 p.2) (hX : ∀ k, Measurable (X k))
    (hi : iIndepFun X P) (hμ : ∀ k, P.map (X k) = μ) {V : E → ℝ≥0∞} (hV : Measurable V) (c : ℝ≥0∞)
    (hstep : ∀ w, ∫⁻ x, V (step w x) ∂μ ≤ c * V w) (w : E) (n : ℕ) :
    ∫⁻ ω, V (along step w X n ω) ∂P ≤ c ^ n * V w := by
  have hprob : IsProbabilityMeasure μ := hμ 0 ▸ Measure.isProbabilityMeasure_map (hX 0).aemeasurable
  induction n with
  | zero => simp [along]
  | succ n ih =>
    have hW := measurable_along hs hX w n
    have hg : Measurable fun p : E × S => V (step p.1 p.2) := hV.comp hs
    have hmap := (indep_along hs hX hi w n).map_prod_eq_prod_map_map hW.aemeasurable
      (hX n).aemeasurable
    have hpm : IsProbabilityMeasure (P.map (along step w X n)) :=
      Measure.isProbabilityMeasure_map hW.aemeasurable
    calc ∫⁻ ω, V (along step w X (n + 1) ω) ∂P
        = ∫⁻ ω, (fun p : E × S => V (step p.1 p.2)) (along step w X n ω, X n ω) ∂P := by simp only [along_succ]
      _ = ∫⁻ p, V (step p.1 p.2) ∂(P.map (along step w X n)).prod μ := by
          rw [← hμ n, ← hmap, lintegral_map hg (hW.prodMk (hX n))]
      _ = ∫⁻ v, (∫⁻ x, V (step v x) ∂μ) ∂P.map (along step w X n) := lintegral_prod _ hg.aemeasurable
      _ ≤ ∫⁻ v, c * V v ∂P.map (along step w X n) := lintegral_mono fun v => hstep v
      _ = c * ∫⁻ ω, V (along step w X n ω) ∂P := by
          rw [lintegral_const_mul _ hV, lintegral_map hV hW]
      _ ≤ c * (c ^ n * V w) := by gcongr
      _ = c ^ (n + 1) * V w := by rw [pow_succ]; ring

open Classical in
/-- Steps that end in `A`. -/
noncomputable def stopped (A : Set E) (step : E → S → E) (w : E) (x : S) : E :=
  if w ∈ A then w else step w x

omit [MeasurableSpace Ω] [MeasurableSpace S] [MeasurableSpace E] in
theorem along_stopped {A : Set E} (w : E) (n : ℕ) (ω : Ω) :
    (along (stopped A step) w X n ω = along step w X n ω ∧ ∀ k < n, along step w X k ω ∉ A) ∨
      along (stopped A step) w X n ω ∈ A := by
  induction n with
  | zero => exact .inl ⟨rfl, fun k hk => absurd hk (by omega)⟩
  | succ n ih =>
    rw [along_succ, along_succ]
    by_cases hA : along (stopped A step) w X n ω ∈ A
    · right
      rw [stopped, if_pos hA]
      exact hA
    · obtain ⟨h1, h2⟩ := ih.resolve_right hA
      left
      rw [stopped, if_neg hA, h1]
      refine ⟨rfl, fun k hk => ?_⟩
      rcases Nat.lt_succ_iff_lt_or_eq.1 hk with h | rfl
      · exact h2 k h
      · rwa [← h1]

/-- The probability of ever being in `A`, if `V` is at least `L` there and grows by a factor of at most `c`
per step elsewhere. -/
theorem ever_le (hs : Measurable fun p : E × S => step p.1 p.2) (hX : ∀ k, Measurable (X k))
    (hi : iIndepFun X P) (hμ : ∀ k, P.map (X k) = μ) {V : E → ℝ≥0∞} (hV : Measurable V) {c L : ℝ≥0∞}
    (hc : 1 ≤ c) {A : Set E} (hA : MeasurableSet A) (hL : ∀ w ∈ A, L ≤ V w)
    (hstep : ∀ w ∉ A, ∫⁻ x, V (step w x) ∂μ ≤ c * V w) (w : E) (n : ℕ) :
    L * P {ω | ∃ k ≤ n, along step w X k ω ∈ A} ≤ c ^ n * V w := by
  have hprob : IsProbabilityMeasure μ := hμ 0 ▸ Measure.isProbabilityMeasure_map (hX 0).aemeasurable
  have hs' : Measurable fun p : E × S => stopped A step p.1 p.2 :=
    Measurable.ite (measurable_fst hA) measurable_fst hs
  have h := mean_grow hs' hX hi hμ hV c (fun v => by
    by_cases hv : v ∈ A
    · simp only [stopped, if_pos hv, lintegral_const, measure_univ, mul_one]
      exact le_mul_of_one_le_left (by simp) hc
    · simp only [stopped, if_neg hv]
      exact hstep v hv) w n
  refine le_trans ?_ h
  have hm := mul_meas_ge_le_lintegral (μ := P) (hV.comp (measurable_along hs' hX w n)) L
  refine le_trans (mul_le_mul_right (measure_mono fun ω hω => ?_) L) hm
  obtain ⟨k, hk, hkA⟩ := hω
  refine hL _ ?_
  rcases along_stopped (A := A) (step := step) (X := X) w n ω with ⟨h1, h2⟩ | h1
  · rw [h1]
    rcases hk.lt_or_eq with hk | rfl
    · exact absurd hkA (h2 k hk)
    · exact hkA
  · exact h1

end Aegir.Examples
