import Mathlib.Probability.Independence.Basic
import Mathlib.MeasureTheory.Measure.Prod
import Mathlib.MeasureTheory.Measure.Lebesgue.Basic
import Verif.Spec.Learning
/-!
# A quantity that is used up along independent random steps
-/

namespace Aegir.Examples

open MeasureTheory ProbabilityTheory
open scoped ENNReal

section
variable {Ω S E : Type} [MeasurableSpace Ω] {P : Measure Ω} [IsProbabilityMeasure P]
  [MeasurableSpace S] [MeasurableSpace E] {X : ℕ → Ω → S} {μ : Measure S} {step : E → S → E}

/-- Where the first `n` samples lead. -/
def along (step : E → S → E) (w : E) (X : ℕ → Ω → S) (n : ℕ) (ω : Ω) : E :=
  (List.ofFn fun i : Fin n => X i ω).foldl step w

omit [MeasurableSpace Ω] [MeasurableSpace S] [MeasurableSpace E] in
theorem along_succ (w : E) (n : ℕ) (ω : Ω) :
    along step w X (n + 1) ω = step (along step w X n ω) (X n ω) := by
  unfold along
  rw [List.ofFn_succ', List.concat_eq_append, List.foldl_append]
  rfl

omit [MeasurableSpace Ω] [MeasurableSpace S] [MeasurableSpace E] in
theorem along_eq (w : E) (n : ℕ) (ω : Ω) :
    along step w X n ω = ((List.finRange n).map fun i : Fin n => X i ω).foldl step w := by
  unfold along
  rw [List.ofFn_eq_map]

theorem measurable_foldl {Z ι : Type} [MeasurableSpace Z] (hs : Measurable fun p : E × S => step p.1 p.2)
    (Y : ι → Z → S) (hY : ∀ i, Measurable (Y i)) (l : List ι) (W : Z → E) (hW : Measurable W) :
    Measurable fun z => (l.map fun i => Y i z).foldl step (W z) := by
  induction l generalizing W with
  | nil => exact hW
  | cons i l ih => exact ih (fun z => step (W z) (Y i z)) (hs.comp (hW.prodMk (hY i)))

theorem measurable_along (hs : Measurable fun p : E × S => step p.1 p.2) (hX : ∀ k, Measurable (X k))
    (w : E) (n : ℕ) : Measurable (along step w X n) := by
  have := measurable_foldl hs (fun (i : Fin n) ω => X i ω) (fun i => hX i) (List.finRange n)
    (fun _ => w) measurable_const
  rwa [show along step w X n = _ from funext fun ω => along_eq w n ω]

omit [IsProbabilityMeasure P] in
/-- It is independent of the next sample. -/
theorem indep_along (hs : Measurable fun p : E × S => step p.1 p.2) (hX : ∀ k, Measurable (X k))
    (hi : iIndepFun X P) (w : E) (n : ℕ) : IndepFun (along step w X n) (X n) P := by
  have h := hi.indepFun_finset (Finset.range n) {n} (by simp) hX
  have hφ := measurable_foldl (Z := Finset.range n → S) hs
    (fun (i : Fin n) z => z ⟨i, Finset.mem_range.2 i.2⟩) (fun i => measurable_pi_apply _)
    (List.finRange n) (fun _ => w) measurable_const
  have hψ : Measurable fun z : ({n} : Finset ℕ) → S => z ⟨n, Finset.mem_singleton_self n⟩ :=
    measurable_pi_apply _
  refine (h.comp hφ hψ).congr (.of_forall fun ω => ?_) (.of_forall fun ω => rfl)
  exact (along_eq w n ω).symm

/-- What is spent along the way is bounded by what there was in the beginning, and what is added. -/
theorem mean_spent (hs : Measurable fun p : E × S => step p.1 p.2) (hX : ∀ k, Measurable (X k))
    (hi : iIndepFun X P) (hμ : ∀ k, P.map (X k) = μ) {V J : E → ℝ≥0∞} (hV : Measurable V)
    (hJ : Measurable J) (b : ℝ≥0∞) (hstep : ∀ w, (∫⁻ x, V (step w x) ∂μ) + J w ≤ V w + b) (w : E)
    (n : ℕ) : (∫⁻ ω, V (along step w X n ω) ∂P) +
      ∑ k ∈ Finset.range n, ∫⁻ ω, J (along step w X k ω) ∂P ≤ V w + n * b := by
  have hprob : IsProbabilityMeasure μ := hμ 0 ▸ Measure.isProbabilityMeasure_map (hX 0).aemeasurable
  induction n with
  | zero => simp [along]
  | succ n ih =>
    have hW := measurable_along hs hX w n
    have hg : Measurable fun p : E × S => V (step p.1 p.2) := hV.comp hs
    have hmap := (indep_along hs hX hi w n).map_prod_eq_prod_map_map hW.aemeasurable
      (hX n).aemeasurable
    have hpm : IsProbabilityMeasure (P.map (along step w X n)) :=
      Measure.isProbabilityMeasure_map hW.aemeasurable
    have key : (∫⁻ ω, V (along step w X (n + 1) ω) ∂P) + ∫⁻ ω, J (along step w X n ω) ∂P ≤
        (∫⁻ ω, V (along step w X n ω) ∂P) + b :=
      calc (∫⁻ ω, V (along step w X (n + 1) ω) ∂P) + ∫⁻ ω, J (along step w X n ω) ∂P
          = (∫⁻ ω, (fun p : E × S => V (step p.1 p.2)) (along step w X n ω, X n ω) ∂P) +
              ∫⁻ ω, J (along step w X n ω) ∂P := by simp only [along_succ]
        _ = (∫⁻ p, V (step p.1 p.2) ∂(P.map (along step w X n)).prod μ) +
              ∫⁻ v, J v ∂P.map (along step w X n) := by
            rw [← hμ n, ← hmap, lintegral_map hg (hW.prodMk (hX n)), lintegral_map hJ hW]
        _ = ∫⁻ v, ((∫⁻ x, V (step v x) ∂μ) + J v) ∂P.map (along step w X n) := by
            rw [lintegral_prod _ hg.aemeasurable, lintegral_add_right _ hJ]
        _ ≤ ∫⁻ v, (V v + b) ∂P.map (along step w X n) := lintegral_mono fun v => hstep v
        _ = (∫⁻ ω, V (along step w X n ω) ∂P) + b := by
            rw [lintegral_add_right _ measurable_const, lintegral_const, measure_univ, mul_one,
              lintegral_map hV hW]
    calc (∫⁻ ω, V (along step w X (n + 1) ω) ∂P) +
          ∑ k ∈ Finset.range (n + 1), ∫⁻ ω, J (along step w X k ω) ∂P
        = ((∫⁻ ω, V (along step w X (n + 1) ω) ∂P) + ∫⁻ ω, J (along step w X n ω) ∂P) +
            ∑ k ∈ Finset.range n, ∫⁻ ω, J (along step w X k ω) ∂P := by
          rw [Finset.sum_range_succ, add_comm (∑ k ∈ Finset.range n, _), ← add_assoc]
      _ ≤ ((∫⁻ ω, V (along step w X n ω) ∂P) + b) +
            ∑ k ∈ Finset.range n, ∫⁻ ω, J (along step w X k ω) ∂P := by gcongr
      _ = ((∫⁻ ω, V (along step w X n ω) ∂P) +
            ∑ k ∈ Finset.range n, ∫⁻ ω, J (along step w X k ω) ∂P) + b := by ring
      _ ≤ (V w + n * b) + b := by gcongr
      _ = V w + (n + 1 : ℕ) * b := by push_cast; ring

end

/-! ### A coin -/

/-- A uniform number is below `q` with probability `q`. -/
theorem lintegral_coin {q : ℝ} (h0 : 0 ≤ q) (h1 : q ≤ 1) (f : Bool → ℝ≥0∞) :
    ∫⁻ u, f (decide (u < q)) ∂uniform = ENNReal.ofReal q * f true + ENNReal.ofReal (1 - q) * f false := by
  have hm : MeasurableSet (Set.Iio q) := measurableSet_Iio
  have e1 : uniform (Set.Iio q) = ENNReal.ofReal q := by
    rw [uniform, Measure.restrict_apply hm, show Set.Iio q ∩ Set.Icc 0 1 = Set.Ico 0 q by
      ext u; simp only [Set.mem_inter_iff, Set.mem_Iio, Set.mem_Icc, Set.mem_Ico]
      constructor
      · rintro ⟨h, h', -⟩; exact ⟨h', h⟩
      · rintro ⟨h, h'⟩; exact ⟨h', h, by linarith⟩, Real.volume_Ico, sub_zero]
  have e2 : uniform (Set.Iio q)ᶜ = ENNReal.ofReal (1 - q) := by
    rw [uniform, Measure.restrict_apply hm.compl, show (Set.Iio q)ᶜ ∩ Set.Icc 0 1 = Set.Icc q 1 by
      ext u; simp only [Set.mem_inter_iff, Set.mem_compl_iff, Set.mem_Iio, Set.mem_Icc, not_lt]
      constructor
      · rintro ⟨h, -, h'⟩; exact ⟨h, h'⟩
      · rintro ⟨h, h'⟩; exact ⟨h, by linarith, h'⟩, Real.volume_Icc]
  rw [← lintegral_add_compl _ hm, setLIntegral_congr_fun (g := fun _ => f true) hm (fun u hu => by
      simp [Set.mem_Iio.1 hu]),
    setLIntegral_congr_fun (g := fun _ => f false) hm.compl (fun u hu => by
      have : ¬ u < q := hu
      simp [this]), setLIntegral_const, setLIntegral_const, e1, e2, mul_comm, mul_comm (f false)]

end Aegir.Examples
