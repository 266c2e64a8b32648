import Verif.Props.C83_LogisticBenches
/-!
# C84: the linear benchmarks (`aegir/benches/linear.rs`) learn

All three programs, in all the dimensions they are run with, in IEEE double precision: nothing panics, no weight
becomes infinite or NaN, and the weights approach the table of true weights.
-/

namespace Aegir.Benches
open Aegir.Examples Aegir.Spec
open MeasureTheory ProbabilityTheory

variable {N : Nat}

/-- The table of true weights (`benches/linear.rs` L34-39, the same as in `benches/logistic.rs`), as written. -/
def trueWeights : List ℚ :=
  [0.5711859870, 0.4909409924, 0.5853200098, 0.1720337856, 0.4465294488, 0.7777692126,
    0.4422984780, 0.2736022852, 0.9573818740, 0.2796223361, 0.7067172602, 0.4888024657,
    0.6255499162, 0.8583838028, 0.6421767298, 0.2412597239, 0.6214162003, 0.1552535872,
    0.1265687185, 0.6177711088]

/-- The constants as the compiler rounds them. -/
noncomputable def rounded : List Double := trueWeights.map fun x : ℚ => Fp.round (x : ℝ)

/-- For any table with entries in the unit interval, and samples drawn uniformly and independently from
`0, 1/m, …, (m - 1)/m`: the three programs end in the same state, with finite weights, and from the 50000th
iteration on the expected distance to the table is below a billionth. -/
theorem C84_learns {Ω : Type} [MeasurableSpace Ω] {P : Measure Ω} [IsProbabilityMeasure P]
    (hN : N ≠ 0) (hN' : N ≤ 30) {m : ℕ} [NeZero m] (hm : 2 ≤ m) {gen : Fin m → Double}
    (hg : ∀ t, (gen t).Finite ∧ (gen t).val = t / m) {X : ℕ → Ω → Fin N → Fin m}
    (hX : ∀ k, Measurable (X k)) (hi : iIndepFun X P)
    (hμ : ∀ k, P.map (X k) = Measure.pi fun _ => (PMF.uniformOfFintype (Fin m)).toMeasure)
    {tw : List Double} (hl : N ≤ tw.length) (ht : ∀ t ∈ tw, t.Finite ∧ 0 ≤ t.val ∧ t.val ≤ 1)
    {n : ℕ} (hn : n ≤ 10 ^ 13) :
    ∃ W : Ω → Fin N → ℝ,
      (∀ ω, ∃ s',
        linearAuto (Fp.round (1 / 100) : Double) tw (init N)
          (List.ofFn fun i : Fin n => NArr.ofElems fun k => gen (X i ω k)) = .ok s' ∧
        linearByHand (Fp.round (1 / 100) : Double) tw (init N)
          (List.ofFn fun i : Fin n => NArr.ofElems fun k => gen (X i ω k)) = .ok s' ∧
        linearRaw (Fp.round (1 / 100) : Double) tw (init N)
          (List.ofFn fun i : Fin n => NArr.ofElems fun k => gen (X i ω k)) = .ok s' ∧
        (∀ i, (s'.w.elem i).Finite) ∧ ∀ i, (s'.w.elem i).val = W ω i) ∧
      Integrable (fun ω => √(dist2 (W ω) fun k => tw[k].val)) P ∧
      (50000 ≤ n → ∫ ω, √(dist2 (W ω) fun k => tw[k].val) ∂P < (1 / 10) ^ 9) := by
  have he : ∀ i : Fin N, (NArr.ofElems fun k : Fin N => tw[k]).elem i = tw[i] :=
    fun i => NArr.row_mkRows (ds := []) _ i
  have hv : vals Fp.val (NArr.ofElems fun k : Fin N => tw[k]) = fun k => tw[k].val := by
    funext i
    simp only [vals]
    rw [he]
  obtain ⟨W, hW, hI, hE⟩ := C78_double (P := P) hN hN' hm hg hX hi hμ (tw := NArr.ofElems fun k : Fin N => tw[k])
    (fun i => by
      rw [hv, he]
      exact ht _ (List.getElem_mem _)) hn
  rw [hv] at hI hE
  refine ⟨W, fun ω => ?_, hI, hE⟩
  obtain ⟨s, h, hf, hw⟩ := hW ω
  obtain ⟨s', h1, h2, h3⟩ := C82_ieee (Fp.round (1 / 100) : Double) tw
    (List.ofFn fun i : Fin n => NArr.ofElems fun k => gen (X i ω k)) (init N)
  have hs : s' = s := by
    have := (C82_example _ tw hl _ _).symm.trans h1
    exact (Res.ok.inj (h.symm.trans this)).symm
  subst hs
  exact ⟨s', h1, h2, h3, hf, fun i => congrFun hw i⟩

theorem trueWeights_mem (x : ℚ) (h : x ∈ trueWeights) : 0 ≤ x ∧ x ≤ 1 := by
  revert x
  decide +kernel

/-- A number of the unit interval is rounded to one, and little is lost. -/
theorem round_unit {x : ℝ} (h0 : 0 ≤ x) (h1 : x ≤ 1) : (Fp.round x : Double).Finite ∧
    0 ≤ (Fp.round x : Double).val ∧ (Fp.round x : Double).val ≤ 1 := by
  have hf : (Fp.round x : Double).Finite :=
    Fp.round_fin (by rw [abs_of_nonneg h0]; exact h1.trans (Fp.one_le_largest (p := 52) (E := 971)))
  have hn := Fp.nearby_round hf
  exact ⟨hf, (hn 0 trivial).1 h0, (hn 1 trivial).2 h1⟩

theorem round_near {x : ℝ} (h0 : 0 ≤ x) (h1 : x ≤ 1) : |(Fp.round x : Double).val - x| ≤ 1 / 2 ^ 53 := by
  rw [Fp.val_round (round_unit h0 h1).1]
  refine (fround_abs x).trans (mul_le_of_le_one_right (by positivity) (max_le ?_ ?_))
  · rwa [abs_of_nonneg h0]
  · exact tiny_double.trans (by norm_num)

theorem rounded_get (k : Fin N) (hN : N ≤ 20) :
    (rounded[k]'(by simp only [rounded, List.length_map]; exact lt_of_lt_of_le k.2 hN)) =
      Fp.round ((trueWeights[k]'(lt_of_lt_of_le k.2 hN) : ℚ) : ℝ) := by
  simp [rounded]
  rfl

/-- A single weight is no further off than all of them. -/
theorem entry_le (a b : Fin N → ℝ) (i : Fin N) : |a i - b i| ≤ √(dist2 a b) := by
  rw [← Real.sqrt_sq_eq_abs]
  refine Real.sqrt_le_sqrt ?_
  unfold dist2
  exact Finset.single_le_sum (f := fun i => (a i - b i) ^ 2) (fun j _ => sq_nonneg _) (Finset.mem_univ i)

/-- The programs as written: the table of the source, rounded, in up to twenty dimensions, the samples being
drawn as `rand` draws them, uniformly from the multiples of `2⁻⁵³` in the unit interval. After 50000
iterations or more, up to ten trillion, all weights are finite, and that some weight is further than
`ε + 2⁻⁵³` from what the source says has probability at most `10⁻⁹ / ε`. -/
theorem C84_bench {Ω : Type} [MeasurableSpace Ω] {P : Measure Ω} [IsProbabilityMeasure P]
    (hN : N ≠ 0) (hN' : N ≤ 20) {m : ℕ} [NeZero m] (hm : m = 2 ^ 53) {X : ℕ → Ω → Fin N → Fin m}
    (hX : ∀ k, Measurable (X k)) (hi : iIndepFun X P)
    (hμ : ∀ k, P.map (X k) = Measure.pi fun _ => (PMF.uniformOfFintype (Fin m)).toMeasure)
    {n : ℕ} (hn : 50000 ≤ n) (hn' : n ≤ 10 ^ 13) :
    ∃ S : Ω → Data Double N, ∀ xs : Ω → List (NArr Double [N]),
      xs = (fun ω => List.ofFn fun i : Fin n => NArr.ofElems fun k => Fp.round ((X i ω k : ℕ) / 2 ^ 53)) →
      (∀ ω, linearAuto (Fp.round (1 / 100)) rounded (init N) (xs ω) = .ok (S ω) ∧
        linearByHand (Fp.round (1 / 100)) rounded (init N) (xs ω) = .ok (S ω) ∧
        linearRaw (Fp.round (1 / 100)) rounded (init N) (xs ω) = .ok (S ω) ∧
        ∀ i, ((S ω).w.elem i).Finite) ∧
      ∀ ε : ℝ, 0 < ε →
        P.real {ω | ∃ i : Fin N, ε + 1 / 2 ^ 53 ≤
            |((S ω).w.elem i).val - (trueWeights[i]'(lt_of_lt_of_le i.2 hN') : ℚ)|} ≤
          (1 / 10) ^ 9 / ε := by
  have hg : ∀ t : Fin m, (Fp.round ((t : ℕ) / 2 ^ 53) : Double).Finite ∧
      (Fp.round ((t : ℕ) / 2 ^ 53) : Double).val = (t : ℕ) / m := fun t => by
    have := C78_drawn t (hm ▸ t.2)
    refine ⟨this.1, this.2.trans ?_⟩
    rw [show (m : ℝ) = 2 ^ 53 by rw [hm]; norm_num]
  have hu : ∀ x ∈ trueWeights, (0 : ℝ) ≤ (x : ℝ) ∧ (x : ℝ) ≤ 1 := fun x hx => by
    have := trueWeights_mem x hx
    exact ⟨by exact_mod_cast this.1, by exact_mod_cast this.2⟩
  obtain ⟨W, hW, hI, hE⟩ := C84_learns (P := P) hN (hN'.trans (by norm_num))
    (by rw [hm]; exact Nat.le_self_pow (by norm_num) 2) hg hX hi hμ (tw := rounded) (N := N)
    (by simpa [rounded, trueWeights] using hN') (fun t h => by
      obtain ⟨x, hx, rfl⟩ := List.mem_map.1 h
      exact round_unit (hu x hx).1 (hu x hx).2) hn'
  choose S hS using hW
  refine ⟨S, ?_⟩
  rintro _ rfl
  refine ⟨fun ω => ⟨(hS ω).1, (hS ω).2.1, (hS ω).2.2.1, (hS ω).2.2.2.1⟩, fun ε hε => ?_⟩
  have hM := mul_meas_ge_le_integral_of_nonneg (μ := P) (f := fun ω => √(dist2 (W ω) fun k => rounded[k].val))
    (Filter.Eventually.of_forall fun ω => Real.sqrt_nonneg _) hI ε
  rw [le_div_iff₀ hε, mul_comm]
  refine le_trans (mul_le_mul_of_nonneg_left (measureReal_mono ?_) hε.le) (hM.trans (hE hn).le)
  rintro ω ⟨i, h⟩
  have hx := hu (trueWeights[i]'(lt_of_lt_of_le i.2 hN')) (List.getElem_mem _)
  have h1 := round_near hx.1 hx.2
  have h2 := entry_le (W ω) (fun k : Fin N => (rounded[k]'(by
    simp only [rounded, List.length_map]; exact lt_of_lt_of_le k.2 hN')).val) i
  simp only [rounded_get i hN'] at h2
  rw [(hS ω).2.2.2.2 i] at h
  have h3 := abs_sub_le (W ω i) (Fp.round ((trueWeights[i]'(lt_of_lt_of_le i.2 hN') : ℚ) : ℝ) : Double).val
    ((trueWeights[i]'(lt_of_lt_of_le i.2 hN') : ℚ) : ℝ)
  exact le_trans (by linarith) h2

/-- There is such a sequence of draws, in each dimension the programs are run with, so after their million
iterations (`benches/linear.rs` L52) all weights are correct to six digits with probability 0.999. -/
example {N : ℕ} (h : N ∈ [2, 5, 10, 20]) {m : ℕ} [NeZero m] (hm : m = 2 ^ 53) :
    ∃ (Ω : Type) (_ : MeasurableSpace Ω) (P : Measure Ω) (xs : Ω → List (NArr Double [N]))
      (S : Ω → Data Double N), IsProbabilityMeasure P ∧
      (∀ ω, linearAuto (Fp.round (1 / 100)) rounded (init N) (xs ω) = .ok (S ω) ∧ (xs ω).length = 1000000) ∧
      P.real {ω | ∃ i : Fin N, 1 / 10 ^ 6 + 1 / 2 ^ 53 ≤
        |((S ω).w.elem i).val - ((trueWeights[i]?).getD 0 : ℚ)|} ≤ 1 / 1000 := by
  have hN : N ≠ 0 ∧ N ≤ 20 := by
    simp only [List.mem_cons, List.not_mem_nil, or_false] at h
    omega
  obtain ⟨S, hS⟩ := C84_bench (Ω := ℕ → Fin N → Fin m) (n := 1000000) (P := Measure.infinitePi fun _ : ℕ => Measure.pi fun _ : Fin N =>
      (PMF.uniformOfFintype (Fin m)).toMeasure) (X := fun k ω => ω k) hN.1 hN.2 hm
    (fun k => measurable_pi_apply k) (iIndepFun_infinitePi (X := fun _ x => x) fun _ => measurable_id)
    (fun k => Measure.infinitePi_map_eval _ k) (by norm_num) (by norm_num)
  obtain ⟨h1, h2⟩ := hS _ rfl
  refine ⟨ℕ → Fin N → Fin m, inferInstance, Measure.infinitePi fun _ : ℕ =>
    Measure.pi fun _ : Fin N => (PMF.uniformOfFintype (Fin m)).toMeasure, _, S, ?_, fun ω => ⟨(h1 ω).1, List.length_ofFn⟩, ?_⟩
  · infer_instance
  refine le_trans (le_of_eq ?_) ((h2 (1 / 10 ^ 6) (by norm_num)).trans (by norm_num))
  congr 1
  ext ω
  simp only [Set.mem_ofPred_eq]
  refine exists_congr fun i => ?_
  have : trueWeights[(i : ℕ)]? = some (trueWeights[i]'(lt_of_lt_of_le i.2 hN.2)) :=
    List.getElem?_eq_getElem _
  rw [show trueWeights[i]? = trueWeights[(i : ℕ)]? from rfl, this]
  rfl

end Aegir.Benches
