import Verif.Spec.TotalDeriv
import Verif.Lemmas.Calculus
import Verif.Lemmas.CalculusEval
import Mathlib.Analysis.Calculus.FDeriv.Pi
import Mathlib.Analysis.Calculus.FDeriv.Mul
import Mathlib.Analysis.Calculus.Deriv.Pi
import Mathlib.Analysis.SpecialFunctions.Pow.Deriv
/-!
# Joint differentiability
-/

namespace Aegir

open Spec

section
variable {E : Type} [NormedAddCommGroup E] [NormedSpace ℝ E]

theorem differentiableAt_sumOver {K : Dims} {f : Idx → E → ℝ} {x : E}
    (h : ∀ ix, InBounds K ix → DifferentiableAt ℝ (f ix) x) :
    DifferentiableAt ℝ (fun s => sumOver K (fun ix => f ix s)) x := by
  induction K generalizing f with
  | nil => exact h [] .nil
  | cons d K ih =>
    simp only [sumOver]
    refine DifferentiableAt.fun_sum fun i hi => ih fun ix hix => ?_
    exact h (i :: ix) (.cons (Finset.mem_range.1 hi) hix)

theorem den_differentiable {ρ : E → Id → Tensor ℝ} {x₀ : E} {T : Id → Prop}
    (hdims : ∀ x i, (ρ x i).dims = (ρ x₀ i).dims) (hT : ∀ i, ¬ T i → ∀ x, ρ x i = ρ x₀ i)
    (hv : ∀ i ix, InBounds (ρ x₀ i).dims ix → DifferentiableAt ℝ (fun x => (ρ x i).val ix) x₀)
    {t₀ : Id} (ht₀ : T t₀) {e e' : Node ℝ} (ha : e.adjoint t₀ = some e') (hc : Compat (ρ x₀) e)
    (hc' : Compat (ρ x₀) e') (hs : ∀ t, T t → Smooth (ρ x₀) t e) :
    ∀ ix, InBounds (den (ρ x₀) e).dims ix →
      DifferentiableAt ℝ (fun x => (den (ρ x) e).val ix) x₀ := by
  have pd : ∀ x n, (den (ρ x) n).dims = (den (ρ x₀) n).dims := fun x n =>
    den_dims_congr (hdims x) n
  induction e generalizing e' with
  | var i => exact hv i
  | varAdj i j =>
    intro ix _
    simp only [den, Tensor.delta, hdims]
    exact differentiableAt_const _
  | const τ b => exact fun ix _ => differentiableAt_const ((Tensor.ofBuf b).val ix)
  | constSpec τ s => exact fun ix _ => differentiableAt_const ((Tensor.ofSpec s).val ix)
  | constAdj n t ih => exact fun ix _ => differentiableAt_const (0 : ℝ)
  | cached n i ih =>
    obtain ⟨n', hn', hcn'⟩ := adjoint_children ha hc' (n := n) (by simp [children])
    exact ih hn' hc hcn' hs
  | add l r ihl ihr | sub l r ihl ihr | mul l r ihl ihr =>
    obtain ⟨l', hl', hcl'⟩ := adjoint_children ha hc' (n := l) (by simp [children])
    obtain ⟨r', hr', hcr'⟩ := adjoint_children ha hc' (n := r) (by simp [children])
    intro ix hix
    obtain ⟨bl, br⟩ := bcast_inBounds hc.2.2 hix
    have vl := ihl hl' hc.1 hcl' (fun t h => (hs t h).1) _ bl
    have vr := ihr hr' hc.2.1 hcr' (fun t h => (hs t h).2) _ br
    simp only [den, Tensor.zip, pd]
    first | exact vl.add vr | exact vl.sub vr | exact vl.mul vr
  | div l r ihl ihr =>
    obtain ⟨l', hl', hcl'⟩ := adjoint_children ha hc' (n := l) (by simp [children])
    obtain ⟨r', hr', hcr'⟩ := adjoint_children ha hc' (n := r) (by simp [children])
    intro ix hix
    obtain ⟨bl, br⟩ := bcast_inBounds hc.2.2 hix
    have vl := ihl hl' hc.1 hcl' (fun t h => (hs t h).1) _ bl
    have vr := ihr hr' hc.2.1 hcr' (fun t h => (hs t h).2.1) _ br
    simp only [den, Tensor.zip, pd]
    have h0 := (hs t₀ ht₀).2.2 _ br
    simp only [div_eq_mul_inv]
    exact vl.mul (vr.inv h0)
  | power l r ihl ihr =>
    obtain ⟨l', hl', hcl'⟩ := adjoint_children ha hc' (n := l) (by simp [children])
    obtain ⟨r', hr', hcr'⟩ := adjoint_children ha hc' (n := r) (by simp [children])
    intro ix hix
    have bl : InBounds (den (ρ x₀) l).dims [] := by rw [hc.2.2.1]; exact .nil
    have br : InBounds (den (ρ x₀) r).dims [] := by rw [hc.2.2.2]; exact .nil
    have vl := ihl hl' hc.1 hcl' (fun t h => (hs t h).1) _ bl
    have vr := ihr hr' hc.2.1 hcr' (fun t h => (hs t h).2.1) _ br
    show DifferentiableAt ℝ (fun x => (den (ρ x) l).val [] ^ (den (ρ x) r).val []) x₀
    by_cases hpos : 0 < (den (ρ x₀) l).val []
    · exact vl.rpow vr hpos.ne'
    · have hno : ∀ t, T t → ¬ Occurs r t := fun t ht =>
        ((hs t ht).2.2.resolve_left hpos).1
      obtain ⟨-, n, hn1, hn, -⟩ := (hs t₀ ht₀).2.2.resolve_left hpos
      have hconst : ∀ x, (den (ρ x) r).val [] = n := fun x => by
        rw [den_congr (ρ' := ρ x₀) r, hn]
        intro i hi
        exact hT i (fun h => hno i h hi) x
      simp only [hconst, Real.rpow_natCast]
      exact vl.pow n
  | contract c l r ihl ihr =>
    obtain ⟨l', hl', hcl'⟩ := adjoint_children ha hc' (n := l) (by simp [children])
    obtain ⟨r', hr', hcr'⟩ := adjoint_children ha hc' (n := r) (by simp [children])
    have vl := ihl hl' hc.1 hcl' (fun t h => (hs t h).1)
    have vr := ihr hr' hc.2.1 hcr' (fun t h => (hs t h).2.1)
    generalize hk0 : (if (den (ρ x₀) l).dims = [] ∧ (den (ρ x₀) r).dims = [] then 0 else c) = k0
    have hp : ∃ p q s, q.length = k0 ∧ (den (ρ x₀) l).dims = p ++ q ∧
        (den (ρ x₀) r).dims = q ++ s := by
      rcases hc.2.2 with ⟨h1, h2⟩ | ⟨p, q, s, hq, h1, h2⟩
      · exact ⟨[], [], [], by simpa [h1, h2] using hk0, h1, h2⟩
      · refine ⟨p, q, s, ?_, h1, h2⟩
        rw [← hk0]
        split
        · rename_i h; rw [h.1] at h1; simp_all
        · exact hq
    obtain ⟨p, q, s, hq, hL, hR⟩ := hp
    have e3 : ∀ x, den (ρ x) (.contract c l r) = .contract k0 (den (ρ x) l) (den (ρ x) r) := by
      intro x
      simp only [den, pd x l, pd x r, hk0]
    intro ix hix
    rw [e3, (tcontract_eq hL hR hq).1] at hix
    obtain ⟨i1, i2, h1, h2, rfl⟩ := inBounds_append.1 hix
    have e5 : ∀ x, (den (ρ x) (.contract c l r)).val (i1 ++ i2) = sumOver q fun t' =>
        (den (ρ x) l).val (i1 ++ t') * (den (ρ x) r).val (t' ++ i2) := by
      intro x
      rw [e3 x]
      exact (tcontract_eq ((pd x l).trans hL) ((pd x r).trans hR) hq).2 i1 i2 h1
    simp only [e5]
    refine differentiableAt_sumOver (f := fun t' x => (den (ρ x) l).val (i1 ++ t')
      * (den (ρ x) r).val (t' ++ i2)) fun t' ht' => ?_
    exact (vl _ (by rw [hL]; exact inBounds_append.2 ⟨_, _, h1, ht', rfl⟩)).mul
      (vr _ (by rw [hR]; exact inBounds_append.2 ⟨_, _, ht', h2, rfl⟩))
  | sum n ih =>
    obtain ⟨n', hn', hcn'⟩ := adjoint_children ha hc' (n := n) (by simp [children])
    intro ix hix
    have vn := ih hn' hc hcn' (fun t h => (hs t h).1)
    simp only [den, pd]
    exact differentiableAt_sumOver vn
  | un op n ih =>
    obtain ⟨hop, -⟩ := adjoint_un ha
    obtain ⟨n', hn', hcn'⟩ := adjoint_children ha hc' (n := n) (by simp [children])
    intro ix hix
    have vn := ih hn' hc hcn' (fun t h => (hs t h).1) ix hix
    exact (hasDerivAt_un op hop _ ((hs t₀ ht₀).2 ix hix)).differentiableAt.comp x₀ vn

end

variable {S : Finset (Id × Idx)}

theorem linear_apply (g v : S → ℝ) : linear g v = ∑ p, g p * v p := by
  simp [linear]

/-- The total derivative of the denotation: its coefficients are the entries of the adjoints. -/
theorem den_total {ρ : Id → Tensor ℝ} {e : Node ℝ} {adj : Id → Node ℝ}
    (ha : ∀ p ∈ S, e.adjoint p.1 = some (adj p.1)) (hc : Compat ρ e)
    (hc' : ∀ p ∈ S, Compat ρ (adj p.1)) (hs : ∀ p ∈ S, Smooth ρ p.1 e)
    (hk : ∀ p ∈ S, InBounds (ρ p.1).dims p.2) {ix : Idx} (hix : InBounds (den ρ e).dims ix) :
    HasFDerivAt (fun x => (den (perturbAll ρ S x) e).val ix)
      (linear fun p : S => (den ρ (adj p.1.1)).val (ix ++ p.1.2))
      (fun p : S => (ρ p.1.1).val p.1.2) := by
  set x₀ : S → ℝ := fun p : S => (ρ p.1.1).val p.1.2 with hx₀
  have hself : perturbAll ρ S x₀ = ρ := by
    funext i
    unfold perturbAll
    have : (fun ix => if h : (i, ix) ∈ S then x₀ ⟨(i, ix), h⟩ else (ρ i).val ix) = (ρ i).val := by
      funext ix
      split_ifs <;> rfl
    rw [this]
  by_cases hS : S.Nonempty
  · obtain ⟨p₀, hp₀⟩ := hS
    have hdiff : DifferentiableAt ℝ (fun x => (den (perturbAll ρ S x) e).val ix) x₀ := by
      refine den_differentiable (ρ := fun x => perturbAll ρ S x) (T := fun i => ∃ K, (i, K) ∈ S)
        (fun _ _ => rfl) (fun i hi x => ?_) (fun i ix _ => ?_) (t₀ := p₀.1) ⟨p₀.2, hp₀⟩
        (ha p₀ hp₀) (by rw [hself]; exact hc) (by rw [hself]; exact hc' p₀ hp₀)
        (fun t ⟨K, hK⟩ => by rw [hself]; exact hs _ hK) ix (by rw [hself]; exact hix)
      · unfold perturbAll
        congr 1
        funext ix
        rw [dif_neg fun h => hi ⟨ix, h⟩, dif_neg fun h => hi ⟨ix, h⟩]
      · unfold perturbAll
        by_cases h : (i, ix) ∈ S
        · simp only [dif_pos h]
          exact differentiableAt_apply _ _
        · simp only [dif_neg h]
          exact differentiableAt_const _
    have hF := hdiff.hasFDerivAt
    refine hF.congr_fderiv ?_
    have hbasis : ∀ p : S, fderiv ℝ (fun x => (den (perturbAll ρ S x) e).val ix) x₀ (Pi.single p 1)
        = (den ρ (adj p.1.1)).val (ix ++ p.1.2) := by
      intro p
      have hcurve : HasDerivAt (fun s : ℝ => Function.update x₀ p s) (Pi.single p 1) (x₀ p) :=
        hasDerivAt_update x₀ p (x₀ p)
      have h2 : HasDerivAt (fun s : ℝ => (den (perturbAll ρ S (Function.update x₀ p s)) e).val ix)
          (fderiv ℝ (fun x => (den (perturbAll ρ S x) e).val ix) x₀ (Pi.single p 1)) (x₀ p) := by
        refine HasFDerivAt.comp_hasDerivAt (l := fun x => (den (perturbAll ρ S x) e).val ix) (x₀ p)
          (f := fun s : ℝ => Function.update x₀ p s) ?_ hcurve
        rw [Function.update_eq_self]
        exact hF
      have h3 := (den_deriv (ha p.1 p.2) hc (hc' p.1 p.2) (hs p.1 p.2) (hk p.1 p.2)).2 ix hix
      refine h2.unique (h3.congr_of_eventuallyEq (.of_forall fun s => ?_))
      have : perturbAll ρ S (Function.update x₀ p s) = perturb ρ p.1.1 p.1.2 s := by
        funext i
        unfold perturbAll perturb
        by_cases hi : i = p.1.1
        · subst hi
          rw [if_pos rfl]
          congr 1
          funext jx
          by_cases hj : jx = p.1.2
          · subst hj
            rw [if_pos rfl, dif_pos p.2]
            simp
          · rw [if_neg hj]
            split_ifs with hm
            · rw [Function.update_of_ne]
              intro h
              exact hj (congrArg (fun q : S => q.1.2) h)
            · rfl
        · rw [if_neg hi]
          have : (fun ix => if h : (i, ix) ∈ S then Function.update x₀ p s ⟨(i, ix), h⟩
              else (ρ i).val ix) = (ρ i).val := by
            funext jx
            split_ifs with hm
            · rw [Function.update_of_ne]
              intro h
              exact hi (congrArg (fun q : S => q.1.1) h)
            · rfl
          rw [this]
      simp only [this]
    ext1 v
    rw [linear_apply]
    conv_lhs => rw [← Finset.univ_sum_single v]
    rw [map_sum]
    refine Finset.sum_congr rfl fun p _ => ?_
    have : Pi.single p (v p) = v p • (Pi.single p (1 : ℝ) : S → ℝ) := by
      rw [← Pi.single_smul, smul_eq_mul, mul_one]
    rw [this, map_smul, hbasis, smul_eq_mul, mul_comm]
  · rw [Finset.not_nonempty_iff_eq_empty] at hS
    subst hS
    have : IsEmpty ((∅ : Finset (Id × Idx)) : Type) := by infer_instance
    refine (hasFDerivAt_of_subsingleton _ _).congr_fderiv (Subsingleton.elim _ _)

end Aegir
