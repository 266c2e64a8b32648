import Verif.Lemmas.TotalEval
import Verif.Lemmas.Repeat
import Mathlib.Analysis.Calculus.FDeriv.Symmetric
import Mathlib.Analysis.Calculus.ContDiff.Operations
import Mathlib.Analysis.Calculus.Deriv.Abs
import Mathlib.Analysis.SpecialFunctions.Log.Deriv
import Mathlib.Analysis.SpecialFunctions.Pow.Deriv
import Mathlib.Analysis.SpecialFunctions.Trigonometric.Deriv
/-!
# Second derivatives in several entries
-/

namespace Aegir

open Spec

theorem contDiffAt_un {op : UnOp} (hop : op ∈ twiceOps) {x : ℝ} (h : UnOp.SmoothAt op x) :
    ContDiffAt ℝ 2 (op.apply : ℝ → ℝ) x := by
  have hid : ContDiffAt ℝ 2 (fun y : ℝ => y) x := contDiffAt_id
  cases op <;> try simp [twiceOps] at hop
  case subOne => exact hid.sub contDiffAt_const
  case oneSub => exact contDiffAt_const.sub hid
  case addOne => exact hid.add contDiffAt_const
  case square =>
    have h1 : (UnOp.apply .square : ℝ → ℝ) = fun x => x * x := by
      funext y
      show y ^ (1 + 1 : ℝ) = y * y
      rw [one_add_one_eq_two, Real.rpow_two, sq]
    rw [h1]
    exact hid.mul hid
  case double => exact contDiffAt_const.mul hid
  case negate => exact hid.neg
  case abs => exact contDiffAt_abs h
  case ln => exact contDiffAt_id.log (ne_of_gt h)
  case xlnx =>
    have h0 : 0 < x := h
    have h1 : ContDiffAt ℝ 2 (fun y : ℝ => y * Real.log y) x := hid.mul (hid.log h0.ne')
    refine h1.congr_of_eventuallyEq ?_
    filter_upwards [Ioi_mem_nhds h0] with y hy
    have : ¬ y ≤ 0 := not_le.2 hy
    simp [UnOp.apply, ScalarFns.leb, ScalarFns.ln, this]
  case exp => exact Real.contDiff_exp.contDiffAt
  case rabbit => exact hid.mul (contDiffAt_const.sub hid)
  case sigmoid =>
    have hf : (UnOp.apply .sigmoid : ℝ → ℝ) = fun x => 1 / (1 + Real.exp (-x)) := funext sigmoid_eq
    rw [hf]
    exact contDiffAt_const.div (contDiffAt_const.add hid.neg.exp) (by positivity)
  case cos => exact Real.contDiff_cos.contDiffAt
  case sin => exact Real.contDiff_sin.contDiffAt

section
variable {E : Type} [NormedAddCommGroup E] [NormedSpace ℝ E]

theorem contDiffAt_sumOver {K : Dims} {f : Idx → E → ℝ} {x : E}
    (h : ∀ ix, InBounds K ix → ContDiffAt ℝ 2 (f ix) x) :
    ContDiffAt ℝ 2 (fun s => sumOver K (fun ix => f ix s)) x := by
  induction K generalizing f with
  | nil => exact h [] .nil
  | cons d K ih =>
    simp only [sumOver]
    refine ContDiffAt.sum fun i hi => ih fun ix hix => ?_
    exact h (i :: ix) (.cons (Finset.mem_range.1 hi) hix)

theorem den_contDiff {ρ : E → Id → Tensor ℝ} {x₀ : E} {T : Id → Prop}
    (hdims : ∀ x i, (ρ x i).dims = (ρ x₀ i).dims) (hT : ∀ i, ¬ T i → ∀ x, ρ x i = ρ x₀ i)
    (hv : ∀ i ix, InBounds (ρ x₀ i).dims ix → ContDiffAt ℝ 2 (fun x => (ρ x i).val ix) x₀)
    {t₀ : Id} (ht₀ : T t₀) {e : Node ℝ} (h2 : ∀ op n, SubExpr (.un op n) e → op ∈ twiceOps)
    (hc : Compat (ρ x₀) e) (hs : ∀ t, T t → Smooth (ρ x₀) t e) :
    ∀ ix, InBounds (den (ρ x₀) e).dims ix →
      ContDiffAt ℝ 2 (fun x => (den (ρ x) e).val ix) x₀ := by
  have pd : ∀ x n, (den (ρ x) n).dims = (den (ρ x₀) n).dims := fun x n =>
    den_dims_congr (hdims x) n
  induction e with
  | var i => exact hv i
  | varAdj i j =>
    intro ix _
    simp only [den, Tensor.delta, hdims]
    exact contDiffAt_const
  | const τ b => exact fun ix _ => contDiffAt_const
  | constSpec τ s => exact fun ix _ => contDiffAt_const (c := (Tensor.ofSpec s).val ix)
  | constAdj n t ih => exact fun ix _ => contDiffAt_const
  | cached n i ih => exact ih (fun op m h => h2 op m (.step (by simp [children]) h)) hc hs
  | add l r ihl ihr | sub l r ihl ihr | mul l r ihl ihr =>
    intro ix hix
    obtain ⟨bl, br⟩ := bcast_inBounds hc.2.2 hix
    have vl := ihl (fun op m h => h2 op m (.step (by simp [children]) h)) hc.1
      (fun t h => (hs t h).1) _ bl
    have vr := ihr (fun op m h => h2 op m (.step (by simp [children]) h)) hc.2.1
      (fun t h => (hs t h).2) _ br
    simp only [den, Tensor.zip, pd]
    first | exact vl.add vr | exact vl.sub vr | exact vl.mul vr
  | div l r ihl ihr =>
    intro ix hix
    obtain ⟨bl, br⟩ := bcast_inBounds hc.2.2 hix
    have vl := ihl (fun op m h => h2 op m (.step (by simp [children]) h)) hc.1
      (fun t h => (hs t h).1) _ bl
    have vr := ihr (fun op m h => h2 op m (.step (by simp [children]) h)) hc.2.1
      (fun t h => (hs t h).2.1) _ br
    simp only [den, Tensor.zip, pd]
    have h0 := (hs t₀ ht₀).2.2 _ br
    simp only [div_eq_mul_inv]
    exact vl.mul (vr.inv h0)
  | power l r ihl ihr =>
    intro ix hix
    have bl : InBounds (den (ρ x₀) l).dims [] := by rw [hc.2.2.1]; exact .nil
    have br : InBounds (den (ρ x₀) r).dims [] := by rw [hc.2.2.2]; exact .nil
    have vl := ihl (fun op m h => h2 op m (.step (by simp [children]) h)) hc.1
      (fun t h => (hs t h).1) _ bl
    have vr := ihr (fun op m h => h2 op m (.step (by simp [children]) h)) hc.2.1
      (fun t h => (hs t h).2.1) _ br
    show ContDiffAt ℝ 2 (fun x => (den (ρ x) l).val [] ^ (den (ρ x) r).val []) x₀
    by_cases hpos : 0 < (den (ρ x₀) l).val []
    · exact vl.rpow vr hpos.ne'
    · have hno : ∀ t, T t → ¬ Occurs r t := fun t ht =>
        ((hs t ht).2.2.resolve_left hpos).1
      obtain ⟨-, n, hn1, hn, -⟩ := (hs t₀ ht₀).2.2.resolve_left hpos
      have hconst : ∀ x, (den (ρ x) r).val [] = n := fun x => by
        rw [den_congr (ρ' := ρ x₀) r, hn]
        intro i hi
        exact hT i (fun h => hno i h hi) x
      simp only [hconst, Real.rpow_natCast]
      exact vl.pow n
  | contract c l r ihl ihr =>
    have vl := ihl (fun op m h => h2 op m (.step (by simp [children]) h)) hc.1
      (fun t h => (hs t h).1)
    have vr := ihr (fun op m h => h2 op m (.step (by simp [children]) h)) hc.2.1
      (fun t h => (hs t h).2.1)
    generalize hk0 : (if (den (ρ x₀) l).dims = [] ∧ (den (ρ x₀) r).dims = [] then 0 else c) = k0
    have hp : ∃ p q s, q.length = k0 ∧ (den (ρ x₀) l).dims = p ++ q ∧
        (den (ρ x₀) r).dims = q ++ s := by
      rcases hc.2.2 with ⟨h1, h2⟩ | ⟨p, q, s, hq, h1, h2⟩
      · exact ⟨[], [], [], by simpa [h1, h2] using hk0, h1, h2⟩
      · refine ⟨p, q, s, ?_, h1, h2⟩
        rw [← hk0]
        split
        · rename_i h; rw [h.1] at h1; simp_all
        · exact hq
    obtain ⟨p, q, s, hq, hL, hR⟩ := hp
    have e3 : ∀ x, den (ρ x) (.contract c l r) = .contract k0 (den (ρ x) l) (den (ρ x) r) := by
      intro x
      simp only [den, pd x l, pd x r, hk0]
    intro ix hix
    rw [e3, (tcontract_eq hL hR hq).1] at hix
    obtain ⟨i1, i2, h1, h2, rfl⟩ := inBounds_append.1 hix
    have e5 : ∀ x, (den (ρ x) (.contract c l r)).val (i1 ++ i2) = sumOver q fun t' =>
        (den (ρ x) l).val (i1 ++ t') * (den (ρ x) r).val (t' ++ i2) := by
      intro x
      rw [e3 x]
      exact (tcontract_eq ((pd x l).trans hL) ((pd x r).trans hR) hq).2 i1 i2 h1
    simp only [e5]
    refine contDiffAt_sumOver (f := fun t' x => (den (ρ x) l).val (i1 ++ t')
      * (den (ρ x) r).val (t' ++ i2)) fun t' ht' => ?_
    exact (vl _ (by rw [hL]; exact inBounds_append.2 ⟨_, _, h1, ht', rfl⟩)).mul
      (vr _ (by rw [hR]; exact inBounds_append.2 ⟨_, _, ht', h2, rfl⟩))
  | sum n ih =>
    intro ix hix
    have vn := ih (fun op m h => h2 op m (.step (by simp [children]) h)) hc (fun t h => (hs t h).1)
    simp only [den, pd]
    exact contDiffAt_sumOver vn
  | un op n ih =>
    intro ix hix
    have vn := ih (fun op m h => h2 op m (.step (by simp [children]) h)) hc (fun t h => (hs t h).1)
      ix hix
    exact (contDiffAt_un (h2 op n (.refl _)) ((hs t₀ ht₀).2 ix hix)).comp x₀ vn

end

theorem compat_congr {ρ ρ' : Id → Tensor ℝ} (h : ∀ i, (ρ i).dims = (ρ' i).dims) (e : Node ℝ)
    (hc : Compat ρ e) : Compat ρ' e := by
  have pd : ∀ n, (den ρ n).dims = (den ρ' n).dims := den_dims_congr h
  induction e with
  | var | varAdj | const | constSpec | constAdj => trivial
  | cached n i ih => exact ih hc
  | add l r ihl ihr | sub l r ihl ihr | mul l r ihl ihr | div l r ihl ihr
  | power l r ihl ihr | contract k l r ihl ihr =>
    refine ⟨ihl hc.1, ihr hc.2.1, ?_⟩
    rw [← pd l, ← pd r]
    exact hc.2.2
  | sum n ih => exact ih hc
  | un op n ih => exact ih hc

variable {S : Finset (Id × Idx)}

theorem den_perturbAll_dims (ρ : Id → Tensor ℝ) (x : S → ℝ) (e : Node ℝ) :
    (den (perturbAll ρ S x) e).dims = (den ρ e).dims :=
  den_dims_congr (ρ := perturbAll ρ S x) (ρ' := ρ) (fun _ => rfl) e

theorem compat_perturbAll {ρ : Id → Tensor ℝ} {e : Node ℝ} (h : Compat ρ e) (x : S → ℝ) :
    Compat (perturbAll ρ S x) e :=
  compat_congr (ρ := ρ) (ρ' := perturbAll ρ S x) (fun _ => rfl) e h

theorem perturbAll_update (ρ : Id → Tensor ℝ) (x : S → ℝ) (p : S) (s : ℝ) :
    perturbAll ρ S (Function.update x p s) = perturb (perturbAll ρ S x) p.1.1 p.1.2 s := by
  funext i
  unfold perturb
  split_ifs with hi
  · subst hi
    unfold perturbAll
    congr 1
    funext jx
    by_cases hj : jx = p.1.2
    · subst hj
      rw [if_pos rfl, dif_pos p.2]
      simp
    · rw [if_neg hj]
      by_cases hm : (p.1.1, jx) ∈ S
      · have : (⟨(p.1.1, jx), hm⟩ : S) ≠ p := fun h => hj (congrArg (fun q : S => q.1.2) h)
        simp [hm, Function.update_of_ne this]
      · simp [hm]
  · unfold perturbAll
    congr 1
    funext jx
    split_ifs with hm
    · rw [Function.update_of_ne]
      intro h
      exact hi (congrArg (fun q : S => q.1.1) h)
    · rfl

theorem perturbAll_contDiff (ρ : Id → Tensor ℝ) (x₀ : S → ℝ) (i : Id) (ix : Idx) :
    ContDiffAt ℝ 2 (fun x => (perturbAll ρ S x i).val ix) x₀ := by
  unfold perturbAll
  by_cases h : (i, ix) ∈ S
  · simp only [dif_pos h]
    exact contDiffAt_pi.1 contDiffAt_id _
  · simp only [dif_neg h]
    exact contDiffAt_const

theorem perturbAll_other (ρ : Id → Tensor ℝ) {i : Id} (hi : ¬ ∃ K, (i, K) ∈ S) (x y : S → ℝ) :
    perturbAll ρ S x i = perturbAll ρ S y i := by
  unfold perturbAll
  congr 1
  funext ix
  rw [dif_neg fun h => hi ⟨ix, h⟩, dif_neg fun h => hi ⟨ix, h⟩]

/-- Directional derivatives of the denotation along one of the varied entries. -/
theorem den_partial {ρ : Id → Tensor ℝ} {e e' : Node ℝ} {x : S → ℝ} {p : S}
    (ha : e.adjoint p.1.1 = some e') (hc : Compat ρ e) (hc' : Compat ρ e')
    (hs : Smooth (perturbAll ρ S x) p.1.1 e) (hk : InBounds (ρ p.1.1).dims p.1.2) {ix : Idx}
    (hix : InBounds (den ρ e).dims ix)
    (hd : DifferentiableAt ℝ (fun x => (den (perturbAll ρ S x) e).val ix) x) :
    fderiv ℝ (fun x => (den (perturbAll ρ S x) e).val ix) x (Pi.single p 1) =
      (den (perturbAll ρ S x) e').val (ix ++ p.1.2) := by
  have hcurve : HasDerivAt (fun s : ℝ => Function.update x p s) (Pi.single p 1) (x p) :=
    hasDerivAt_update x p (x p)
  have h2 : HasDerivAt (fun s : ℝ => (den (perturbAll ρ S (Function.update x p s)) e).val ix)
      (fderiv ℝ (fun x => (den (perturbAll ρ S x) e).val ix) x (Pi.single p 1)) (x p) := by
    refine HasFDerivAt.comp_hasDerivAt (l := fun x => (den (perturbAll ρ S x) e).val ix) (x p)
      (f := fun s : ℝ => Function.update x p s) ?_ hcurve
    rw [Function.update_eq_self]
    exact hd.hasFDerivAt
  have hx : x p = (perturbAll ρ S x p.1.1).val p.1.2 := by
    simp [perturbAll]
  have h3 := (den_deriv (ρ := perturbAll ρ S x) ha (compat_perturbAll hc _)
    (compat_perturbAll hc' _) hs (K := p.1.2) hk).2 ix (by
      rw [den_perturbAll_dims]; exact hix)
  rw [← hx] at h3
  exact h2.unique (h3.congr_of_eventuallyEq (.of_forall fun s => by beta_reduce; rw [perturbAll_update]))

/-- The mixed second derivatives of the denotation are the second adjoints. -/
theorem den_mixed {ρ : Id → Tensor ℝ} {e et etu : Node ℝ} {x₀ : S → ℝ} {p q : S}
    (h2 : ∀ op n, SubExpr (.un op n) e → op ∈ twiceOps)
    (ht : e.adjoint p.1.1 = some et) (htu : et.adjoint q.1.1 = some etu)
    (hc : Compat ρ e) (hct : Compat ρ et) (hctu : Compat ρ etu)
    (hs : ∀ r ∈ S, Smooth (perturbAll ρ S x₀) r.1 e) (hst : Smooth (perturbAll ρ S x₀) q.1.1 et)
    (hk : InBounds (ρ p.1.1).dims p.1.2) (hl : InBounds (ρ q.1.1).dims q.1.2) {ix : Idx}
    (hix : InBounds (den ρ e).dims ix) :
    fderiv ℝ (fderiv ℝ (fun x => (den (perturbAll ρ S x) e).val ix)) x₀ (Pi.single q 1)
        (Pi.single p 1) = (den (perturbAll ρ S x₀) etu).val (ix ++ p.1.2 ++ q.1.2) := by
  have hC : ContDiffAt ℝ 2 (fun x => (den (perturbAll ρ S x) e).val ix) x₀ :=
    den_contDiff (ρ := fun x => perturbAll ρ S x) (T := fun i => ∃ K, (i, K) ∈ S) (fun _ _ => rfl)
      (fun i hi x => perturbAll_other ρ hi x x₀) (fun i ix _ => perturbAll_contDiff ρ x₀ i ix)
      (t₀ := p.1.1) ⟨p.1.2, p.2⟩ h2 (compat_perturbAll hc _) (fun t ⟨K, hK⟩ => hs _ hK) ix
      (by rw [den_perturbAll_dims]; exact hix)
  have hev := smooth_eventually_all (ρ := fun x => perturbAll ρ S x) (x₀ := x₀)
    (T := fun i => ∃ K, (i, K) ∈ S) (fun _ _ => rfl) (fun i hi x => perturbAll_other ρ hi x x₀)
    (fun i ix _ => (perturbAll_contDiff ρ x₀ i ix).differentiableAt two_ne_zero) (t := p.1.1)
    ⟨p.1.2, p.2⟩ ht (compat_perturbAll hc _) (compat_perturbAll hct _)
    (fun t ⟨K, hK⟩ => hs _ hK)
  have hC1 : DifferentiableAt ℝ (fderiv ℝ (fun x => (den (perturbAll ρ S x) e).val ix)) x₀ :=
    (hC.fderiv_right (m := 1) (by norm_num)).differentiableAt one_ne_zero
  have hev' : ∀ᶠ x in nhds x₀, DifferentiableAt ℝ (fun x => (den (perturbAll ρ S x) e).val ix) x := by
    filter_upwards [hC.eventually (by simp)] with x hx using hx.differentiableAt two_ne_zero
  have heq : (fun x => fderiv ℝ (fun x => (den (perturbAll ρ S x) e).val ix) x (Pi.single p 1))
      =ᶠ[nhds x₀] fun x => (den (perturbAll ρ S x) et).val (ix ++ p.1.2) := by
    filter_upwards [hev, hev'] with x h1 h2
    exact den_partial ht hc hct h1 hk hix h2
  have hF : HasFDerivAt (fun x => fderiv ℝ (fun x => (den (perturbAll ρ S x) e).val ix) x
      (Pi.single p 1)) ((fderiv ℝ (fderiv ℝ (fun x => (den (perturbAll ρ S x) e).val ix)) x₀).flip
        (Pi.single p 1)) x₀ := by
    exact ((ContinuousLinearMap.apply ℝ ℝ (Pi.single p 1 : S → ℝ)).hasFDerivAt.comp x₀ hC1.hasFDerivAt)
  have hF' := hF.congr_of_eventuallyEq heq.symm
  have := den_partial (x := x₀) (p := q) htu hct hctu hst hl (ix := ix ++ p.1.2) (by
    have := (den_deriv (ρ := perturbAll ρ S x₀) ht (compat_perturbAll hc _)
      (compat_perturbAll hct _) (hs p.1 p.2) (K := p.1.2) hk).1
    rw [den_perturbAll_dims, den_perturbAll_dims] at this
    rw [this]
    exact inBounds_append.2 ⟨_, _, hix, hk, rfl⟩) hF'.differentiableAt
  rw [← this, hF'.fderiv]
  rfl

/-- Second adjoints do not depend on the order of differentiation. -/
theorem den_symmetric {ρ : Id → Tensor ℝ} {e et eu etu eut : Node ℝ} {x₀ : S → ℝ} {p q : S}
    (h2 : ∀ op n, SubExpr (.un op n) e → op ∈ twiceOps)
    (ht : e.adjoint p.1.1 = some et) (htu : et.adjoint q.1.1 = some etu)
    (hu : e.adjoint q.1.1 = some eu) (hut : eu.adjoint p.1.1 = some eut)
    (hc : Compat ρ e) (hct : Compat ρ et) (hctu : Compat ρ etu) (hcu : Compat ρ eu)
    (hcut : Compat ρ eut) (hs : ∀ r ∈ S, Smooth (perturbAll ρ S x₀) r.1 e)
    (hst : Smooth (perturbAll ρ S x₀) q.1.1 et) (hsu : Smooth (perturbAll ρ S x₀) p.1.1 eu)
    (hk : InBounds (ρ p.1.1).dims p.1.2) (hl : InBounds (ρ q.1.1).dims q.1.2) {ix : Idx}
    (hix : InBounds (den ρ e).dims ix) :
    (den (perturbAll ρ S x₀) etu).val (ix ++ p.1.2 ++ q.1.2) =
      (den (perturbAll ρ S x₀) eut).val (ix ++ q.1.2 ++ p.1.2) := by
  rw [← den_mixed h2 ht htu hc hct hctu hs hst hk hl hix,
    ← den_mixed h2 hu hut hc hcu hcut hs hsu hl hk hix]
  have hC : ContDiffAt ℝ 2 (fun x => (den (perturbAll ρ S x) e).val ix) x₀ :=
    den_contDiff (ρ := fun x => perturbAll ρ S x) (T := fun i => ∃ K, (i, K) ∈ S) (fun _ _ => rfl)
      (fun i hi x => perturbAll_other ρ hi x x₀) (fun i ix _ => perturbAll_contDiff ρ x₀ i ix)
      (t₀ := p.1.1) ⟨p.1.2, p.2⟩ h2 (compat_perturbAll hc _) (fun t ⟨K, hK⟩ => hs _ hK) ix
      (by rw [den_perturbAll_dims]; exact hix)
  exact hC.isSymmSndFDerivAt (by simp) _ _

end Aegir
