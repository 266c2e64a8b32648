import Verif.Lemmas.Second
/-!
# Evaluated second adjoints
-/

namespace Aegir

open Spec

variable {Γ : Id → BTy} {S : Finset (Id × Idx)}

open Topology Filter in
/-- Near the context, evaluation agrees with the denotation. -/
theorem alongAll_eventually {e e' : Node ℝ} {τ σ : BTy} (hf : CacheFree e) (d : FnImpl Γ e τ)
    (hr : FnImpl.Regular d) {p₀ : Id × Idx} (hp₀ : p₀ ∈ S) (ha : e.adjoint p₀.1 = some e')
    (da : FnImpl Γ e' σ) (hra : FnImpl.Regular da) (c : Ctx ℝ Γ)
    (hc : ∀ i, NeedsId e i → c i ≠ none)
    (hS : ∀ p ∈ S, ∃ b, c p.1 = some b ∧ InBounds (Buf.dims _ b) p.2)
    (hs : ∀ p ∈ S, Smooth (envOf c) p.1 e) :
    perturbAll (envOf c) S (entries c S) = envOf c ∧ ∀ ix, InBounds (den (envOf c) e).dims ix →
      alongAll d c S ix =ᶠ[𝓝 (entries c S)] fun x => (den (perturbAll (envOf c) S x) e).val ix := by
  have hdef : ∀ p ∈ S, c p.1 ≠ none := fun p hp => by
    obtain ⟨b, hb, -⟩ := hS p hp
    simp [hb]
  have htot := fun c h1 (h2 : ∀ p ∈ S, c p.1 ≠ none) =>
    eval_total ha hf d da hr hra c h1 (h2 p₀ hp₀)
  obtain ⟨⟨v, hv⟩, a, hae⟩ := htot c hc hdef
  have hw' : ∀ x, ∃ w, (d.evaluate (setEntries c S x)).1 = .ok w := fun x =>
    (htot _ (fun i hi => setEntries_defined (hc i hi) x)
      (fun p hp => setEntries_defined (hdef p hp) x)).1
  have hcv := compat_of_eval hf d hr hv
  have hca := compat_of_eval (adjoint_cacheFree ha hf) da hra hae
  have hx₀ : entries c S = fun p : S => (envOf c p.1.1).val p.1.2 := by
    funext p
    obtain ⟨b, hb, -⟩ := hS p.1 p.2
    simp only [entries, envOf, hb, Tensor.ofBuf]
  have hself : perturbAll (envOf c) S (entries c S) = envOf c := by
    rw [hx₀]
    funext i
    unfold perturbAll
    have : (fun ix => if h : (i, ix) ∈ S then (fun p : S => (envOf c p.1.1).val p.1.2) ⟨(i, ix), h⟩
        else (envOf c i).val ix) = (envOf c i).val := by
      funext ix
      split_ifs <;> rfl
    rw [this]
  refine ⟨hself, fun ix hix => ?_⟩
  have := smooth_eventually_all (ρ := fun x => perturbAll (envOf c) S x) (x₀ := entries c S)
    (T := fun i => ∃ K, (i, K) ∈ S) (fun _ _ => rfl) (fun i hi x => perturbAll_other _ hi x _)
    (fun i ix _ => (perturbAll_contDiff _ _ i ix).differentiableAt two_ne_zero) (t := p₀.1)
    ⟨p₀.2, hp₀⟩ ha (compat_perturbAll hcv _) (compat_perturbAll hca _)
    (fun t ⟨K, hK⟩ => by rw [hself]; exact hs _ hK)
  filter_upwards [this] with x hsx
  rw [← envOf_setEntries c hS] at hsx ⊢
  obtain ⟨w, hw⟩ := hw' x
  have ht := den_of_eval hf d hr (powSafe_of_smooth hsx) hw
  simp only [alongAll, hw]
  rw [ht.2 ix (by rw [envOf_setEntries c hS, den_perturbAll_dims]; exact hix)]
  rfl

variable {t u : Id} {e et etu : Node ℝ} {τ σt σtu : BTy}

theorem eval_mixed (hf : CacheFree e) (ht : e.adjoint t = some et) (htu : et.adjoint u = some etu)
    (d : FnImpl Γ e τ) (dt : FnImpl Γ et σt) (dtu : FnImpl Γ etu σtu) (hr : FnImpl.Regular d)
    (hrt : FnImpl.Regular dt) (hrtu : FnImpl.Regular dtu) (c : Ctx ℝ Γ)
    (hc : ∀ i, NeedsId e i → c i ≠ none) {bt : Buf ℝ (Γ t)} {bu : Buf ℝ (Γ u)} (hbt : c t = some bt)
    (hbu : c u = some bu) (hst : Smooth (envOf c) t e) (hsu : Smooth (envOf c) u e)
    (hstu : Smooth (envOf c) u et) :
    ∃ v a, (d.evaluate c).1 = .ok v ∧ (dtu.evaluate c).1 = .ok a ∧
      ∀ (S : Finset (Id × Idx)) (ix K L : Idx), InBounds (Buf.dims τ v) ix → InBounds (Buf.dims _ bt) K →
        InBounds (Buf.dims _ bu) L → ∀ p q : S, p.1 = (t, K) → q.1 = (u, L) →
        (∀ r ∈ S, r = (t, K) ∨ r = (u, L)) →
        ContDiffAt ℝ 2 (alongAll d c S ix) (entries c S) ∧
        Buf.getU σtu a (ix ++ K ++ L) = some
          (fderiv ℝ (fderiv ℝ (alongAll d c S ix)) (entries c S) (Pi.single q 1)
            (Pi.single p 1)) := by
  have hft := adjoint_cacheFree ht hf
  have hct : ∀ i, NeedsId et i → c i ≠ none := fun i hi => by
    rcases adjoint_needs ht hi with h | rfl
    · exact hc i h
    · simp [hbt]
  obtain ⟨⟨v, hv⟩, at', hat⟩ := eval_total ht hf d dt hr hrt c hc (by simp [hbt])
  obtain ⟨-, a, ha⟩ := eval_total htu hft dt dtu hrt hrtu c hct (by simp [hbu])
  refine ⟨v, a, hv, ha, fun S ix K L hix hK hL p q hp hq hS => ?_⟩
  have hcv := compat_of_eval hf d hr hv
  have hca := compat_of_eval hft dt hrt hat
  have hcau := compat_of_eval (adjoint_cacheFree htu hft) dtu hrtu ha
  have hdv := den_of_eval hf d hr (powSafe_of_smooth hst) hv
  have hda := den_of_eval (adjoint_cacheFree htu hft) dtu hrtu (powSafe_adjoint htu hstu) ha
  have hix' : InBounds (den (envOf c) e).dims ix := by rw [← hdv.1]; exact hix
  have hK' : InBounds (envOf c t).dims K := by
    have : envOf c t = .ofBuf bt := by simp only [envOf, hbt]
    rw [this]; exact hK
  have hL' : InBounds (envOf c u).dims L := by
    have : envOf c u = .ofBuf bu := by simp only [envOf, hbu]
    rw [this]; exact hL
  have hs : ∀ p ∈ S, Smooth (envOf c) p.1 e := fun p hp => by
    rcases hS p hp with rfl | rfl
    · exact hst
    · exact hsu
  obtain ⟨hself, hden⟩ := alongAll_eventually (S := S) hf d hr (p₀ := (t, K))
    (hp ▸ p.2) ht dt hrt c hc (fun p hp => by
      rcases hS p hp with rfl | rfl
      · exact ⟨bt, hbt, hK⟩
      · exact ⟨bu, hbu, hL⟩) hs
  have h2 := ((twice_iff hf ht).1 ⟨_, htu⟩).2.2
  have hC : ContDiffAt ℝ 2 (fun x => (den (perturbAll (envOf c) S x) e).val ix) (entries c S) :=
    den_contDiff (ρ := fun x => perturbAll (envOf c) S x) (T := fun i => ∃ K, (i, K) ∈ S)
      (fun _ _ => rfl) (fun i hi x => perturbAll_other _ hi x _)
      (fun i ix _ => perturbAll_contDiff _ _ i ix) (t₀ := p.1.1) ⟨p.1.2, p.2⟩ h2
      (compat_perturbAll hcv _) (fun t ⟨K, hK⟩ => by rw [hself]; exact hs _ hK) ix
      (by rw [den_perturbAll_dims]; exact hix')
  refine ⟨hC.congr_of_eventuallyEq (hden ix hix'), ?_⟩
  have h := den_mixed (S := S) (x₀ := entries c S) (p := p) (q := q) h2 (by rw [hp]; exact ht)
    (by rw [hq]; exact htu) hcv hca hcau (by rw [hself]; exact hs) (by rw [hself, hq]; exact hstu)
    (by rw [hp]; exact hK') (by rw [hq]; exact hL') hix'
  rw [((hden ix hix').fderiv).fderiv_eq, h, hself, hp, hq]
  refine hda.2 _ ?_
  rw [(den_deriv htu hca hcau hstu hL').1, (den_deriv ht hcv hca hst hK').1]
  exact inBounds_append.2 ⟨_, _, inBounds_append.2 ⟨_, _, hix', hK', rfl⟩, hL', rfl⟩

end Aegir
