import Verif.Lemmas.TotalDeriv
import Verif.Lemmas.EvalDeriv
import Mathlib.Analysis.Calculus.Deriv.Slope
/-!
# The total derivative of an evaluation
-/

namespace Aegir

open Spec

section
variable {E : Type} [NormedAddCommGroup E] [NormedSpace ℝ E]

open Topology Filter in
/-- Smoothness persists for nearby environments. -/
theorem smooth_eventually_all {ρ : E → Id → Tensor ℝ} {x₀ : E} {T : Id → Prop}
    (hdims : ∀ x i, (ρ x i).dims = (ρ x₀ i).dims) (hT : ∀ i, ¬ T i → ∀ x, ρ x i = ρ x₀ i)
    (hv : ∀ i ix, InBounds (ρ x₀ i).dims ix → DifferentiableAt ℝ (fun x => (ρ x i).val ix) x₀)
    {t : Id} (ht : T t) {e e' : Node ℝ} (ha : e.adjoint t = some e') (hc : Compat (ρ x₀) e)
    (hc' : Compat (ρ x₀) e') (hs : ∀ t, T t → Smooth (ρ x₀) t e) :
    ∀ᶠ x in 𝓝 x₀, Smooth (ρ x) t e := by
  have pd : ∀ x n, (den (ρ x) n).dims = (den (ρ x₀) n).dims := fun x n =>
    den_dims_congr (hdims x) n
  have ev : ∀ {n n' : Node ℝ}, n.adjoint t = some n' → Compat (ρ x₀) n → Compat (ρ x₀) n' →
      (∀ t, T t → Smooth (ρ x₀) t n) → ∀ {ix : Idx}, InBounds (den (ρ x₀) n).dims ix →
      ∀ {p : ℝ → Prop}, (∀ᶠ y in 𝓝 ((den (ρ x₀) n).val ix), p y) →
      ∀ᶠ x in 𝓝 x₀, p ((den (ρ x) n).val ix) := by
    intro n n' h1 h2 h3 h4 ix hix p hp
    exact (den_differentiable hdims hT hv ht h1 h2 h3 h4 ix hix).continuousAt.eventually hp
  induction e generalizing e' with
  | var | varAdj | const | constSpec => exact .of_forall fun _ => trivial
  | constAdj => cases ha
  | cached n i ih =>
    obtain ⟨n', hn', hcn'⟩ := adjoint_children ha hc' (n := n) (by simp [children])
    exact ih hn' hc hcn' hs
  | sum n ih =>
    obtain ⟨n', hn', hcn'⟩ := adjoint_children ha hc' (n := n) (by simp [children])
    filter_upwards [ih hn' hc hcn' (fun t h => (hs t h).1)] with x hsn
    exact ⟨hsn, by rw [pd]; exact (hs t ht).2⟩
  | un op n ih =>
    obtain ⟨n', hn', hcn'⟩ := adjoint_children ha hc' (n := n) (by simp [children])
    have hs1 := fun t h => (hs t h).1
    have : ∀ᶠ x in 𝓝 x₀, ∀ ix, InBounds (den (ρ x₀) n).dims ix →
        UnOp.SmoothAt op ((den (ρ x) n).val ix) :=
      eventually_inBounds fun ix hix => ev hn' hc hcn' hs1 hix (smoothAt_open op ((hs t ht).2 ix hix))
    filter_upwards [ih hn' hc hcn' hs1, this] with x hsn hop
    exact ⟨hsn, by rw [pd]; exact hop⟩
  | add l r ihl ihr | sub l r ihl ihr | mul l r ihl ihr =>
    obtain ⟨l', hl', hcl'⟩ := adjoint_children ha hc' (n := l) (by simp [children])
    obtain ⟨r', hr', hcr'⟩ := adjoint_children ha hc' (n := r) (by simp [children])
    filter_upwards [ihl hl' hc.1 hcl' (fun t h => (hs t h).1),
      ihr hr' hc.2.1 hcr' (fun t h => (hs t h).2)] with x h1 h2
    exact ⟨h1, h2⟩
  | div l r ihl ihr =>
    obtain ⟨l', hl', hcl'⟩ := adjoint_children ha hc' (n := l) (by simp [children])
    obtain ⟨r', hr', hcr'⟩ := adjoint_children ha hc' (n := r) (by simp [children])
    have hsr := fun t h => (hs t h).2.1
    have : ∀ᶠ x in 𝓝 x₀, ∀ ix, InBounds (den (ρ x₀) r).dims ix → (den (ρ x) r).val ix ≠ 0 :=
      eventually_inBounds fun ix hix =>
        ev hr' hc.2.1 hcr' hsr hix (isOpen_ne.mem_nhds ((hs t ht).2.2 ix hix))
    filter_upwards [ihl hl' hc.1 hcl' (fun t h => (hs t h).1), ihr hr' hc.2.1 hcr' hsr, this]
      with x h1 h2 h3
    exact ⟨h1, h2, by rw [pd]; exact h3⟩
  | power l r ihl ihr =>
    obtain ⟨l', hl', hcl'⟩ := adjoint_children ha hc' (n := l) (by simp [children])
    obtain ⟨r', hr', hcr'⟩ := adjoint_children ha hc' (n := r) (by simp [children])
    have hsl := fun t h => (hs t h).1
    have hix : InBounds (den (ρ x₀) l).dims [] := by rw [hc.2.2.1]; exact .nil
    have : ∀ᶠ x in 𝓝 x₀, 0 < (den (ρ x) l).val [] ∨
        ¬ Occurs r t ∧ ∃ n : ℕ, 1 ≤ n ∧ (den (ρ x) r).val [] = n ∧
          (EvalExplicit l ∨ (den (ρ x) l).val [] ≠ 0 ∨ 2 ≤ n) := by
      by_cases hpos : 0 < (den (ρ x₀) l).val []
      · exact (ev hl' hc.1 hcl' hsl hix (lt_mem_nhds hpos)).mono fun x h => .inl h
      · have hno : ∀ t, T t → ¬ Occurs r t := fun t ht => ((hs t ht).2.2.resolve_left hpos).1
        obtain ⟨ho, n, hn, hv, hb⟩ := (hs t ht).2.2.resolve_left hpos
        have hv' : ∀ x, (den (ρ x) r).val [] = n := fun x => by
          rw [den_congr (ρ' := ρ x₀) r fun i hi => hT i (fun h => hno i h hi) x, hv]
        rcases hb with he | hb | h2
        · exact .of_forall fun x => .inr ⟨ho, n, hn, hv' x, .inl he⟩
        · exact (ev hl' hc.1 hcl' hsl hix (isOpen_ne.mem_nhds hb)).mono
            fun x h => .inr ⟨ho, n, hn, hv' x, .inr (.inl h)⟩
        · exact .of_forall fun x => .inr ⟨ho, n, hn, hv' x, .inr (.inr h2)⟩
    filter_upwards [ihl hl' hc.1 hcl' hsl, ihr hr' hc.2.1 hcr' (fun t h => (hs t h).2.1), this]
      with x h1 h2 h3
    exact ⟨h1, h2, h3⟩
  | contract k l r ihl ihr =>
    obtain ⟨l', hl', hcl'⟩ := adjoint_children ha hc' (n := l) (by simp [children])
    obtain ⟨r', hr', hcr'⟩ := adjoint_children ha hc' (n := r) (by simp [children])
    filter_upwards [ihl hl' hc.1 hcl' (fun t h => (hs t h).1),
      ihr hr' hc.2.1 hcr' (fun t h => (hs t h).2.1)] with x h1 h2
    refine ⟨h1, h2, ?_⟩
    simp only [pd x, hdims x]
    rcases (hs t ht).2.2 with h | h | h | ⟨h, h', h''⟩
    · exact .inl h
    · exact .inr (.inl h)
    · exact .inr (.inr (.inl h))
    · exact .inr (.inr (.inr ⟨h, h', affine_congr (fun i => (hdims x i).symm) h''⟩))

end

variable {Γ : Id → BTy} {S : Finset (Id × Idx)}

/-- Changing entries in the context changes those entries of the tensors of the context. -/
theorem envOf_setEntries (c : Ctx ℝ Γ)
    (hS : ∀ p ∈ S, ∃ b, c p.1 = some b ∧ InBounds (Buf.dims _ b) p.2) (x : S → ℝ) :
    envOf (setEntries c S x) = perturbAll (envOf c) S x := by
  funext i
  unfold perturbAll
  cases hci : c i with
  | none =>
    have hno : ∀ ix, (i, ix) ∉ S := fun ix h => by
      obtain ⟨b, hb, -⟩ := hS _ h
      simp [hci] at hb
    simp [envOf, setEntries, hci, hno, Tensor.const]
  | some b =>
    simp only [envOf, setEntries, hci, Option.map_some, Tensor.ofBuf]
    have hd : ∀ f : Idx → ℝ, Buf.dims (Γ i) (Buf.build (Γ i) (Buf.shape (Γ i) b) f)
        = Buf.dims (Γ i) b := fun f => by
      unfold Buf.dims
      rw [Buf.shape_build]
    congr 1
    · exact hd _
    · funext ix
      by_cases hix : InBounds (Buf.dims _ b) ix
      · rw [Buf.getU_build _ _ _ _ hix]
        rfl
      · have hno : (i, ix) ∉ S := fun h => by
          obtain ⟨b', hb, hi⟩ := hS _ h
          rw [hci] at hb
          cases hb
          exact hix hi
        have h3 : Buf.getU _ b ix = none := by
          by_contra h
          exact hix ((Buf.getU_isSome_iff _ _ _).1 (Option.isSome_iff_ne_none.2 h))
        have h4 : ∀ f, Buf.getU _ (Buf.build (Γ i) (Buf.shape (Γ i) b) f) ix = none := fun f => by
          by_contra h
          have := (Buf.getU_isSome_iff _ _ _).1 (Option.isSome_iff_ne_none.2 h)
          rw [hd] at this
          exact hix this
        rw [dif_neg hno, h4, h3]

theorem setEntries_defined {c : Ctx ℝ Γ} {i : Id} (h : c i ≠ none) (x : S → ℝ) :
    setEntries c S x i ≠ none := by
  cases hci : c i with
  | none => exact absurd hci h
  | some b => simp [setEntries, hci]

theorem dims_of_eval {e : Node ℝ} {τ : BTy} {c : Ctx ℝ Γ} (hf : CacheFree e) (d : FnImpl Γ e τ)
    (hr : FnImpl.Regular d) {v : Buf ℝ τ} (hv : (d.evaluate c).1 = .ok v) :
    Buf.dims τ v = (den (envOf c) e).dims := by
  have he : d.evaluate = d.fn.evaluateSpec.map BSpec.unwrap := d.evaluate_eq
  rw [he] at hv
  obtain ⟨s, hs, rfl⟩ := (Res.map_ok_iff _ _ _).1 hv
  unfold Buf.dims
  rw [BSpec.shape_unwrap]
  exact (((d.compat_spec hf hr).1 c (describes_envOf c)).2 s hs).1

open Topology Filter in
theorem eval_total_deriv {e : Node ℝ} {τ : BTy} {adj : Id → Node ℝ} {σ : Id → BTy}
    (hf : CacheFree e) (d : FnImpl Γ e τ) (hr : FnImpl.Regular d) (hne : S.Nonempty)
    (ha : ∀ p ∈ S, e.adjoint p.1 = some (adj p.1)) (da : ∀ p : S, FnImpl Γ (adj p.1.1) (σ p.1.1))
    (hra : ∀ p, FnImpl.Regular (da p)) (c : Ctx ℝ Γ) (hc : ∀ i, NeedsId e i → c i ≠ none)
    (hS : ∀ p ∈ S, ∃ b, c p.1 = some b ∧ InBounds (Buf.dims _ b) p.2)
    (hs : ∀ p ∈ S, Smooth (envOf c) p.1 e) :
    ∃ v, (d.evaluate c).1 = .ok v ∧ (∀ x, ∃ w, (d.evaluate (setEntries c S x)).1 = .ok w ∧
      Buf.dims τ w = Buf.dims τ v) ∧
      ∀ ix, InBounds (Buf.dims τ v) ix → Buf.getU τ v ix = some (alongAll d c S ix (entries c S)) ∧
        ∃ g : S → ℝ,
        (∀ p : S, ∃ a, ((da p).evaluate c).1 = .ok a ∧
          Buf.getU _ a (ix ++ p.1.2) = some (g p)) ∧
        HasFDerivAt (alongAll d c S ix) (linear g) (entries c S) := by
  have hdef : ∀ p ∈ S, c p.1 ≠ none := fun p hp => by
    obtain ⟨b, hb, -⟩ := hS p hp
    simp [hb]
  obtain ⟨p₀, hp₀⟩ := hne
  have htot : ∀ c : Ctx ℝ Γ, (∀ i, NeedsId e i → c i ≠ none) → (∀ p ∈ S, c p.1 ≠ none) →
      (∃ v, (d.evaluate c).1 = .ok v) ∧ ∀ p : S, ∃ a, ((da p).evaluate c).1 = .ok a := fun c h1 h2 =>
    ⟨(eval_total (ha p₀ hp₀) hf d (da ⟨p₀, hp₀⟩) hr (hra _) c h1 (h2 p₀ hp₀)).1, fun p =>
      (eval_total (ha p.1 p.2) hf d (da p) hr (hra _) c h1 (h2 p.1 p.2)).2⟩
  obtain ⟨⟨v, hv⟩, hat⟩ := htot c hc hdef
  have hw' : ∀ x, ∃ w, (d.evaluate (setEntries c S x)).1 = .ok w := fun x =>
    (htot _ (fun i hi => setEntries_defined (hc i hi) x)
      (fun p hp => setEntries_defined (hdef p hp) x)).1
  have hw : ∀ x, ∃ w, (d.evaluate (setEntries c S x)).1 = .ok w ∧
      Buf.dims τ w = Buf.dims τ v := fun x => by
    obtain ⟨w, hw⟩ := hw' x
    refine ⟨w, hw, ?_⟩
    rw [dims_of_eval hf d hr hw, dims_of_eval hf d hr hv, envOf_setEntries c hS]
    exact den_dims_congr (ρ := perturbAll (envOf c) S x) (ρ' := envOf c) (fun _ => rfl) e
  have hcv := compat_of_eval hf d hr hv
  have hca : ∀ p ∈ S, Compat (envOf c) (adj p.1) := fun p hp => by
    obtain ⟨a, hae⟩ := hat ⟨p, hp⟩
    exact compat_of_eval (adjoint_cacheFree (ha p hp) hf) (da ⟨p, hp⟩) (hra _) hae
  have hdv := den_of_eval hf d hr (powSafe_of_smooth (hs p₀ hp₀)) hv
  have hk : ∀ p ∈ S, InBounds (envOf c p.1).dims p.2 := fun p hp => by
    obtain ⟨b, hb, hi⟩ := hS p hp
    have : envOf c p.1 = .ofBuf b := by simp only [envOf, hb]
    rw [this]
    exact hi
  have hx₀ : entries c S = fun p : S => (envOf c p.1.1).val p.1.2 := by
    funext p
    obtain ⟨b, hb, -⟩ := hS p.1 p.2
    simp only [entries, envOf, hb, Tensor.ofBuf]
  have hself : perturbAll (envOf c) S (entries c S) = envOf c := by
    rw [hx₀]
    funext i
    unfold perturbAll
    have : (fun ix => if h : (i, ix) ∈ S then (fun p : S => (envOf c p.1.1).val p.1.2) ⟨(i, ix), h⟩
        else (envOf c i).val ix) = (envOf c i).val := by
      funext ix
      split_ifs <;> rfl
    rw [this]
  have hden : ∀ x, Smooth (perturbAll (envOf c) S x) p₀.1 e → ∀ ix,
      InBounds (den (envOf c) e).dims ix →
      alongAll d c S ix x = (den (perturbAll (envOf c) S x) e).val ix := by
    intro x hsx ix hix
    rw [← envOf_setEntries c hS] at hsx ⊢
    obtain ⟨w, hw⟩ := hw' x
    have ht := den_of_eval hf d hr (powSafe_of_smooth hsx) hw
    have hd : (den (envOf (setEntries c S x)) e).dims = (den (envOf c) e).dims := by
      rw [envOf_setEntries c hS]
      exact den_dims_congr (ρ := perturbAll (envOf c) S x) (ρ' := envOf c) (fun _ => rfl) e
    simp only [alongAll, hw]
    rw [ht.2 ix (hd ▸ hix)]
    rfl
  refine ⟨v, hv, hw, fun ix hix => ?_⟩
  have hix' : InBounds (den (envOf c) e).dims ix := by rw [← hdv.1]; exact hix
  refine ⟨?_, fun p => (den (envOf c) (adj p.1.1)).val (ix ++ p.1.2), fun p => ?_, ?_⟩
  · rw [hden _ (by rw [hself]; exact hs p₀ hp₀) ix hix', hself]
    exact hdv.2 ix hix'
  · obtain ⟨a, hae⟩ := hat p
    have hda := den_of_eval (adjoint_cacheFree (ha p.1 p.2) hf) (da p) (hra p)
      (powSafe_adjoint (ha p.1 p.2) (hs p.1 p.2)) hae
    refine ⟨a, hae, hda.2 _ ?_⟩
    rw [(den_deriv (ha p.1 p.2) hcv (hca p.1 p.2) (hs p.1 p.2) (hk p.1 p.2)).1]
    exact inBounds_append.2 ⟨_, _, hix', hk p.1 p.2, rfl⟩
  · have h1 := den_total ha hcv hca hs hk hix'
    rw [← hx₀] at h1
    refine h1.congr_of_eventuallyEq ?_
    have := smooth_eventually_all (ρ := fun x => perturbAll (envOf c) S x) (x₀ := entries c S)
      (T := fun i => ∃ K, (i, K) ∈ S) (fun _ _ => rfl) (fun i hi x => by
        unfold perturbAll
        congr 1
        funext ix
        rw [dif_neg fun h => hi ⟨ix, h⟩, dif_neg fun h => hi ⟨ix, h⟩]) (fun i ix _ => by
        unfold perturbAll
        by_cases h : (i, ix) ∈ S
        · simp only [dif_pos h]
          exact differentiableAt_apply _ _
        · simp only [dif_neg h]
          exact differentiableAt_const _) (t := p₀.1) ⟨p₀.2, hp₀⟩
        (ha p₀ hp₀) (by rw [hself]; exact hcv) (by rw [hself]; exact hca p₀ hp₀)
        (fun t ⟨K, hK⟩ => by rw [hself]; exact hs _ hK)
    filter_upwards [this] with x hx
    exact hden x hx ix hix'

end Aegir
