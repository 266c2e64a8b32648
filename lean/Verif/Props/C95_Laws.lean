import Verif.Lemmas.Laws
import Verif.Lemmas.Second
import Verif.Lemmas.TotalEval
import Verif.Props.C19_Tensor
import Verif.Props.C57_Polynomial
import Verif.Props.C71_FormalDerivatives
/-!
# C95: algebraic laws, and adjoints depend on values alone

Expressions that the laws of commutative rings turn into each other evaluate to the same arrays although their
evaluation takes different ways (`Spec/Laws`), in every commutative ring; the code rewrites no expressions
itself. Adjoints are built from the way an expression is written, yet evaluate to arrays that depend only on
the values of the expression: if two expressions have the same values near the present setting, then their
adjoints have the same value there.
-/

namespace Aegir

open Spec Topology Filter

variable {Γ : Id → BTy}

namespace Props

/-- Expressions equal by algebraic laws evaluate to the same array. -/
theorem C95_value {F : Type} [CommRing F] [Div F] [ScalarFns F] [LawfulScalar F] [LawfulPow F] {c : Ctx F Γ}
    {e e' : Node F} {τ τ' : BTy} (h : Law (envOf c) e e') (hf : CacheFree e) (hf' : CacheFree e')
    (d : FnImpl Γ e τ) (d' : FnImpl Γ e' τ') (hr : FnImpl.Regular d) (hr' : FnImpl.Regular d')
    (hp : PowSafe (envOf c) e) (hp' : PowSafe (envOf c) e') {v : Buf F τ} {v' : Buf F τ'}
    (hv : (d.evaluate c).1 = .ok v) (hv' : (d'.evaluate c).1 = .ok v') :
    Buf.dims τ v = Buf.dims τ' v' ∧
      ∀ ix, InBounds (Buf.dims τ v) ix → Buf.getU τ v ix = Buf.getU τ' v' ix := by
  have h1 := C19_value_cache_free_partial d hf c hp hr v hv
  have h2 := C19_value_cache_free_partial d' hf' c hp' hr' v' hv'
  have he : d.evaluate = d.fn.evaluateSpec.map BSpec.unwrap := d.evaluate_eq
  rw [he] at hv
  obtain ⟨s, hs, rfl⟩ := (Res.map_ok_iff _ _ _).1 hv
  have h3 := (Laws.law_sound h).2 (((d.compat_spec hf hr).1 c (describes_envOf c)).2 s hs).2
  refine ⟨by rw [h1.1, h2.1, h3.1], fun ix hix => ?_⟩
  rw [h1.1] at hix
  rw [h1.2 ix hix, h2.2 ix (h3.1 ▸ hix), h3.2 ix (h3.1 ▸ hix)]

section
variable {e e' f f' : Node ℝ} {τ τ' σ σ' : BTy} {t : Id} (he : e.adjoint t = some f)
  (he' : e'.adjoint t = some f') (hf : CacheFree e) (hf' : CacheFree e') (d : FnImpl Γ e τ) (d' : FnImpl Γ e' τ')
  (da : FnImpl Γ f σ) (da' : FnImpl Γ f' σ') (hr : FnImpl.Regular d) (hr' : FnImpl.Regular d')
  (hra : FnImpl.Regular da) (hra' : FnImpl.Regular da') {c : Ctx ℝ Γ}
  (hc : ∀ i, NeedsId e i ∨ NeedsId e' i → c i ≠ none) {b : Buf ℝ (Γ t)} (hb : c t = some b)
  (hs : Smooth (envOf c) t e) (hs' : Smooth (envOf c) t e')

include he he' hf hf' hr hr' hra hra' hc hb hs hs'

/-- If the entries `ix` of two expressions' values agree for all settings of entry `K` of `t` near the present
one, then so do the entries of their adjoints. -/
theorem C95_extensional {K ix : Idx} (hK : InBounds (Buf.dims _ b) K) {v : Buf ℝ τ} {v' : Buf ℝ τ'}
    (hv : (d.evaluate c).1 = .ok v) (hv' : (d'.evaluate c).1 = .ok v') (hix : InBounds (Buf.dims τ v) ix)
    (hix' : InBounds (Buf.dims τ' v') ix) {x : ℝ} (hx : Buf.getU _ b K = some x)
    (heq : ∀ᶠ s in 𝓝 x, ∀ w w', (d.evaluate (c.write t (setEntry b K s))).1 = .ok w →
      (d'.evaluate (c.write t (setEntry b K s))).1 = .ok w' → Buf.getU τ w ix = Buf.getU τ' w' ix) :
    ∃ a a' g, (da.evaluate c).1 = .ok a ∧ (da'.evaluate c).1 = .ok a' ∧
      Buf.getU σ a (ix ++ K) = some g ∧ Buf.getU σ' a' (ix ++ K) = some g := by
  have hc1 : ∀ i, NeedsId e i → c i ≠ none := fun i hi => hc i (.inl hi)
  have hc2 : ∀ i, NeedsId e' i → c i ≠ none := fun i hi => hc i (.inr hi)
  obtain ⟨-, a, ha⟩ := eval_total he hf d da hr hra c hc1 (by simp [hb])
  obtain ⟨-, a', ha'⟩ := eval_total he' hf' d' da' hr' hra' c hc2 (by simp [hb])
  obtain ⟨-, h1⟩ := eval_deriv he hf d da hr hra c hc1 hb hs hv ha hK
  obtain ⟨-, h2⟩ := eval_deriv he' hf' d' da' hr' hra' c hc2 hb hs' hv' ha' hK
  obtain ⟨g, y, hg, hy, hd⟩ := h1 ix hix
  obtain ⟨g', y', hg', hy', hd'⟩ := h2 ix hix'
  obtain rfl : y = x := Option.some.inj (hy.symm.trans hx)
  obtain rfl : y' = y := Option.some.inj (hy'.symm.trans hx)
  refine ⟨a, a', g, ha, ha', hg, ?_⟩
  rw [hg']
  refine congrArg some (hd'.unique (hd.congr_of_eventuallyEq ?_))
  filter_upwards [heq] with s hs
  obtain ⟨⟨w, hw⟩, -⟩ := eval_total he hf d da hr hra (c.write t (setEntry b K s)) (ctx_write_needs hc1 _)
    (by simp [Ctx.write_self])
  obtain ⟨⟨w', hw'⟩, -⟩ := eval_total he' hf' d' da' hr' hra' (c.write t (setEntry b K s)) (ctx_write_needs hc2 _)
    (by simp [Ctx.write_self])
  simp only [along, hw, hw']
  rw [hs w w' hw hw']

/-- Expressions equal by algebraic laws have adjoints that evaluate to the same array (if `t` has an entry at
all). -/
theorem C95_adjoint (h : Law (envOf c) e e') (hne : ∃ K, InBounds (Buf.dims _ b) K) :
    ∃ a a', (da.evaluate c).1 = .ok a ∧ (da'.evaluate c).1 = .ok a' ∧ Buf.dims σ a = Buf.dims σ' a' ∧
      ∀ ix, InBounds (Buf.dims σ a) ix → Buf.getU σ a ix = Buf.getU σ' a' ix := by
  have hc1 : ∀ i, NeedsId e i → c i ≠ none := fun i hi => hc i (.inl hi)
  have hc2 : ∀ i, NeedsId e' i → c i ≠ none := fun i hi => hc i (.inr hi)
  obtain ⟨⟨v, hv⟩, a, ha⟩ := eval_total he hf d da hr hra c hc1 (by simp [hb])
  obtain ⟨⟨v', hv'⟩, a', ha'⟩ := eval_total he' hf' d' da' hr' hra' c hc2 (by simp [hb])
  have cv := compat_of_eval hf d hr hv
  have cv' := compat_of_eval hf' d' hr' hv'
  have ca := compat_of_eval (adjoint_cacheFree he hf) da hra ha
  have ca' := compat_of_eval (adjoint_cacheFree he' hf') da' hra' ha'
  have ta := den_of_eval (adjoint_cacheFree he hf) da hra (powSafe_adjoint he hs) ha
  have ta' := den_of_eval (adjoint_cacheFree he' hf') da' hra' (powSafe_adjoint he' hs') ha'
  have sv := (Laws.law_sound h).2 cv
  have hbd : (envOf c t).dims = Buf.dims _ b := by simp only [envOf, hb]; rfl
  have key : ∀ K, InBounds (envOf c t).dims K → (den (envOf c) f).dims = (den (envOf c) f').dims ∧
      ∀ ix, InBounds (den (envOf c) e).dims ix →
        (den (envOf c) f).val (ix ++ K) = (den (envOf c) f').val (ix ++ K) := by
    intro K hK
    obtain ⟨h1, h2⟩ := den_deriv he cv ca hs hK
    obtain ⟨h3, h4⟩ := den_deriv he' cv' ca' hs' hK
    refine ⟨by rw [h1, h3, sv.1], fun ix hix => (h2 ix hix).unique ?_⟩
    have hf : (fun s => (den (perturb (envOf c) t K s) e).val ix) =
        fun s => (den (perturb (envOf c) t K s) e').val ix := by
      funext s
      have := (Laws.law_sound (Laws.law_congr (fun i => (perturb_dims (envOf c) t K s i).symm) h)).2
        (compat_congr (fun i => (perturb_dims (envOf c) t K s i).symm) e cv)
      exact this.2 ix (by rw [den_perturb_dims, ← sv.1]; exact hix)
    rw [hf]
    exact h4 ix (sv.1 ▸ hix)
  refine ⟨a, a', ha, ha', ?_, ?_⟩
  · obtain ⟨K, hK⟩ := hne
    rw [ta.1, ta'.1, (key K (hbd ▸ hK)).1]
  · intro ix hix
    rw [ta.1] at hix
    obtain ⟨K₀, hK₀⟩ := hne
    have hd := (den_deriv he cv ca hs (hbd.symm ▸ hK₀)).1
    have hd' := (key K₀ (hbd.symm ▸ hK₀)).1
    obtain ⟨i, K, hi, hK, rfl⟩ := inBounds_append.1 (hd ▸ hix)
    rw [ta.2 _ hix, ta'.2 _ (hd' ▸ hix), (key K hK).2 i hi]

end

/-! ### Linear models -/

/-- A scale `0` and arrays. -/
def c95Ty (n : Nat) : Id → BTy
  | 0 => .scalar
  | _ + 1 => .array [n]

/-- A scale, weights and a sample. -/
def c95C (n : Nat) {F : Type} (s : F) (w x : NArr F [n]) : Ctx F (c95Ty n)
  | 0 => some s
  | 1 => some w
  | _ + 2 => some x

/-- `(s ∘ w)·x` and `s ∘ (x·w)`. -/
def c95E (F : Type) : Node F := .contract 1 (.mul (.var 0) (.var 1)) (.var 2)

@[inherit_doc c95E]
def c95E' (F : Type) : Node F := .mul (.var 0) (.contract 1 (.var 2) (.var 1))

theorem c95_law {F : Type} [CommRing F] [Div F] [ScalarFns F] (n : Nat) (s : F) (w x : NArr F [n]) :
    Law (envOf (c95C n s w x)) (c95E F) (c95E' F) :=
  .trans (.mul_contract 1 _ rfl) (.mul (.refl _) (.dot_comm (n := n) rfl rfl))

/-- Scaling the weights or the prediction: the same value, for models of every size over the integers. -/
example (n : Nat) (s : ℤ) (w x : NArr ℤ [n]) {v v' : ℤ}
    (hv : ((FnImpl.contract (.mul (.var (Γ := c95Ty n) 0) (.var (Γ := c95Ty n) 1) (.sa [n]))
      (.var (Γ := c95Ty n) 2) (.dot n) : FnImpl (c95Ty n) (c95E ℤ) .scalar).evaluate (c95C n s w x)).1 = .ok v)
    (hv' : ((FnImpl.mul (.var (Γ := c95Ty n) 0) (.contract (.var (Γ := c95Ty n) 2) (.var (Γ := c95Ty n) 1) (.dot n))
      .ss : FnImpl (c95Ty n) (c95E' ℤ) .scalar).evaluate (c95C n s w x)).1 = .ok v') : v = v' := by
  have := (C95_value (c95_law n s w x) (by simp [CacheFree, c95E]) (by simp [CacheFree, c95E']) _ _
    (by simp [FnImpl.Regular, c95Ty]) (by simp [FnImpl.Regular, c95Ty])
    (fun l r h => by simp [c95E] at h) (fun l r h => by simp [c95E'] at h) hv hv').2 [] .nil
  exact Option.some.inj this

/-! ### A polynomial -/

/-- All scalars. -/
abbrev c95S : Id → BTy := fun _ => .scalar

theorem c95_poly (ρ : Id → Tensor ℝ) (hp : ∀ x : ℝ, ScalarFns.pow x (1 + 1) = x * x) :
    Law ρ (.mul (.var 0) (.un .addOne (.var 0))) (.add (.un .square (.var 0)) (.var 0)) :=
  .trans (.mul_comm _ _) (.trans (.mul (.addOne _) (.refl _)) (.trans (.add_mul _ _ _)
    (.add (.symm (.square hp _)) (.one_mul _))))

/-- The adjoints of `x(x + 1)` and of `x² + x` have the same value for every `x`. -/
example (x : ℝ) : ∃ a : ℝ,
    ((FnImpl.add (.mul (.varAdj 0 0 .ss (by simp [BTy.rank])) (.un .addOne (.var 0)) .ss)
      (.mul (.varAdj 0 0 .ss (by simp [BTy.rank])) (.var 0) .ss) .ss :
      FnImpl c95S (_ : Node ℝ) .scalar).evaluate (fun _ => some x)).1 = .ok a ∧
    ((FnImpl.add (.mul (.un .double (.var 0)) (.varAdj 0 0 .ss (by simp [BTy.rank])) .ss)
      (.varAdj 0 0 .ss (by simp [BTy.rank])) .ss :
      FnImpl c95S (_ : Node ℝ) .scalar).evaluate (fun _ => some x)).1 = .ok a := by
  obtain ⟨a, a', ha, ha', -, h⟩ := C95_adjoint (Γ := c95S) (c := fun _ => some x) (t := 0)
    (e := .mul (.var 0) (.un .addOne (.var 0))) (e' := .add (.un .square (.var 0)) (.var 0)) rfl rfl
    (by simp [CacheFree]) (by simp [CacheFree]) (.mul (.var 0) (.un .addOne (.var 0)) .ss)
    (.add (.un .square (.var 0)) (.var 0) .ss)
    (.add (.mul (.varAdj 0 0 .ss (by simp [BTy.rank])) (.un .addOne (.var 0)) .ss)
      (.mul (.varAdj 0 0 .ss (by simp [BTy.rank])) (.var 0) .ss) .ss)
    (.add (.mul (.un .double (.var 0)) (.varAdj 0 0 .ss (by simp [BTy.rank])) .ss)
      (.varAdj 0 0 .ss (by simp [BTy.rank])) .ss)
    (by simp [FnImpl.Regular]) (by simp [FnImpl.Regular]) (by simp [FnImpl.Regular]) (by simp [FnImpl.Regular])
    (fun _ _ => by simp) (b := x) rfl (by simp [Smooth, UnOp.SmoothAt]) (by simp [Smooth, UnOp.SmoothAt])
    (c95_poly _ LawfulSquare.sq) ⟨[], .nil⟩
  obtain rfl : a = a' := Option.some.inj (h [] .nil)
  exact ⟨a, ha, ha'⟩

/-- The adjoints of `sin(x)² + cos(x)²` and of the constant `1` agree for every `x`, no law being needed: their
values do. -/
example (x : ℝ) {a : ℝ} (da : FnImpl c95S (.add (.mul (.un .double (.un .sin (.var 0)))
      (.mul (.varAdj 0 0) (.un .cos (.var 0))))
      (.mul (.un .double (.un .cos (.var 0))) (.un .negate (.mul (.varAdj 0 0) (.un .sin (.var 0))))) : Node ℝ) .scalar)
    (hra : FnImpl.Regular da) (ha : (da.evaluate (fun _ => some x)).1 = .ok a) : a = 0 := by
  obtain ⟨a₁, a', g, ha₁, ha', h1, h2⟩ := C95_extensional (Γ := c95S) (c := fun _ => some x) (t := 0)
    (e := .add (.un .square (.un .sin (.var 0))) (.un .square (.un .cos (.var 0)))) (e' := .const .scalar (1 : ℝ))
    rfl rfl (by simp [CacheFree]) (by simp [CacheFree])
    (.add (.un .square (.un .sin (.var 0))) (.un .square (.un .cos (.var 0))) .ss) (.const .scalar 1)
    da (.constAdj (Γ := c95S) (.const .scalar 1) 0 .ss)
    (by simp [FnImpl.Regular]) (by simp [FnImpl.Regular]) hra (by simp [FnImpl.Regular])
    (fun _ _ => by simp) (b := x) rfl (by simp [Smooth, UnOp.SmoothAt]) (by simp [Smooth])
    (K := []) (ix := []) .nil (v := _) (v' := (1 : ℝ)) rfl rfl .nil .nil rfl (.of_forall fun s w w' hw hw' => by
      cases hw
      cases hw'
      refine congrArg some ?_
      show ScalarFns.pow (Real.sin s) (1 + 1) + ScalarFns.pow (Real.cos s) (1 + 1) = 1
      rw [LawfulSquare.sq, LawfulSquare.sq, ← sq, ← sq, Real.sin_sq_add_cos_sq])
  obtain rfl : a₁ = a := Res.ok.inj (ha₁.symm.trans ha)
  have h3 := (den_of_eval (Γ := c95S) (e := .constAdj (.const .scalar (1 : ℝ)) 0) (by simp [CacheFree]) _
    (by simp [FnImpl.Regular]) (fun l r h => by simp at h) ha').2 [] .nil
  exact Option.some.inj (h1.trans (h2.symm.trans h3))

/-- Over the integers, where there are no limits: if two expressions have the same value for all settings of an
entry of `t`, then so do their adjoints. -/
theorem C95_integers {e e' f f' : Node ℤ} {τ τ' σ σ' : BTy} {t : Id} (he : e.adjoint t = some f)
    (he' : e'.adjoint t = some f') (hf : RingExpr e) (hf' : RingExpr e') (d : FnImpl Γ e τ) (d' : FnImpl Γ e' τ')
    (da : FnImpl Γ f σ) (da' : FnImpl Γ f' σ') (hr : FnImpl.Regular d) (hr' : FnImpl.Regular d')
    (hra : FnImpl.Regular da) (hra' : FnImpl.Regular da') {c : Ctx ℤ Γ}
    (hc : ∀ i, NeedsId e i ∨ NeedsId e' i → c i ≠ none) {b : Buf ℤ (Γ t)} (hb : c t = some b)
    (hs : WellContracted (envOf c) t e) (hs' : WellContracted (envOf c) t e') {K ix : Idx}
    (hK : InBounds (Buf.dims _ b) K) {v : Buf ℤ τ} {v' : Buf ℤ τ'}
    (hv : (d.evaluate c).1 = .ok v) (hv' : (d'.evaluate c).1 = .ok v') (hix : InBounds (Buf.dims τ v) ix)
    (hix' : InBounds (Buf.dims τ' v') ix)
    (heq : ∀ s w w', (d.evaluate (c.write t (setEntry b K s))).1 = .ok w →
      (d'.evaluate (c.write t (setEntry b K s))).1 = .ok w' → Buf.getU τ w ix = Buf.getU τ' w' ix) :
    ∃ a a' g, (da.evaluate c).1 = .ok a ∧ (da'.evaluate c).1 = .ok a' ∧
      Buf.getU σ a (ix ++ K) = some g ∧ Buf.getU σ' a' (ix ++ K) = some g := by
  have heq0 : Buf.getU τ v ix = Buf.getU τ' v' ix := by
    have hself : c.write t (setEntry b K ((Buf.getU _ b K).getD 0)) = c := by
      rw [setEntry_self]
      funext i
      by_cases hi : i = t
      · subst hi
        rw [Ctx.write_self, hb]
      · simp only [Ctx.write]
        rw [dif_neg (by simpa using hi)]
    exact heq _ v v' (by rw [hself]; exact hv) (by rw [hself]; exact hv')
  have hc1 : ∀ i, NeedsId e i → c i ≠ none := fun i hi => hc i (.inl hi)
  have hc2 : ∀ i, NeedsId e' i → c i ≠ none := fun i hi => hc i (.inr hi)
  obtain ⟨w, a, hw, ha, hd, h⟩ := C71_entry hf he d da hr hra c hc1 hb hs
  obtain ⟨w', a', hw', ha', hd', h'⟩ := C71_entry hf' he' d' da' hr' hra' c hc2 hb hs'
  rw [hv] at hw
  cases hw
  rw [hv'] at hw'
  cases hw'
  have of : ∀ {τ : BTy} (x : Buf ℤ τ) {ix : Idx} {y : ℤ}, Buf.getU τ x ix = some y → (Tensor.ofBuf x).val ix = y :=
    fun x ix y h => by simp [Tensor.ofBuf, h]
  obtain ⟨g, hg⟩ := Buf.getU_some σ a (ix ++ K) (by rw [hd]; exact inBounds_append.2 ⟨_, _, hix, hK, rfl⟩)
  obtain ⟨g', hg'⟩ := Buf.getU_some σ' a' (ix ++ K) (by rw [hd']; exact inBounds_append.2 ⟨_, _, hix', hK, rfl⟩)
  have : g = g' := by
    rw [← of a' hg']
    refine (C71_unique hf' he' d' da' hr' hra' c hc2 hb hs' hv' ha' hK hix' g).2 fun δ => ?_
    obtain ⟨u, hu, h1⟩ := h K hK δ
    obtain ⟨u', hu', -⟩ := h' K hK δ
    obtain ⟨k, hk⟩ := h1 ix hix
    refine ⟨u', k, hu', ?_⟩
    have e1 : (Tensor.ofBuf u').val ix = (Tensor.ofBuf u).val ix := by
      simp only [Tensor.ofBuf, heq _ u u' hu hu']
    have e0 : (Tensor.ofBuf v').val ix = (Tensor.ofBuf v).val ix := by
      simp only [Tensor.ofBuf, heq0]
    rw [e1, e0, hk, of a hg]
  exact ⟨a, a', g, ha, ha', hg, this ▸ hg'⟩
/-- `x(x + 1)` and `x² + x` over the integers. -/
example (x : ℤ) : ∃ a : ℤ,
    ((FnImpl.add (.mul (.varAdj 0 0 .ss (by simp [BTy.rank])) (.un .addOne (.var 0)) .ss)
      (.mul (.varAdj 0 0 .ss (by simp [BTy.rank])) (.var 0) .ss) .ss :
      FnImpl c95S (_ : Node ℤ) .scalar).evaluate (fun _ => some x)).1 = .ok a ∧
    ((FnImpl.add (.mul (.un .double (.var 0)) (.varAdj 0 0 .ss (by simp [BTy.rank])) .ss)
      (.varAdj 0 0 .ss (by simp [BTy.rank])) .ss :
      FnImpl c95S (_ : Node ℤ) .scalar).evaluate (fun _ => some x)).1 = .ok a := by
  obtain ⟨a, a', g, ha, ha', h1, h2⟩ := C95_integers (Γ := c95S) (c := fun _ => some x) (t := 0)
    (e := .mul (.var 0) (.un .addOne (.var 0))) (e' := .add (.un .square (.var 0)) (.var 0)) rfl rfl
    (by simp [RingExpr]) (by simp [RingExpr]) (.mul (.var 0) (.un .addOne (.var 0)) .ss)
    (.add (.un .square (.var 0)) (.var 0) .ss)
    (.add (.mul (.varAdj 0 0 .ss (by simp [BTy.rank])) (.un .addOne (.var 0)) .ss)
      (.mul (.varAdj 0 0 .ss (by simp [BTy.rank])) (.var 0) .ss) .ss)
    (.add (.mul (.un .double (.var 0)) (.varAdj 0 0 .ss (by simp [BTy.rank])) .ss)
      (.varAdj 0 0 .ss (by simp [BTy.rank])) .ss)
    (by simp [FnImpl.Regular]) (by simp [FnImpl.Regular]) (by simp [FnImpl.Regular]) (by simp [FnImpl.Regular])
    (fun _ _ => by simp) (b := x) rfl (by simp [WellContracted]) (by simp [WellContracted])
    (K := []) (ix := []) .nil rfl rfl .nil .nil (fun s w w' hw hw' => by
      have h1 : (Res.ok (s * (s + 1)) : Res EvalErr ℤ) = .ok w := hw
      have h2 : (Res.ok (ScalarFns.pow s (1 + 1) + s) : Res EvalErr ℤ) = .ok w' := hw'
      cases h1
      cases h2
      refine congrArg some ?_
      rw [LawfulSquare.sq]
      ring)
  obtain rfl : a = g := Option.some.inj h1
  obtain rfl : a' = a := Option.some.inj h2
  exact ⟨a', ha, ha'⟩

end Props

end Aegir
