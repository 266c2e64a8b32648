import Verif.Lemmas.ApproxDeriv
import Verif.Spec.Float
/-!
# C74: evaluation in finite precision converges
-/

namespace Aegir.Props

open Spec Filter Topology

/-- For every tolerance there is a precision such that every arithmetic that precise, on constants and
variables that precise, evaluates the expression within the tolerance, entry by entry, whatever
operators it is made of, as long as it depends continuously on its data. Both methods are covered,
including all shortcuts of `evaluate_spec`. -/
theorem C74_convergence {ρ : Id → Tensor ℝ} {E : Node ℝ} (hE : ContinuousFor ρ E) {ε : ℝ}
    (hε : 0 < ε) : ∃ δ > 0, ∀ (F : Type) [Zero F] [One F] [Add F] [Sub F] [Mul F] [Div F] [Neg F]
      [ScalarFns F] (val : F → ℝ) (u : ℝ) (Γ : Id → BTy) (e : Node F) (τ : BTy) (d : FnImpl Γ e τ)
      (c : Ctx F Γ), Approx val u → u ≤ δ → FnImpl.Regular d → Approximates val δ e E →
      CtxStandsFor (Close val δ) ρ c →
      (∀ v, (d.evaluate c).1 = .ok v → StandsFor (Close val ε) v (den ρ E)) ∧
        ∀ s, (d.evaluateSpec c).1 = .ok s → StandsFor (Close val ε) s.unwrap (den ρ E) := by
  obtain ⟨δ, hδ, h⟩ := exists_suffices hE ε hε
  refine ⟨δ, hδ, ?_⟩
  intro F _ _ _ _ _ _ _ _ val u Γ e τ d c hA hu hr ha hc
  have := h hA hu d hr ha c hc
  exact ⟨this.1.2, this.2.1.2⟩

/-- With exact arithmetic and exact data the result is exact. -/
theorem C74_exact {ρ : Id → Tensor ℝ} {E : Node ℝ} (hE : ContinuousFor ρ E) {F : Type} [Zero F]
    [One F] [Add F] [Sub F] [Mul F] [Div F] [Neg F] [ScalarFns F] {val : F → ℝ} {Γ : Id → BTy}
    {e : Node F} {τ : BTy} (d : FnImpl Γ e τ) (c : Ctx F Γ) (hA : Approx val 0)
    (hr : FnImpl.Regular d) (ha : Approximates val 0 e E) (hc : CtxStandsFor (Close val 0) ρ c)
    {v : Buf F τ} (h : (d.evaluate c).1 = .ok v) :
    Buf.dims τ v = (den ρ E).dims ∧ ∀ ix, InBounds (den ρ E).dims ix →
      ∃ x, Buf.getU τ v ix = some x ∧ val x = (den ρ E).val ix := by
  have key : ∀ ε, 0 < ε → StandsFor (Close val ε) v (den ρ E) := by
    intro ε hε
    obtain ⟨δ, hδ, h'⟩ := exists_suffices hE ε hε
    exact (h' hA hδ.le d hr (ha.mono hδ.le) c
      fun i b hb => standsFor_mono (close_mono hδ.le) (hc i b hb)).1.2 v h
  refine ⟨(key 1 one_pos).1, fun ix hix => ?_⟩
  obtain ⟨x, hx, _⟩ := (key 1 one_pos).2 ix hix
  refine ⟨x, hx, ?_⟩
  have h0 : |val x - (den ρ E).val ix| ≤ 0 := by
    refine le_of_forall_pos_le_add fun ε hε => ?_
    obtain ⟨y, hy, hn⟩ := (key ε hε).2 ix hix
    rw [hx] at hy; cases hy
    rw [zero_add]; exact hn
  exact sub_eq_zero.1 (abs_nonpos_iff.1 h0)

/-- Derivatives: where the function is differentiable and no absolute value has its kink, the entries
of the evaluated adjoint are the true partial derivatives up to any tolerance, if only the arithmetic
and the data are precise enough. -/
theorem C74_derivative {ρ : Id → Tensor ℝ} {E : Node ℝ} {t : Id} (hE : ContinuousFor ρ E)
    (habs : ∀ n, SubExpr (.un .abs n) E → ∀ ix, InBounds (den ρ n).dims ix → (den ρ n).val ix ≠ 0)
    (hs : Smooth ρ t E) {ε : ℝ} (hε : 0 < ε) :
    ∃ δ > 0, ∀ (F : Type) [Zero F] [One F] [Add F] [Sub F] [Mul F] [Div F] [Neg F] [ScalarFns F]
      (val : F → ℝ) (u : ℝ) (Γ : Id → BTy) (e e' : Node F) (τ σ : BTy) (d : FnImpl Γ e τ)
      (da : FnImpl Γ e' σ) (c : Ctx F Γ) (v : Buf F τ) (a : Buf F σ), Approx val u → u ≤ δ →
      e.adjoint t = some e' → FnImpl.Regular d → FnImpl.Regular da → Approximates val δ e E →
      CtxStandsFor (Close val δ) ρ c → (d.evaluate c).1 = .ok v → (da.evaluate c).1 = .ok a →
      ∀ ix K, InBounds (den ρ E).dims ix → InBounds (ρ t).dims K →
        ∃ g D, Buf.getU σ a (ix ++ K) = some g ∧
          HasDerivAt (fun s => (den (perturb ρ t K s) E).val ix) D ((ρ t).val K) ∧
          |val g - D| ≤ ε := by
  cases hE' : E.adjoint t with
  | none =>
    refine ⟨1, one_pos, ?_⟩
    intro F _ _ _ _ _ _ _ _ val u Γ e e' τ σ d da c v a hA hu he hr hra ha
    obtain ⟨E', h1, _⟩ := ha.adjoint he
    rw [hE'] at h1; cases h1
  | some E' =>
    by_cases hc : Compat ρ E
    · obtain ⟨δ, hδ, h⟩ := exists_suffices (hE.adjoint hc habs hE') ε hε
      refine ⟨δ, hδ, ?_⟩
      intro F _ _ _ _ _ _ _ _ val u Γ e e' τ σ d da c v a hA hu he hr hra ha hctx hv hav ix K hix hK
      obtain ⟨E₁, h1, ha'⟩ := ha.adjoint he
      rw [hE'] at h1; cases h1
      have hst := (h hA hu da hra ha' c hctx).1.2 a hav
      have hc' := ((approx_compat (hE.adjoint hc habs hE').cacheFree hA da hra ha' c
        fun i b hb => (hctx i b hb).1).1.2 a hav).2
      obtain ⟨hd, hD⟩ := den_deriv hE' hc hc' hs hK
      obtain ⟨g, hg, hn⟩ := hst.2 (ix ++ K) (by rw [hd]; exact List.rel_append hix hK)
      exact ⟨g, _, hg, hD ix hix, hn⟩
    · refine ⟨1, one_pos, ?_⟩
      intro F _ _ _ _ _ _ _ _ val u Γ e e' τ σ d da c v a hA hu he hr hra ha hctx hv
      exact absurd ((approx_compat hE.cacheFree hA d hr ha c
        fun i b hb => (hctx i b hb).1).1.2 v hv).2 hc

/-! ## Floating point -/

/-- Floating-point numbers, at any precision, are an arithmetic in the sense of the theorems. -/
theorem C74_float (p : ℕ) : Approx (Fl.val : Fl p → ℝ) (1 / 2 ^ (p + 1)) where
  toRounding := Fl.rounding p
  div x y _ := rnd_error p (x.val / y.val)
  eqb x y h := by simpa [ScalarFns.eqb] using h
  leb x y h := by simpa [ScalarFns.leb] using h
  abs _ := rfl
  signum _ _ := rfl
  pow x y _ := relative_le (by positivity) (rnd_error p (x.val ^ y.val))
  library op x h _ := by
    cases op <;> first
      | (simp [UnOp.library] at h; done)
      | exact relative_le (by positivity) (rnd_error p _)

/-- More and more bits: if constants and variables converge to those of the exact expression, the
computed entries converge to its value. -/
theorem C74_limit {Γ : Id → BTy} {τ : BTy} {ρ : Id → Tensor ℝ} {E : Node ℝ} (hE : ContinuousFor ρ E)
    {e : ∀ p, Node (Fl p)} {d : ∀ p, FnImpl Γ (e p) τ} (hr : ∀ p, FnImpl.Regular (d p))
    {c : ∀ p, Ctx (Fl p) Γ} (he : ∀ δ > 0, ∀ᶠ p in atTop, Approximates Fl.val δ (e p) E)
    (hc : ∀ δ > 0, ∀ᶠ p in atTop, CtxStandsFor (Close Fl.val δ) ρ (c p)) {v : ∀ p, Buf (Fl p) τ}
    (h : ∀ p, ((d p).evaluate (c p)).1 = .ok (v p)) {ix : Idx} (hix : InBounds (den ρ E).dims ix) :
    Tendsto (fun p => (Buf.read (v p) ix).val) atTop (𝓝 ((den ρ E).val ix)) := by
  rw [Metric.tendsto_nhds]
  intro ε hε
  obtain ⟨δ, hδ, hs⟩ := C74_convergence hE (half_pos hε)
  have hu : ∀ᶠ p : ℕ in atTop, (1 : ℝ) / 2 ^ (p + 1) ≤ δ := by
    have : Tendsto (fun p : ℕ => ((1 : ℝ) / 2) ^ (p + 1)) atTop (𝓝 0) :=
      (tendsto_pow_atTop_nhds_zero_of_lt_one (by norm_num) (by norm_num)).comp (tendsto_add_atTop_nat 1)
    refine (this.eventually (Iio_mem_nhds hδ)).mono fun p hp => ?_
    rw [← one_div_pow]; exact le_of_lt hp
  filter_upwards [hu, he δ hδ, hc δ hδ] with p hu he hc
  have := (hs (Fl p) Fl.val _ Γ _ τ (d p) (c p) (C74_float p) hu (hr p) he hc).1 _ (h p)
  have : |(Buf.read (v p) ix).val - (den ρ E).val ix| ≤ ε / 2 :=
    RelBuf.read (R := Close Fl.val (ε / 2)) (A := (den ρ E).val) this hix
  rw [Real.dist_eq]; linarith

/-- The floating-point number nearest to `x`. -/
noncomputable def Fl.of (p : ℕ) (x : ℝ) : Fl p := ⟨rnd p x⟩

/-- Constants and variables of the exact expression, rounded to nearest, and the whole expression
evaluated in floating point: with more and more bits, the result converges to the exact value. -/
theorem C74_rounded {Γ : Id → BTy} {τ : BTy} {E : Node ℝ} {C : Ctx ℝ Γ} {is : List Id}
    (hC : ∀ i, C i ≠ none → i ∈ is) (hE : ContinuousFor (envOf C) E)
    {d : ∀ p, FnImpl Γ (conv (Fl.of p) E) τ} (hr : ∀ p, FnImpl.Regular (d p))
    {v : ∀ p, Buf (Fl p) τ} (h : ∀ p, ((d p).evaluate (convCtx (Fl.of p) C)).1 = .ok (v p))
    {ix : Idx} (hix : InBounds (den (envOf C) E).dims ix) :
    Tendsto (fun p => (Buf.read (v p) ix).val) atTop (𝓝 ((den (envOf C) E).val ix)) := by
  have one : ∀ x : ℝ, ∀ δ > 0, ∀ᶠ p in atTop, Close Fl.val δ (Fl.of p x) x := by
    intro x δ hδ
    have : Tendsto (fun p : ℕ => ((1 : ℝ) / 2) ^ (p + 1) * |x|) atTop (𝓝 0) := by
      have := (tendsto_pow_atTop_nhds_zero_of_lt_one (r := (1 : ℝ) / 2) (by norm_num)
        (by norm_num)).comp (tendsto_add_atTop_nat 1)
      simpa using this.mul_const |x|
    refine (this.eventually (Iio_mem_nhds hδ)).mono fun p hp => ?_
    obtain ⟨η, hη, e⟩ := rnd_error p x
    show |rnd p x - x| ≤ δ
    rw [e, show x * (1 + η) - x = η * x by ring, abs_mul]
    rw [← one_div_pow] at hη
    exact (mul_le_mul_of_nonneg_right hη (abs_nonneg x)).trans (le_of_lt hp)
  have buf : ∀ {τ : BTy} (b : Buf ℝ τ), ∀ δ > 0, ∀ᶠ p in atTop,
      StandsFor (Close Fl.val δ) (Buf.map τ b (Fl.of p)) (.ofBuf b) := by
    intro τ b δ hδ
    have hall : ∀ᶠ p in atTop, ∀ ix ∈ (Shape.indices (Buf.dims τ b)).toFinset,
        Close Fl.val δ (Fl.of p (Buf.read b ix)) (Buf.read b ix) :=
      (Filter.eventually_all_finset _).2 fun ix _ => one _ δ hδ
    refine hall.mono fun p hp => ⟨Buf.dims_map τ b _, fun ix hix => ?_⟩
    have hg := Buf.getU_read b ix hix
    refine ⟨Fl.of p (Buf.read b ix), by rw [Buf.getU_map, hg]; rfl, ?_⟩
    have := hp ix (List.mem_toFinset.2 (mem_indices.2 hix))
    simpa [Tensor.ofBuf, hg] using this
  refine C74_limit hE hr ?_ ?_ h hix
  · intro δ hδ
    clear h hr hix v ix d hE
    induction E with
    | var i => exact .of_forall fun p => .var i
    | varAdj i t => exact .of_forall fun p => .varAdj i t
    | const τ b => exact (buf b δ hδ).mono fun p hp => .const hp
    | constSpec τ s =>
      cases s with
      | raw b => exact (buf b δ hδ).mono fun p hp => .constSpec hp
      | full s x =>
        refine (one x δ hδ).mono fun p hp => .constSpec ?_
        have hs := isTensor_ofSpec (BSpec.full s (Fl.of p x) : BSpec (Fl p) τ)
        exact ⟨hs.1, fun ix hix => ⟨_, hs.2 ix hix, hp⟩⟩
      | diagonal s x =>
        refine (one x δ hδ).mono fun p hp => .constSpec ?_
        have hs := isTensor_ofSpec (BSpec.diagonal s (Fl.of p x) : BSpec (Fl p) τ)
        refine ⟨hs.1, fun ix hix => ⟨_, hs.2 ix hix, ?_⟩⟩
        simp only [Tensor.ofSpec]
        split
        · exact hp
        · show |(0 : ℝ) - 0| ≤ δ
          simpa using hδ.le
    | constAdj n t ih => exact ih.mono fun p h => .constAdj t h
    | cached n i ih => exact ih.mono fun p h => .cached i h
    | add l r ihl ihr => exact (ihl.and ihr).mono fun p h => .add h.1 h.2
    | sub l r ihl ihr => exact (ihl.and ihr).mono fun p h => .sub h.1 h.2
    | mul l r ihl ihr => exact (ihl.and ihr).mono fun p h => .mul h.1 h.2
    | div l r ihl ihr => exact (ihl.and ihr).mono fun p h => .div h.1 h.2
    | power l r ihl ihr => exact (ihl.and ihr).mono fun p h => .power h.1 h.2
    | contract k l r ihl ihr => exact (ihl.and ihr).mono fun p h => .contract k h.1 h.2
    | sum n ih => exact ih.mono fun p h => .sum h
    | un op n ih => exact ih.mono fun p h => .un h
  · intro δ hδ
    have hall : ∀ᶠ p in atTop, ∀ i ∈ is.toFinset, ∀ b, C i = some b →
        StandsFor (Close Fl.val δ) (Buf.map (Γ i) b (Fl.of p)) (.ofBuf b) := by
      refine (Filter.eventually_all_finset _).2 fun i _ => ?_
      cases hi : C i with
      | none => exact .of_forall fun p b hb => by cases hb
      | some b => exact (buf b δ hδ).mono fun p hp b' hb => by cases hb; exact hp
    refine hall.mono fun p hp i b hb => ?_
    obtain ⟨b', hb', rfl⟩ := Option.map_eq_some_iff.1 hb
    have := hp i (by simpa using hC i (by rw [hb']; simp)) b' hb'
    have he : envOf C i = .ofBuf b' := by simp only [envOf, hb']
    rw [he]; exact this

/-! ## The condition is needed -/

/-- The sign of a variable. -/
def c74Sign (F : Type) : FnImpl (F := F) (fun _ => .scalar) (.un .sign (.var 0)) .scalar :=
  .un .sign (.var (Γ := fun _ => .scalar) 0)

/-- Where an operator jumps, no precision is enough: the sign of a variable that ought to be zero but is
off by an arbitrarily small error is off by one, however many bits there are. -/
theorem C74_jump_caveat (δ : ℝ) (hδ : 0 < δ) (p : ℕ) :
    ∃ (c : Ctx (Fl p) fun _ => .scalar) (v : Fl p),
      CtxStandsFor (Close Fl.val δ) (fun _ => .const [] 0) c ∧
      ((c74Sign (Fl p)).evaluate c).1 = .ok v ∧
      |v.val - (den (fun _ => .const [] 0) (.un .sign (.var 0))).val []| = 1 := by
  refine ⟨fun _ => some (⟨δ⟩ : Fl p), UnOp.apply .sign (⟨δ⟩ : Fl p), ?_, rfl, ?_⟩
  · intro i b hb
    cases hb
    refine standsFor_scalar rfl ?_
    show |δ - 0| ≤ δ
    rw [sub_zero, abs_of_pos hδ]
  · have h1 : (UnOp.apply .sign (⟨δ⟩ : Fl p)).val = 1 := by
      simp [UnOp.apply, ScalarFns.isZero, ScalarFns.signum, hδ.ne', hδ.not_gt]
    have h2 : (den (fun _ => Tensor.const [] (0 : ℝ)) (.un .sign (.var 0))).val [] = 0 := by
      simp [den, Tensor.map, Tensor.const, UnOp.apply, ScalarFns.isZero]
    rw [h1, h2]; norm_num

/-! ## Examples -/

/-- `ln(x) * sigmoid(x / y)`. -/
def c74E (F : Type) : Node F := .mul (.un .ln (.var 0)) (.un .sigmoid (.div (.var 0) (.var 1)))

/-- All variables are scalars. -/
abbrev c74Ty : Id → BTy := fun _ => .scalar

/-- Its evaluation. -/
def c74D (F : Type) : FnImpl c74Ty (c74E F) .scalar :=
  .mul (.un .ln (.var (Γ := c74Ty) 0))
    (.un .sigmoid (.div (.var (Γ := c74Ty) 0) (.var (Γ := c74Ty) 1) .ss)) .ss

/-- Values of the two variables. -/
def c74C (x y : ℝ) : Ctx ℝ c74Ty := fun i => if i = 0 then some x else if i = 1 then some y else none

theorem c74_regular (F : Type) : FnImpl.Regular (c74D F) :=
  ⟨trivial, trivial, trivial, by rintro ⟨-, ds, h, -⟩; cases h⟩

theorem c74_continuous {x y : ℝ} (hx : 0 < x) (hy : y ≠ 0) :
    ContinuousFor (envOf (c74C x y)) (c74E ℝ) :=
  ⟨⟨trivial, fun ix hix => by cases hix; exact .inr hx⟩,
    ⟨trivial, trivial, fun ix hix => by cases hix; exact hy⟩, fun _ _ => .inr trivial⟩

/-- In floating point, `ln(x) * sigmoid(x / y)` converges to what it should be as bits are added. -/
example (x y : ℝ) (hx : 0 < x) (hy : y ≠ 0) : ∃ v : ∀ p, Fl p,
    (∀ p, ((c74D (Fl p)).evaluate (convCtx (Fl.of p) (c74C x y))).1 = .ok (v p)) ∧
    Tendsto (fun p => (v p).val) atTop (𝓝 (UnOp.apply .ln x * UnOp.apply .sigmoid (x / y))) := by
  refine ⟨fun p => UnOp.apply .ln (Fl.of p x) * UnOp.apply .sigmoid (Fl.of p x / Fl.of p y),
    fun p => rfl, ?_⟩
  exact C74_rounded (is := [0, 1]) (E := c74E ℝ) (C := c74C x y) (d := fun p => c74D (Fl p))
    (fun i hi => by
      by_contra h
      simp only [List.mem_cons, List.not_mem_nil, or_false, not_or] at h
      exact hi (by simp [c74C, h.1, h.2]))
    (c74_continuous hx hy) (fun p => c74_regular _)
    (v := fun p => UnOp.apply .ln (Fl.of p x) * UnOp.apply .sigmoid (Fl.of p x / Fl.of p y))
    (fun p => rfl) (ix := []) .nil

/-- `ln x`, its adjoint and their evaluation. -/
def c74L (F : Type) : FnImpl c74Ty (.un .ln (.var 0) : Node F) .scalar :=
  .un .ln (.var (Γ := c74Ty) 0)

/-- The adjoint `x' / x`. -/
def c74LA (F : Type) : FnImpl c74Ty (.div (.varAdj 0 0) (.var 0) : Node F) .scalar :=
  .div (.varAdj (Γ := c74Ty) 0 0 .ss (Nat.zero_le _)) (.var (Γ := c74Ty) 0) .ss

/-- The derivative of `ln` computed with enough bits is `1 / x` up to any tolerance. -/
example (x ε : ℝ) (hx : 0 < x) (hε : 0 < ε) : ∃ (p : ℕ) (g : Fl p),
    ((c74LA (Fl p)).evaluate (fun _ => some (⟨x⟩ : Fl p))).1 = .ok g ∧ |g.val - 1 / x| ≤ ε := by
  obtain ⟨δ, hδ, h⟩ := C74_derivative (ρ := fun _ => .const [] x) (E := .un .ln (.var 0)) (t := 0)
    ⟨trivial, fun _ _ => .inr hx⟩ (fun n hn => by
      rcases hn with _ | ⟨hc, hn⟩
      simp only [children, List.mem_singleton] at hc
      subst hc
      rcases hn with _ | ⟨hc, hn⟩
      cases hc) ⟨trivial, fun _ _ => hx⟩ hε
  obtain ⟨p, hp⟩ := exists_pow_lt_of_lt_one hδ (show (1 / 2 : ℝ) < 1 by norm_num)
  refine ⟨p, 1 / (⟨x⟩ : Fl p), rfl, ?_⟩
  obtain ⟨g, D, hg, hD, hb⟩ := h (Fl p) Fl.val _ c74Ty _ _ _ _ (c74L (Fl p)) (c74LA (Fl p))
    (fun _ => some (⟨x⟩ : Fl p)) (UnOp.apply .ln (⟨x⟩ : Fl p)) (1 / (⟨x⟩ : Fl p)) (C74_float p) (by
      rw [← one_div_pow]
      exact (pow_le_pow_of_le_one (by norm_num) (by norm_num) (Nat.le_succ p)).trans hp.le)
    rfl trivial ⟨trivial, trivial, by rintro ⟨-, ds, h, -⟩; cases h⟩ (.un (.var 0))
    (fun i b hb => by
      cases hb
      exact standsFor_scalar rfl (by show |x - x| ≤ δ; simpa using hδ.le)) rfl rfl [] [] .nil .nil
  cases hg
  have hD' : HasDerivAt Real.log D x := by
    simpa [den, perturb, Tensor.map, Tensor.const, UnOp.apply, ScalarFns.ln] using hD
  rw [hD'.unique (Real.hasDerivAt_log hx.ne'), ← one_div] at hb
  exact hb

/-- The reals are an exact arithmetic. -/
theorem realApprox : Approx (id : ℝ → ℝ) 0 where
  nonneg := le_refl _
  zero := rfl
  one := rfl
  isZero x h := by simpa [ScalarFns.isZero] using h
  neg _ := rfl
  add x y := ⟨0, by simp⟩
  sub x y := ⟨0, by simp⟩
  mul x y := ⟨0, by simp⟩
  square x := ⟨0, by simp, by rw [rpow_two']; simp⟩
  fromUsize n k h := by cases h; exact ⟨0, by simp⟩
  div x y _ := ⟨0, by simp⟩
  eqb x y h := by simpa [ScalarFns.eqb] using h
  leb x y h := by simpa [ScalarFns.leb] using h
  abs _ := rfl
  signum _ _ := rfl
  pow x y _ := by simp [ScalarFns.pow]
  library op x _ _ := by simp

/-- `C74_exact` at work. -/
example (x y : ℝ) (hx : 0 < x) (hy : y ≠ 0) {v : ℝ} (h : ((c74D ℝ).evaluate (c74C x y)).1 = .ok v) :
    v = UnOp.apply .ln x * UnOp.apply .sigmoid (x / y) := by
  obtain ⟨w, hw, e⟩ := (C74_exact (c74_continuous hx hy) (c74D ℝ) (c74C x y) realApprox (c74_regular ℝ)
    (.mul (.un (.var 0)) (.un (.div (.var 0) (.var 1)))) (fun i b hb => by
      have : envOf (c74C x y) i = .ofBuf b := by simp only [envOf, hb]
      rw [this]
      exact standsFor_scalar rfl (by simp [Close, Tensor.ofBuf, Buf.getU])) h).2 [] .nil
  cases hw
  exact e

end Aegir.Props
