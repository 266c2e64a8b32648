import Verif.Lemmas.RangeBound
import Verif.Spec.Ieee
import Verif.Props.C61_Rounding
/-!
# C77: overflow and underflow
-/

namespace Aegir.Props

open Spec

section
variable {F : Type} [Zero F] [One F] [Add F] [Sub F] [Mul F] [Div F] [Neg F] [ScalarFns F]
variable {Γ : Id → BTy} {val : F → ℝ} {fin : F → Prop} {u lo hi θ : ℝ} {e : Node F} {τ : BTy}

/-- With IEEE arithmetic, whenever an entry that `evaluate` returns is a number, it is the exact one
up to `(1 + u)^k - 1` times the exact value of the expression with all signs made positive, where `k`
is the number of roundings and variables and constants smaller than `θ` count as `θ`, which has to
be large enough that underflow cannot matter. -/
theorem C77_accurate (hv : Ranged val fin u lo hi) (h0 : 0 < θ) (h1 : θ ≤ 1) (d : FnImpl Γ e τ)
    (he : RingExpr e) (hr : FnImpl.Regular d) (c : Ctx F Γ)
    (hl : lo ≤ θ ^ (roundings (ctxDims c) e + 1)) {v : Buf F τ} (h : (d.evaluate c).1 = .ok v) :
    Buf.dims τ v = (den (envOf (convCtx val c)) (conv val e)).dims ∧
      ∀ ix, InBounds (Buf.dims τ v) ix → ∃ x, Buf.getU τ v ix = some x ∧
        (fin x → |val x - (den (envOf (convCtx val c)) (conv val e)).val ix|
          ≤ ((1 + u) ^ roundings (ctxDims c) e - 1) *
            (den (envOf (convCtx (atLeast θ val) c)) (positive (atLeast θ val) e)).val ix) := by
  have := ((d.finite_spec hv h0 h1 he hr c).1.2 v h).1
  refine ⟨this.2.1, fun ix hix => ?_⟩
  obtain ⟨x, hx, hn⟩ := this.2.2 ix (this.2.1 ▸ hix)
  exact ⟨x, hx, fun hf => (hn.2.2 hf hl).2⟩

/-- The same holds of `evaluate_spec`. -/
theorem C77_accurate_spec (hv : Ranged val fin u lo hi) (h0 : 0 < θ) (h1 : θ ≤ 1)
    (d : FnImpl Γ e τ) (he : RingExpr e) (hr : FnImpl.Regular d) (c : Ctx F Γ)
    (hl : lo ≤ θ ^ (roundings (ctxDims c) e + 1)) {s : BSpec F τ}
    (h : (d.evaluateSpec c).1 = .ok s) :
    Buf.dims τ s.unwrap = (den (envOf (convCtx val c)) (conv val e)).dims ∧
      ∀ ix, InBounds (Buf.dims τ s.unwrap) ix → ∃ x, Buf.getU τ s.unwrap ix = some x ∧
        (fin x → |val x - (den (envOf (convCtx val c)) (conv val e)).val ix|
          ≤ ((1 + u) ^ roundings (ctxDims c) e - 1) *
            (den (envOf (convCtx (atLeast θ val) c)) (positive (atLeast θ val) e)).val ix) := by
  have := ((d.finite_spec hv h0 h1 he hr c).2.2 s h).1
  refine ⟨this.2.1, fun ix hix => ?_⟩
  obtain ⟨x, hx, hn⟩ := this.2.2 ix (this.2.1 ▸ hix)
  exact ⟨x, hx, fun hf => (hn.2.2 hf hl).2⟩

/-- If variables and constants are numbers and no intermediate result can leave the range, then all
entries that `evaluate` returns are numbers, and accurate. -/
theorem C77_in_range (hv : Ranged val fin u lo hi) (h0 : 0 < θ) (h1 : θ ≤ 1) (d : FnImpl Γ e τ)
    (he : RingExpr e) (hr : FnImpl.Regular d) (c : Ctx F Γ) (hc : CtxAll fin c)
    (hR : Ranges fin (inRange u lo hi θ) False (ctxDims c) (envOf (convCtx (atLeast θ val) c))
      (atLeast θ val) e) {v : Buf F τ} (h : (d.evaluate c).1 = .ok v) :
    Buf.dims τ v = (den (envOf (convCtx val c)) (conv val e)).dims ∧
      ∀ ix, InBounds (Buf.dims τ v) ix → ∃ x, Buf.getU τ v ix = some x ∧ fin x ∧
        |val x - (den (envOf (convCtx val c)) (conv val e)).val ix|
          ≤ ((1 + u) ^ roundings (ctxDims c) e - 1) *
            (den (envOf (convCtx (atLeast θ val) c)) (positive (atLeast θ val) e)).val ix := by
  have := ((d.ranged_spec hv h0 h1 he hr c hc hR).1.2 v h).1
  refine ⟨this.2.1, fun ix hix => ?_⟩
  obtain ⟨x, hx, hn⟩ := this.2.2 ix (this.2.1 ▸ hix)
  exact ⟨x, hx, hn.2.1, hn.2.2.2⟩

/-- The same holds of `evaluate_spec`. -/
theorem C77_in_range_spec (hv : Ranged val fin u lo hi) (h0 : 0 < θ) (h1 : θ ≤ 1)
    (d : FnImpl Γ e τ) (he : RingExpr e) (hr : FnImpl.Regular d) (c : Ctx F Γ) (hc : CtxAll fin c)
    (hR : Ranges fin (inRange u lo hi θ) False (ctxDims c) (envOf (convCtx (atLeast θ val) c))
      (atLeast θ val) e) {s : BSpec F τ} (h : (d.evaluateSpec c).1 = .ok s) :
    Buf.dims τ s.unwrap = (den (envOf (convCtx val c)) (conv val e)).dims ∧
      ∀ ix, InBounds (Buf.dims τ s.unwrap) ix → ∃ x, Buf.getU τ s.unwrap ix = some x ∧ fin x ∧
        |val x - (den (envOf (convCtx val c)) (conv val e)).val ix|
          ≤ ((1 + u) ^ roundings (ctxDims c) e - 1) *
            (den (envOf (convCtx (atLeast θ val) c)) (positive (atLeast θ val) e)).val ix := by
  have := ((d.ranged_spec hv h0 h1 he hr c hc hR).2.2 s h).1
  refine ⟨this.2.1, fun ix hix => ?_⟩
  obtain ⟨x, hx, hn⟩ := this.2.2 ix (this.2.1 ▸ hix)
  exact ⟨x, hx, hn.2.1, hn.2.2.2⟩

/-- The computed derivative: if in range, the entries of the evaluated adjoint are numbers, and the
partial derivatives of the exact function up to the roundings of the adjoint expression. -/
theorem C77_derivative (hv : Ranged val fin u lo hi) (h0 : 0 < θ) (h1 : θ ≤ 1) {e' : Node F} {t : Id}
    (ha : e.adjoint t = some e') (he : RingExpr e) {σ : BTy} (d : FnImpl Γ e τ) (da : FnImpl Γ e' σ)
    (hr : FnImpl.Regular d) (hra : FnImpl.Regular da) (c : Ctx F Γ) (hc : CtxAll fin c)
    (hR : Ranges fin (inRange u lo hi θ) False (ctxDims c) (envOf (convCtx (atLeast θ val) c))
      (atLeast θ val) e') {v : Buf F τ} {a : Buf F σ}
    (h : (d.evaluate c).1 = .ok v) (h' : (da.evaluate c).1 = .ok a) {b : Buf F (Γ t)}
    (hb : c t = some b) (hs : Smooth (envOf (convCtx val c)) t (conv val e)) :
    ∀ ix K, InBounds (Buf.dims τ v) ix → InBounds (Buf.dims _ b) K →
      ∃ g x D, Buf.getU σ a (ix ++ K) = some g ∧ Buf.getU _ b K = some x ∧ fin g ∧
        HasDerivAt (fun s => (den (perturb (envOf (convCtx val c)) t K s) (conv val e)).val ix) D
          (val x) ∧
        |val g - D| ≤ ((1 + u) ^ roundings (ctxDims c) e' - 1) *
          (den (envOf (convCtx (atLeast θ val) c)) (positive (atLeast θ val) e')).val (ix ++ K) := by
  intro ix K hix hK
  have h1' := (d.finite_spec hv h0 h1 he hr c).1.2 v h
  have h2 := (da.ranged_spec hv h0 h1 (he.adjoint ha) hra c hc hR).1.2 a h'
  have hb' := nearT_envOf (val := val) (u := u) c t b hb
  have hadj : (conv val e).adjoint t = some (conv val e') := by rw [conv_adjoint, ha]; rfl
  have hK' : InBounds (envOf (convCtx val c) t).dims K := hb'.2.1 ▸ hK
  obtain ⟨hd, hD⟩ := den_deriv hadj h1'.2 h2.2 hs hK'
  have hix' : InBounds (den (envOf (convCtx val c)) (conv val e)).dims ix := h1'.1.2.1 ▸ hix
  obtain ⟨g, hg, hn⟩ := h2.1.2.2 (ix ++ K) (by rw [hd]; exact List.rel_append hix' hK')
  obtain ⟨x, hx, -⟩ := hb'.2.2 K hK'
  refine ⟨g, x, _, hg, hx, hn.2.1, ?_, hn.2.2.2⟩
  have hval : (envOf (convCtx val c) t).val K = val x := by
    unfold envOf convCtx
    simp only [hb, Option.map_some, Tensor.ofBuf, Buf.getU_map, hx, Option.getD_some]
  have := hD ix hix'
  rwa [hval] at this

omit [Div F] in
/-- A simple condition for being in range: variables and constants are at most `B`, and `B ^ (K + 1)`
is in range, where `K` is the number of roundings. -/
theorem C77_moderate (hv : Ranged val fin u lo hi) (h0 : 0 < θ) (h1 : θ ≤ 1) {B : ℝ} (hB : 2 ≤ B)
    {K : ℕ} (hlo : lo ≤ θ ^ (K + 1)) (hhi : B ^ (K + 1) * (1 + u) ^ K ≤ hi) (he : RingExpr e)
    (c : Ctx F Γ) (hc : CtxAll (fun x => |val x| ≤ B) c)
    (he' : ConstsAll (fun x => fin x ∧ |val x| ≤ B) e) (hn : NonemptySums (ctxDims c) e)
    (hK : ∀ n, SubExpr n e → roundings (ctxDims c) n ≤ K) :
    Ranges fin (inRange u lo hi θ) False (ctxDims c) (envOf (convCtx (atLeast θ val) c))
      (atLeast θ val) e :=
  ranges_of_moderate hv.nonneg h0 h1 hB hlo hhi he c hc he' hn hK

end

/-! ## Doubles -/

/-- Double precision is arithmetic of limited range in the sense of the theorems. -/
theorem C77_double : Ranged (F := Double) Fp.val Fp.Finite (1 / 2 ^ 53) (2 ^ (-1022 : ℤ))
    (largest 52 971) := by
  have h := Fp.ranged (p := 52) (q := 1074) (E := 971) (by norm_num)
  have e : (((52 : ℕ) : ℤ) - ((1074 : ℕ) : ℤ)) = -1022 := by norm_num
  rw [e] at h
  exact h

theorem large_double : (2 : ℝ) ^ 1022 * 2 ≤ largest 52 971 := by
  have e : (2 : ℝ) ^ 1022 * 2 = 2 ^ 52 * 2 ^ 971 := by rw [← pow_succ, ← pow_add]
  rw [e]
  unfold largest
  refine mul_le_mul_of_nonneg_right ?_ (by positivity)
  norm_num

/-- Doubles: an expression of `K` roundings whose variables and constants are at most `2 ^ b`, where
`b (K + 1) ≤ 1022`, evaluates to numbers, and accurately if magnitudes less than `2 ^ -b` are counted
as `2 ^ -b`. -/
theorem C77_double_safe {Γ : Id → BTy} {e : Node Double} {τ : BTy} {b K : ℕ} (hb : 1 ≤ b)
    (hbK : b * (K + 1) ≤ 1022) (d : FnImpl Γ e τ) (he : RingExpr e) (hr : FnImpl.Regular d)
    (c : Ctx Double Γ) (hc : CtxAll (fun x => x.Finite ∧ |x.val| ≤ 2 ^ b) c)
    (he' : ConstsAll (fun x => x.Finite ∧ |x.val| ≤ 2 ^ b) e) (hn : NonemptySums (ctxDims c) e)
    (hK : ∀ n, SubExpr n e → roundings (ctxDims c) n ≤ K) {v : Buf Double τ}
    (h : (d.evaluate c).1 = .ok v) :
    Buf.dims τ v = (den (envOf (convCtx Fp.val c)) (conv Fp.val e)).dims ∧
      ∀ ix, InBounds (Buf.dims τ v) ix → ∃ x, Buf.getU τ v ix = some x ∧ x.Finite ∧
        |x.val - (den (envOf (convCtx Fp.val c)) (conv Fp.val e)).val ix|
          ≤ ((1 + 1 / 2 ^ 53) ^ roundings (ctxDims c) e - 1) *
            (den (envOf (convCtx (atLeast (1 / 2 ^ b) Fp.val) c))
              (positive (atLeast (1 / 2 ^ b) Fp.val) e)).val ix := by
  have h2b : (2 : ℝ) ≤ 2 ^ b := by
    calc (2 : ℝ) = 2 ^ 1 := by norm_num
      _ ≤ 2 ^ b := pow_le_pow_right₀ (by norm_num) hb
  have hpb : (0 : ℝ) < 2 ^ b := by positivity
  have h0 : (0 : ℝ) < 1 / 2 ^ b := by positivity
  have h1 : (1 : ℝ) / 2 ^ b ≤ 1 := by rw [div_le_one hpb]; linarith
  have hK' : K ≤ 1021 := by nlinarith
  refine C77_in_range C77_double h0 h1 d he hr c (fun i b' hb' ix x hx => (hc i b' hb' ix x hx).1)
    (C77_moderate C77_double h0 h1 h2b ?_ ?_ he c
      (fun i b' hb' ix x hx => (hc i b' hb' ix x hx).2) he' hn hK) h
  · rw [zpow_neg, one_div, inv_pow, ← pow_mul, show ((1022 : ℤ)) = ((1022 : ℕ) : ℤ) by norm_num,
      zpow_natCast]
    exact inv_anti₀ (by positivity) (pow_le_pow_right₀ (by norm_num) hbK)
  · have hu : (K : ℝ) * (1 / 2 ^ 53) ≤ 1 / 2 := by
      have : (K : ℝ) ≤ 1021 := by exact_mod_cast hK'
      calc (K : ℝ) * (1 / 2 ^ 53) ≤ 1021 * (1 / 2 ^ 53) :=
            mul_le_mul_of_nonneg_right this (by positivity)
        _ ≤ 1 / 2 := by norm_num
    have hg := C61_gamma (u := 1 / 2 ^ 53) (by positivity) K (by linarith)
    have h3 : (K : ℝ) * (1 / 2 ^ 53) / (1 - K * (1 / 2 ^ 53)) ≤ 1 := by
      rw [div_le_one (by linarith)]; linarith
    have h4 : (1 + 1 / 2 ^ 53 : ℝ) ^ K ≤ 2 := by linarith
    rw [← pow_mul]
    calc (2 : ℝ) ^ (b * (K + 1)) * (1 + 1 / 2 ^ 53) ^ K ≤ 2 ^ 1022 * 2 :=
          mul_le_mul (pow_le_pow_right₀ (by norm_num) hbK) h4 (by positivity) (by positivity)
      _ ≤ largest 52 971 := large_double

/-- The double `2 ^ k`. -/
noncomputable def c77Pow (k : ℤ) (h1 : -1074 ≤ k) (h2 : k ≤ 971) : Double :=
  .num (2 ^ k) (Fp.represents_two_pow h1 h2)

/-- `x²` for scalars. -/
def c77S : Node Double := .mul (.var 0) (.var 0)

/-- Its evaluation. -/
def c77SD : FnImpl c61Ty c77S .scalar := .mul (.var (Γ := c61Ty) 0) (.var (Γ := c61Ty) 0) .ss

/-- `x² - x²` for scalars. -/
def c77N : Node Double := .sub c77S c77S

/-- Its evaluation. -/
def c77ND : FnImpl c61Ty c77N .scalar := .sub c77SD c77SD .ss

theorem c77_square_large :
    c77Pow 600 (by norm_num) (by norm_num) * c77Pow 600 (by norm_num) (by norm_num) = .inf false := by
  show Fp.round ((2 : ℝ) ^ (600 : ℤ) * 2 ^ (600 : ℤ)) = _
  rw [← zpow_add₀ (by norm_num)]
  refine Fp.round_large ?_ (zpow_le_zpow_right₀ (by norm_num) (by norm_num))
  have h1 : largest 52 971 ≤ 2 ^ (1024 : ℤ) := by
    unfold largest
    rw [show (1024 : ℤ) = ((53 : ℕ) : ℤ) + ((971 : ℕ) : ℤ) by norm_num, zpow_add₀ (by norm_num),
      zpow_natCast, zpow_natCast]
    exact mul_le_mul_of_nonneg_right (by norm_num) (by positivity)
  calc 2 * largest 52 971 ≤ 2 * 2 ^ (1024 : ℤ) := by linarith
    _ = 2 ^ (1025 : ℤ) := by
      rw [show (1025 : ℤ) = 1 + 1024 by norm_num, zpow_add₀ (by norm_num), zpow_one]
    _ < 2 ^ ((600 : ℤ) + 600) := zpow_lt_zpow_right₀ (by norm_num) (by norm_num)

/-- Without a bound on the variables, doubles overflow: `x²` at `2^600`. -/
theorem C77_overflow_caveat : ∃ (c : Ctx Double c61Ty), CtxAll Fp.Finite c ∧
    (c77SD.evaluate c).1 = .ok (.inf false : Double) := by
  refine ⟨fun _ => some (c77Pow 600 (by norm_num) (by norm_num)), ?_, ?_⟩
  · intro i b hb ix x hx
    cases hb
    cases ix with
    | nil => cases hx; trivial
    | cons i ix => cases hx
  · exact congrArg Res.ok c77_square_large

/-- And what could have been zero may end up as a NaN: `x² - x²` at `2^600`. -/
theorem C77_nan_caveat : ∃ (c : Ctx Double c61Ty), CtxAll Fp.Finite c ∧
    (c77ND.evaluate c).1 = .ok (.nan : Double) ∧
    (den (envOf (convCtx Fp.val c)) (conv Fp.val c77N)).val [] = 0 := by
  refine ⟨fun _ => some (c77Pow 600 (by norm_num) (by norm_num)), ?_, ?_, ?_⟩
  · intro i b hb ix x hx
    cases hb
    cases ix with
    | nil => cases hx; trivial
    | cons i ix => cases hx
  · have e : (c77Pow 600 (by norm_num) (by norm_num) * c77Pow 600 (by norm_num) (by norm_num)
        - c77Pow 600 (by norm_num) (by norm_num) * c77Pow 600 (by norm_num) (by norm_num) : Double)
        = .nan := by rw [c77_square_large]; rfl
    exact congrArg Res.ok e
  · exact sub_self _

theorem c77_square_tiny :
    (c77Pow (-600) (by norm_num) (by norm_num) * c77Pow (-600) (by norm_num) (by norm_num)).Finite ∧
    (c77Pow (-600) (by norm_num) (by norm_num) * c77Pow (-600) (by norm_num) (by norm_num)).val
      = 0 := by
  have e : fround 52 1074 ((2 : ℝ) ^ (-600 : ℤ) * 2 ^ (-600 : ℤ)) = 0 := by
    refine Fp.fround_tiny ?_
    rw [← zpow_add₀ (by norm_num), abs_of_pos (by positivity)]
    have : (1 : ℝ) / 2 * 2 ^ (-((1074 : ℕ) : ℤ)) = 2 ^ (-1075 : ℤ) := by
      rw [show (-1075 : ℤ) = -1 + -((1074 : ℕ) : ℤ) by norm_num, zpow_add₀ (by norm_num)]
      norm_num only
    rw [this]
    exact zpow_lt_zpow_right₀ (by norm_num) (by norm_num)
  have hf : (c77Pow (-600) (by norm_num) (by norm_num)
      * c77Pow (-600) (by norm_num) (by norm_num)).Finite := by
    refine Fp.finite_round.2 ?_
    rw [e, abs_zero]
    linarith [Fp.one_le_largest (p := 52) (E := 971)]
  exact ⟨hf, (Fp.val_round hf).trans e⟩

/-- Doubles underflow, so no relative error bound holds without a floor: `x²` at `2^-600` evaluates
to zero. -/
theorem C77_underflow_caveat : ∃ (c : Ctx Double c61Ty) (r : Double), CtxAll Fp.Finite c ∧
    (c77SD.evaluate c).1 = .ok r ∧ r.Finite ∧ r.val = 0 ∧
    (den (envOf (convCtx Fp.val c)) (conv Fp.val c77S)).val [] ≠ 0 := by
  refine ⟨fun _ => some (c77Pow (-600) (by norm_num) (by norm_num)), _, ?_, rfl, c77_square_tiny.1,
    c77_square_tiny.2, ?_⟩
  · intro i b hb ix x hx
    cases hb
    cases ix with
    | nil => cases hx; trivial
    | cons i ix => cases hx
  · have : (den (envOf (convCtx Fp.val (fun _ => some (c77Pow (-600) (by norm_num) (by norm_num)) :
        Ctx Double c61Ty))) (conv Fp.val c77S)).val [] = (2 : ℝ) ^ (-600 : ℤ) * 2 ^ (-600 : ℤ) := rfl
    rw [this]
    positivity

/-- The standard model, which has no bounds on the size of numbers (C61), is not true of doubles,
whatever the precision granted. -/
theorem C77_not_standard_model {u : ℝ} (hu : u < 1) : ¬ Rounding (F := Double) Fp.val u := by
  intro h
  obtain ⟨δ, hδ, e⟩ := h.mul (c77Pow (-600) (by norm_num) (by norm_num))
    (c77Pow (-600) (by norm_num) (by norm_num))
  rw [c77_square_tiny.2] at e
  have h1 : (0 : ℝ) < (c77Pow (-600) (by norm_num) (by norm_num)).val := by
    show (0 : ℝ) < 2 ^ (-600 : ℤ)
    positivity
  have h2 : (0 : ℝ) < 1 + δ := by have := (abs_le.1 hδ).1; linarith
  have := mul_pos (mul_pos h1 h1) h2
  linarith

/-! ## Examples -/

/-- `x² - y` for scalars. -/
def c77E : Node Double := .sub c77S (.var 1)

/-- Its evaluation. -/
def c77ED : FnImpl c61Ty c77E .scalar := .sub c77SD (.var (Γ := c61Ty) 1) .ss

theorem c77_ring : RingExpr c77E := ⟨⟨trivial, trivial⟩, trivial⟩

theorem c77_regular : FnImpl.Regular c77ED :=
  ⟨⟨trivial, trivial⟩, trivial, fun ⟨_, ds, h, _⟩ => by cases h⟩

theorem c77_noConst : ∀ n t, ¬ SubExpr (.constAdj n t) c77E := by
  intro n t h
  cases h with | step hc h =>
  simp only [c77E, children, List.mem_cons, List.not_mem_nil, or_false] at hc
  rcases hc with rfl | rfl
  · cases h with | step hc h =>
    simp only [c77S, children, List.mem_cons, List.not_mem_nil, or_false, or_self] at hc
    subst hc
    cases h with | step hc h => simp [children] at hc
  · cases h with | step hc h => simp [children] at hc

/-- `x² - y` in double precision, for numbers up to `2^300`: the result is a number, and accurate. -/
example (x y : Double) (hx : x.Finite ∧ |x.val| ≤ 2 ^ 300) (hy : y.Finite ∧ |y.val| ≤ 2 ^ 300) :
    (x * x - y).Finite ∧ |(x * x - y).val - (x.val * x.val - y.val)|
      ≤ ((1 + 1 / 2 ^ 53) ^ 2 - 1) * (max (1 / 2 ^ 300) |x.val| * max (1 / 2 ^ 300) |x.val|
        + max (1 / 2 ^ 300) |y.val|) := by
  obtain ⟨-, hb⟩ := C77_double_safe (b := 300) (K := 2) (by norm_num) (by norm_num) c77ED c77_ring
    c77_regular (fun i => if i = 0 then some x else some y)
    (fun i b hb ix z hz => by
      have : b = x ∨ b = y := by
        by_cases h : i = 0
        · simp only [h, if_true, Option.some.injEq] at hb; exact .inl hb.symm
        · simp only [h, if_false, Option.some.injEq] at hb; exact .inr hb.symm
      have hz' : b = z := by
        cases ix with
        | nil => exact Option.some.inj hz
        | cons i ix => cases hz
      rcases this with h | h <;> rw [← hz', h] <;> assumption)
    ⟨⟨trivial, trivial⟩, trivial⟩ ⟨⟨trivial, trivial⟩, trivial⟩
    (fun n hn => roundings_sub hn c77_ring fun n t h => (c77_noConst n t h).elim)
    (v := x * x - y) rfl
  obtain ⟨r, hr, hf, hb⟩ := hb [] .nil
  cases hr
  refine ⟨hf, hb.trans (le_of_eq ?_)⟩
  congr 1

/-- The value of a double, should it be a number, is accurate even without a bound on `x`. -/
example (x : Double) (hf : (x * x).Finite) :
    |(x * x).val - x.val * x.val| ≤ ((1 + 1 / 2 ^ 53) ^ 1 - 1) *
      (max (1 / 2 ^ 511) |x.val| * max (1 / 2 ^ 511) |x.val|) := by
  obtain ⟨-, hb⟩ := C77_accurate C77_double (θ := 1 / 2 ^ 511) (by positivity)
    (by rw [div_le_one (by positivity)]; exact one_le_pow₀ (by norm_num)) c77SD ⟨trivial, trivial⟩
    ⟨trivial, trivial⟩ (fun _ => some x) (by
      rw [one_div, inv_pow, ← pow_mul, zpow_neg, show ((1022 : ℤ)) = ((1022 : ℕ) : ℤ) by norm_num,
        zpow_natCast]
      rfl) (v := x * x) rfl
  obtain ⟨r, hr, hb⟩ := hb [] .nil
  cases hr
  exact hb hf

/-- The same of `evaluate_spec`, whether or not a bound on `x` is known. -/
example (x : Double) :
    ((x * x).Finite → |(x * x).val - x.val * x.val| ≤ ((1 + 1 / 2 ^ 53) ^ 1 - 1) *
      (max (1 / 2 ^ 511) |x.val| * max (1 / 2 ^ 511) |x.val|)) ∧
    (x.Finite ∧ max (1 / 2 ^ 511) |x.val| * max (1 / 2 ^ 511) |x.val|
      ≤ largest 52 971 / (1 + 1 / 2 ^ 53) ^ 1 → (x * x).Finite) := by
  have h1 : (1 : ℝ) / 2 ^ 511 ≤ 1 := by
    rw [div_le_one (by positivity)]; exact one_le_pow₀ (by norm_num)
  have hl : (2 : ℝ) ^ (-1022 : ℤ) ≤ (1 / 2 ^ 511) ^ (1 + 1) := by
    rw [one_div, inv_pow, ← pow_mul, zpow_neg, show ((1022 : ℤ)) = ((1022 : ℕ) : ℤ) by norm_num,
      zpow_natCast]
  constructor
  · intro hf
    obtain ⟨-, hb⟩ := C77_accurate_spec C77_double (θ := 1 / 2 ^ 511) (by positivity) h1 c77SD
      ⟨trivial, trivial⟩ ⟨trivial, trivial⟩ (fun _ => some x) hl (s := .raw (x * x)) rfl
    obtain ⟨r, hr, hb⟩ := hb [] .nil
    cases hr
    exact hb hf
  · rintro ⟨hx, hm⟩
    obtain ⟨-, hb⟩ := C77_in_range_spec C77_double (θ := 1 / 2 ^ 511) (by positivity) h1 c77SD
      ⟨trivial, trivial⟩ ⟨trivial, trivial⟩ (fun _ => some x) (fun i b hb ix z hz => by
        cases hb
        cases ix with
        | nil => cases hz; exact hx
        | cons i ix => cases hz) ⟨trivial, trivial, fun ix _ => ⟨hl, hm⟩⟩ (s := .raw (x * x)) rfl
    obtain ⟨r, hr, hf, -⟩ := hb [] .nil
    cases hr
    exact hf

/-- The evaluation of the adjoint of `x²`. -/
def c77SA : FnImpl c61Ty (.add (.mul (.varAdj 0 0) (.var 0)) (.mul (.varAdj 0 0) (.var 0)) :
    Node Double) .scalar :=
  .add (.mul (.varAdj (Γ := c61Ty) 0 0 .ss (Nat.zero_le _)) (.var (Γ := c61Ty) 0) .ss)
    (.mul (.varAdj (Γ := c61Ty) 0 0 .ss (Nat.zero_le _)) (.var (Γ := c61Ty) 0) .ss) .ss

/-- The derivative of `x²` in double precision, for `x` up to `2^300`. -/
example (x : Double) (hx : x.Finite ∧ |x.val| ≤ 2 ^ 300) :
    ∃ g : Double, (c77SA.evaluate (fun _ => some x)).1 = .ok g ∧ g.Finite ∧
      ∃ D, HasDerivAt (fun s => s * s) D x.val ∧
        |g.val - D| ≤ ((1 + 1 / 2 ^ 53) ^ 2 - 1) * (max (1 / 2 ^ 300) |x.val|
          + max (1 / 2 ^ 300) |x.val|) := by
  have h0 : (0 : ℝ) < 1 / 2 ^ 300 := by positivity
  have h1 : (1 : ℝ) / 2 ^ 300 ≤ 1 := by
    rw [div_le_one (by positivity)]; exact one_le_pow₀ (by norm_num)
  have hc : CtxAll (fun z => z.Finite ∧ |z.val| ≤ 2 ^ 300) (fun _ => some x : Ctx Double c61Ty) := by
    intro i b hb ix z hz
    cases hb
    cases ix with
    | nil => cases hz; exact hx
    | cons i ix => cases hz
  have hring : RingExpr (.add (.mul (.varAdj 0 0) (.var 0)) (.mul (.varAdj 0 0) (.var 0)) :
    Node Double) := ⟨⟨trivial, trivial⟩, ⟨trivial, trivial⟩⟩
  have hno : ∀ n t, ¬ SubExpr (.constAdj n t) (.add (.mul (.varAdj 0 0) (.var 0))
      (.mul (.varAdj 0 0) (.var 0)) : Node Double) := by
    intro n t h
    cases h with | step hc h =>
    simp only [children, List.mem_cons, List.not_mem_nil, or_false, or_self] at hc
    subst hc
    cases h with | step hc h =>
    simp only [children, List.mem_cons, List.not_mem_nil, or_false] at hc
    rcases hc with rfl | rfl
    · cases h with | step hc h => simp [children] at hc
    · cases h with | step hc h => simp [children] at hc
  have hR := C77_moderate C77_double h0 h1 (B := 2 ^ 300) (K := 2)
    (by
      calc (2 : ℝ) = 2 ^ 1 := by norm_num
        _ ≤ 2 ^ 300 := pow_le_pow_right₀ (by norm_num) (by norm_num))
    (by
      rw [zpow_neg, one_div, inv_pow, ← pow_mul, show ((1022 : ℤ)) = ((1022 : ℕ) : ℤ) by norm_num,
        zpow_natCast]
      exact inv_anti₀ (by positivity) (pow_le_pow_right₀ (by norm_num) (by norm_num)))
    (by
      refine le_trans ?_ large_double
      rw [← pow_mul]
      exact mul_le_mul (pow_le_pow_right₀ (by norm_num) (by norm_num)) (by norm_num) (by positivity)
        (by positivity)) hring
    (fun _ => some x : Ctx Double c61Ty) (fun i b hb ix z hz => (hc i b hb ix z hz).2)
    ⟨⟨trivial, trivial⟩, ⟨trivial, trivial⟩⟩ ⟨⟨trivial, trivial⟩, ⟨trivial, trivial⟩⟩
    (fun n hn => roundings_sub hn hring fun n t h => (hno n t h).elim)
  refine ⟨1 * x + 1 * x, rfl, ?_⟩
  obtain ⟨g, y, D, hg, hy, hf, hD, hb⟩ := C77_derivative C77_double h0 h1 (t := 0) (e := c77S) rfl
    ⟨trivial, trivial⟩ c77SD c77SA ⟨trivial, trivial⟩
    ⟨⟨trivial, trivial⟩, ⟨trivial, trivial⟩⟩ (fun _ => some x)
    (fun i b hb ix z hz => (hc i b hb ix z hz).1) hR (v := x * x)
    (a := 1 * x + 1 * x) rfl rfl (b := x) rfl ⟨trivial, trivial⟩ [] [] .nil .nil
  cases hg; cases hy
  refine ⟨hf, D, hD, hb.trans (le_of_eq ?_)⟩
  have hM : (den (envOf (convCtx (atLeast (1 / 2 ^ 300) Fp.val) (fun _ => some x : Ctx Double c61Ty)))
      (positive (atLeast (1 / 2 ^ 300) Fp.val) (.add (.mul (.varAdj 0 0) (.var 0))
        (.mul (.varAdj 0 0) (.var 0)) : Node Double))).val ([] ++ [])
      = 1 * max (1 / 2 ^ 300) |x.val| + 1 * max (1 / 2 ^ 300) |x.val| := rfl
  rw [hM, one_mul]
  rfl

/-- Dot products of doubles are numbers as long as the entries are not too large for their
number. -/
example (n b : ℕ) (hn : n ≠ 0) (hb : 1 ≤ b) (hbn : b * (n + 4) ≤ 1022)
    (x y : Buf Double (.array [n])) (hx : ∀ ix z, Buf.getU _ x ix = some z → z.Finite ∧ |z.val| ≤ 2 ^ b)
    (hy : ∀ ix z, Buf.getU _ y ix = some z → z.Finite ∧ |z.val| ≤ 2 ^ b) {r : Double}
    (h : ((FnImpl.contract (.var (Γ := c61Vec n) 0) (.var (Γ := c61Vec n) 1) (.dot n)).evaluate
      (fun i => if i = 0 then some x else some y)).1 = .ok r) : r.Finite := by
  have hc : CtxAll (fun z => z.Finite ∧ |z.val| ≤ 2 ^ b)
      (fun i => if i = 0 then some x else some y : Ctx Double (c61Vec n)) := by
    intro i w hw
    by_cases hi : i = 0
    · simp only [hi, if_true, Option.some.injEq] at hw; subst hw; exact hx
    · simp only [hi, if_false, Option.some.injEq] at hw; subst hw; exact hy
  have hd : ctxDims (fun i => if i = 0 then some x else some y : Ctx Double (c61Vec n)) 1 = [n] := rfl
  have hring : RingExpr (.contract 1 (.var 0) (.var 1) : Node Double) := ⟨trivial, trivial⟩
  have hK : roundings (ctxDims (fun i => if i = 0 then some x else some y : Ctx Double (c61Vec n)))
      (.contract 1 (.var 0) (.var 1) : Node Double) = n + 3 := by
    simp [roundings, extents, hd]
  obtain ⟨-, hb⟩ := C77_double_safe hb (K := n + 3) hbn
    (FnImpl.contract (.var (Γ := c61Vec n) 0) (.var (Γ := c61Vec n) 1) (.dot n)) hring
    ⟨trivial, trivial, fun _ _ _ ha => (by cases ha), fun _ _ _ _ hb => (by cases hb)⟩ _ hc
    ⟨trivial, trivial⟩ ⟨trivial, trivial, by simp [extents, hd, hn]⟩
    (fun m hm => (roundings_sub hm hring fun m t h => by
      cases h with | step hc h =>
      simp only [children, List.mem_cons, List.not_mem_nil, or_false] at hc
      rcases hc with rfl | rfl
      · cases h with | step hc h => simp [children] at hc
      · cases h with | step hc h => simp [children] at hc).trans hK.le) h
  obtain ⟨r', hr', hf, -⟩ := hb [] .nil
  cases hr'
  exact hf

end Aegir.Props
