import Verif.Lemmas.RoundingExpr
import Verif.Spec.Float
import Mathlib.Topology.Algebra.Polynomial
/-!
# C61: rounding errors
-/

namespace Aegir.Props

open Spec

section
variable {F : Type} [Zero F] [One F] [Add F] [Sub F] [Mul F] [Div F] [Neg F] [ScalarFns F]
variable {Γ : Id → BTy} {val : F → ℝ} {u : ℝ} {e : Node F} {τ : BTy}

/-- With rounded arithmetic, every entry `evaluate` returns is the exact one up to
`(1 + u)^k - 1` times the exact value of the expression with all signs made positive, where `k` is the
number of roundings. -/
theorem C61_error (hv : Rounding val u) (d : FnImpl Γ e τ) (he : RingExpr e)
    (hr : FnImpl.Regular d) (c : Ctx F Γ) {v : Buf F τ} (h : (d.evaluate c).1 = .ok v) :
    Buf.dims τ v = (den (envOf (convCtx val c)) (conv val e)).dims ∧
      ∀ ix, InBounds (Buf.dims τ v) ix → ∃ x, Buf.getU τ v ix = some x ∧
        |val x - (den (envOf (convCtx val c)) (conv val e)).val ix|
          ≤ ((1 + u) ^ roundings (ctxDims c) e - 1) *
            (den (envOf (convCtx (fun x => |val x|) c)) (positive val e)).val ix := by
  have := ((d.near_spec hv he hr c (envOf_conv_dims val c)
    (σ := envOf (convCtx (fun x => |val x|) c)) (nearT_envOf c)).1.2 v h).1
  refine ⟨this.2.1, fun ix hix => ?_⟩
  obtain ⟨x, hx, hn⟩ := this.2.2 ix (this.2.1 ▸ hix)
  exact ⟨x, hx, hn.2⟩

/-- The same holds of `evaluate_spec`, which takes shortcuts for compressed operands. -/
theorem C61_spec (hv : Rounding val u) (d : FnImpl Γ e τ) (he : RingExpr e)
    (hr : FnImpl.Regular d) (c : Ctx F Γ) {s : BSpec F τ} (h : (d.evaluateSpec c).1 = .ok s) :
    Buf.dims τ s.unwrap = (den (envOf (convCtx val c)) (conv val e)).dims ∧
      ∀ ix, InBounds (Buf.dims τ s.unwrap) ix → ∃ x, Buf.getU τ s.unwrap ix = some x ∧
        |val x - (den (envOf (convCtx val c)) (conv val e)).val ix|
          ≤ ((1 + u) ^ roundings (ctxDims c) e - 1) *
            (den (envOf (convCtx (fun x => |val x|) c)) (positive val e)).val ix := by
  have := ((d.near_spec hv he hr c (envOf_conv_dims val c)
    (σ := envOf (convCtx (fun x => |val x|) c)) (nearT_envOf c)).2.1.2 s h).1
  refine ⟨this.2.1, fun ix hix => ?_⟩
  obtain ⟨x, hx, hn⟩ := this.2.2 ix (this.2.1 ▸ hix)
  exact ⟨x, hx, hn.2⟩

omit [Zero F] [One F] [Add F] [Sub F] [Mul F] [Div F] [Neg F] [ScalarFns F] in
/-- The factor in the bound is about `k u`. -/
theorem C61_gamma {u : ℝ} (hu : 0 ≤ u) (k : ℕ) (hk : k * u < 1) :
    (1 + u) ^ k - 1 ≤ k * u / (1 - k * u) := by
  have key : (1 + u) ^ k * (1 - k * u) ≤ 1 := by
    clear hk
    induction k with
    | zero => simp
    | succ k ih =>
      have h1 : 0 ≤ (1 + u) ^ k := by positivity
      have h2 : (1 + u) * (1 - (k + 1 : ℕ) * u) ≤ 1 - k * u := by
        push_cast
        nlinarith [mul_nonneg (mul_nonneg (Nat.cast_nonneg (α := ℝ) (k + 1)) hu) hu,
          mul_nonneg hu hu, mul_nonneg (mul_nonneg (Nat.cast_nonneg (α := ℝ) k) hu) hu]
      calc (1 + u) ^ (k + 1) * (1 - (k + 1 : ℕ) * u)
          = (1 + u) ^ k * ((1 + u) * (1 - (k + 1 : ℕ) * u)) := by ring
        _ ≤ (1 + u) ^ k * (1 - k * u) := mul_le_mul_of_nonneg_left h2 h1
        _ ≤ 1 := ih
  have hpos : 0 < 1 - k * u := by linarith
  rw [le_div_iff₀ hpos]
  nlinarith

/-- Without rounding, the entries are exact. -/
theorem C61_exact (hv : Rounding val 0) (d : FnImpl Γ e τ) (he : RingExpr e)
    (hr : FnImpl.Regular d) (c : Ctx F Γ) {v : Buf F τ} (h : (d.evaluate c).1 = .ok v) {ix : Idx}
    (hix : InBounds (Buf.dims τ v) ix) : ∃ x, Buf.getU τ v ix = some x ∧
      val x = (den (envOf (convCtx val c)) (conv val e)).val ix := by
  obtain ⟨x, hx, hb⟩ := (C61_error hv d he hr c h).2 ix hix
  refine ⟨x, hx, ?_⟩
  rw [add_zero, one_pow, sub_self, zero_mul] at hb
  exact sub_eq_zero.1 (abs_nonpos_iff.1 hb)

/-- Sums and products of non-negative numbers have a small relative error. -/
theorem C61_relative (hv : Rounding val u) (d : FnImpl Γ e τ) (he : PositiveExpr val e)
    (hr : FnImpl.Regular d) (c : Ctx F Γ)
    (hc : ∀ i b, c i = some b → ∀ ix x, Buf.getU _ b ix = some x → 0 ≤ val x)
    {v : Buf F τ} (h : (d.evaluate c).1 = .ok v) {ix : Idx} (hix : InBounds (Buf.dims τ v) ix) :
    ∃ x, Buf.getU τ v ix = some x ∧
      |val x - (den (envOf (convCtx val c)) (conv val e)).val ix|
        ≤ ((1 + u) ^ roundings (ctxDims c) e - 1) *
          |(den (envOf (convCtx val c)) (conv val e)).val ix| := by
  obtain ⟨x, hx, hb⟩ := (C61_error hv d he.ring hr c h).2 ix hix
  refine ⟨x, hx, hb.trans ?_⟩
  have hcc : convCtx (fun x => |val x|) c = convCtx val c := by
    funext i
    unfold convCtx
    cases hi : c i with
    | none => rfl
    | some b =>
      simp only [Option.map_some]
      rw [Buf.map_congr b fun x hx => by obtain ⟨ix, hix⟩ := hx; exact abs_of_nonneg (hc i b hi ix x hix)]
  rw [hcc, positive_eq_conv he]
  refine mul_le_mul_of_nonneg_left (le_abs_self _) ?_
  have := near.pow_one hv.nonneg (roundings (ctxDims c) e)
  linarith

/-- The computed derivative: if the exact function is differentiable, the entries of the evaluated
adjoint are its partial derivatives up to the roundings of the adjoint expression. -/
theorem C61_derivative (hv : Rounding val u) {e' : Node F} {t : Id} (ha : e.adjoint t = some e')
    (he : RingExpr e) {σ : BTy} (d : FnImpl Γ e τ) (da : FnImpl Γ e' σ) (hr : FnImpl.Regular d)
    (hra : FnImpl.Regular da) (c : Ctx F Γ) {v : Buf F τ} {a : Buf F σ}
    (h : (d.evaluate c).1 = .ok v) (h' : (da.evaluate c).1 = .ok a) {b : Buf F (Γ t)}
    (hb : c t = some b) (hs : Smooth (envOf (convCtx val c)) t (conv val e)) :
    ∀ ix K, InBounds (Buf.dims τ v) ix → InBounds (Buf.dims _ b) K →
      ∃ g x D, Buf.getU σ a (ix ++ K) = some g ∧ Buf.getU _ b K = some x ∧
        HasDerivAt (fun s => (den (perturb (envOf (convCtx val c)) t K s) (conv val e)).val ix) D
          (val x) ∧
        |val g - D| ≤ ((1 + u) ^ roundings (ctxDims c) e' - 1) *
          (den (envOf (convCtx (fun x => |val x|) c)) (positive val e')).val (ix ++ K) := by
  intro ix K hix hK
  have h1 := (d.near_spec hv he hr c (envOf_conv_dims val c)
    (σ := envOf (convCtx (fun x => |val x|) c)) (nearT_envOf c)).1.2 v h
  have h2 := (da.near_spec hv (he.adjoint ha) hra c (envOf_conv_dims val c)
    (σ := envOf (convCtx (fun x => |val x|) c)) (nearT_envOf c)).1.2 a h'
  have hb' := nearT_envOf (val := val) (u := u) c t b hb
  have hadj : (conv val e).adjoint t = some (conv val e') := by rw [conv_adjoint, ha]; rfl
  have hK' : InBounds (envOf (convCtx val c) t).dims K := hb'.2.1 ▸ hK
  obtain ⟨hd, hD⟩ := den_deriv hadj h1.2 h2.2 hs hK'
  have hix' : InBounds (den (envOf (convCtx val c)) (conv val e)).dims ix := h1.1.2.1 ▸ hix
  obtain ⟨g, hg, hn⟩ := h2.1.2.2 (ix ++ K) (by rw [hd]; exact List.rel_append hix' hK')
  obtain ⟨x, hx, -⟩ := hb'.2.2 K hK'
  refine ⟨g, x, _, hg, hx, ?_, hn.2⟩
  have hval : (envOf (convCtx val c) t).val K = val x := by
    unfold envOf convCtx
    simp only [hb, Option.map_some, Tensor.ofBuf, Buf.getU_map, hx, Option.getD_some]
  have := hD ix hix'
  rwa [hval] at this

/-- As the arithmetic gets better, the computed value tends to the exact one: for given exact data,
every tolerance is met by all arithmetics that round finely enough. -/
theorem C61_convergence {Γ : Id → BTy} {τ : BTy} (C : Ctx ℝ Γ) (E : Node ℝ) (ix : Idx) {ε : ℝ}
    (hε : 0 < ε) : ∃ u₀ > 0, ∀ (F : Type) [Zero F] [One F] [Add F] [Sub F] [Mul F] [Div F] [Neg F]
      [ScalarFns F] (val : F → ℝ) (u : ℝ) (e : Node F) (d : FnImpl Γ e τ) (c : Ctx F Γ)
      (v : Buf F τ), Rounding val u → u ≤ u₀ → RingExpr e → FnImpl.Regular d → convCtx val c = C →
      conv val e = E → (d.evaluate c).1 = .ok v → InBounds (Buf.dims τ v) ix →
      ∃ x, Buf.getU τ v ix = some x ∧ |val x - (den (envOf C) E).val ix| ≤ ε := by
  have hcont : Filter.Tendsto (fun u : ℝ => ((1 + u) ^ roundings (ctxDims C) E - 1) *
      (den (envOf (convCtx (fun x => |id x|) C)) (positive id E)).val ix) (nhds 0) (nhds 0) := by
    have : Continuous (fun u : ℝ => ((1 + u) ^ roundings (ctxDims C) E - 1) *
      (den (envOf (convCtx (fun x => |id x|) C)) (positive id E)).val ix) := by fun_prop
    have h0 := this.tendsto 0
    simpa using h0
  obtain ⟨δ, hδ, hball⟩ := Metric.eventually_nhds_iff.1 (hcont.eventually (Iio_mem_nhds hε))
  refine ⟨δ / 2, by positivity, ?_⟩
  intro F _ _ _ _ _ _ _ _ val u e d c v hv hu he hr hC hE h hix
  obtain ⟨x, hx, hb⟩ := (C61_error hv d he hr c h).2 ix hix
  subst hE
  have hdims : ctxDims C = ctxDims c := by
    funext i
    rw [← hC]
    unfold ctxDims convCtx
    cases c i with
    | none => rfl
    | some b => exact Buf.dims_map _ b val
  have habs : convCtx (fun x => |val x|) c = convCtx (fun x => |id x|) C := by
    funext i
    rw [← hC]
    unfold convCtx
    cases c i with
    | none => rfl
    | some b => simp only [Option.map_some]; rw [Buf.map_map]; rfl
  refine ⟨x, hx, ?_⟩
  rw [hC, habs, positive_conv, ← roundings_conv val, ← hdims] at hb
  refine hb.trans (le_of_lt ?_)
  refine hball (y := u) ?_
  rw [Real.dist_eq, sub_zero, abs_of_nonneg hv.nonneg]
  linarith

/-- The dot product of two vectors of length `n`. -/
theorem C61_dot (hv : Rounding val u) {n : ℕ} {i j : Id} (hi : Γ i = .array [n])
    (hj : Γ j = .array [n]) (d : FnImpl Γ (.contract 1 (.var i) (.var j) : Node F) .scalar)
    (c : Ctx F Γ) {x : Buf F (Γ i)} {y : Buf F (Γ j)} (hx : c i = some x) (hy : c j = some y)
    {r : F} (h : (d.evaluate c).1 = .ok r) :
    |val r - ∑ k ∈ Finset.range n, val (Buf.read x [k]) * val (Buf.read y [k])|
      ≤ ((1 + u) ^ (n + 3) - 1) *
        ∑ k ∈ Finset.range n, |val (Buf.read x [k])| * |val (Buf.read y [k])| := by
  have hreg : FnImpl.Regular d := by
    cases d with | contract d1 d2 z =>
    cases d1; cases d2
    refine ⟨trivial, trivial, ?_, ?_⟩
    · intro n' m' _ ha; rw [hi] at ha; cases ha
    · intro n' m' _ _ hb; rw [hj] at hb; cases hb
  obtain ⟨-, hb⟩ := C61_error hv d ⟨trivial, trivial⟩ hreg c h
  obtain ⟨r', hr', hb⟩ := hb [] .nil
  cases hr'
  have hd : ∀ {σ : BTy}, σ = .array [n] → ∀ b : Buf F σ, Buf.dims σ b = [n] := by
    rintro _ rfl b; rfl
  have hdx : Buf.dims (Γ i) x = [n] := hd hi x
  have hdy : Buf.dims (Γ j) y = [n] := hd hj y
  have hD : roundings (ctxDims c) (.contract 1 (.var i) (.var j) : Node F) = n + 3 := by
    simp only [roundings, extents, ctxDims, hy, hdy]; simp
  have hval : ∀ f : F → ℝ, (den (envOf (convCtx f c)) (.contract 1 (.var i) (.var j))).val []
      = ∑ k ∈ Finset.range n, f (Buf.read x [k]) * f (Buf.read y [k]) := by
    intro f
    have e1 : envOf (convCtx f c) i = .ofBuf (Buf.map _ x f) := by
      simp only [envOf, convCtx, hx, Option.map_some]
    have e2 : envOf (convCtx f c) j = .ofBuf (Buf.map _ y f) := by
      simp only [envOf, convCtx, hy, Option.map_some]
    simp only [den, e1, e2, Tensor.contract, Tensor.ofBuf, Buf.dims_map, hdx, hdy]
    simp only [List.cons_ne_nil, and_self, if_false, List.take_succ_cons, List.take_zero, sumOver]
    refine Finset.sum_congr rfl fun k hk => ?_
    have hk := Finset.mem_range.1 hk
    have b1 : InBounds (Buf.dims _ x) [k] := by rw [hdx]; exact .cons hk .nil
    have b2 : InBounds (Buf.dims _ y) [k] := by rw [hdy]; exact .cons hk .nil
    have g1 : Buf.getU _ x [k] = some (Buf.read x [k]) := Buf.getU_read x [k] b1
    have g2 : Buf.getU _ y [k] = some (Buf.read y [k]) := Buf.getU_read y [k] b2
    simp [Buf.getU_map, g1, g2]
  rw [hD] at hb
  have h1 := hval val
  have h2 := hval (fun x => |val x|)
  simp only [conv, positive] at hb
  rw [h1, h2] at hb
  exact hb

end

/-! ## Floating point -/

/-- `x² - y` for scalars. -/
def c61E (p : ℕ) : Node (Fl p) := .sub (.mul (.var 0) (.var 0)) (.var 1)

/-- All variables are scalars. -/
abbrev c61Ty : Id → BTy := fun _ => .scalar

/-- Its evaluation. -/
def c61D (p : ℕ) : FnImpl c61Ty (c61E p) .scalar :=
  .sub (.mul (.var (Γ := c61Ty) 0) (.var (Γ := c61Ty) 0) .ss) (.var (Γ := c61Ty) 1) .ss

/-- The context `x = 1 + 2^-p`, `y = 1 + 2^(1-p)`; both fit. -/
noncomputable def c61C (p : ℕ) : Ctx (Fl p) c61Ty := fun i =>
  if i = 0 then some (⟨1 + 1 / 2 ^ p⟩ : Fl p) else some (⟨1 + 2 / 2 ^ p⟩ : Fl p)

/-- The bound cannot be relative to the result: at any precision there are floating-point numbers
`x`, `y` such that `x² - y` evaluates to `0` although it is not `0`, an error of all of the
result. -/
theorem C61_cancellation_caveat (p : ℕ) (hp : 2 ≤ p) :
    ∃ (c : Ctx (Fl p) c61Ty) (r : Fl p), ((c61D p).evaluate c).1 = .ok r ∧
      (∀ i b, c i = some b → rnd p (Fl.val b) = Fl.val b) ∧ r.val = 0 ∧
      (den (envOf (convCtx Fl.val c)) (conv Fl.val (c61E p))).val [] ≠ 0 := by
  have h2 : (2 : ℝ) ^ p ≠ 0 := by positivity
  have h4 : (4 : ℝ) ≤ 2 ^ p := by
    calc (4 : ℝ) = 2 ^ 2 := by norm_num
      _ ≤ 2 ^ p := pow_le_pow_right₀ (by norm_num) hp
  have hq : (0 : ℝ) < 1 / 2 ^ p := by positivity
  have hq4 : (1 : ℝ) / 2 ^ p ≤ 1 / 4 := one_div_le_one_div_of_le (by norm_num) h4
  have hz : (2 : ℝ) ^ ((0 : ℤ) - (p : ℤ)) = 1 / 2 ^ p := by
    rw [zero_sub, zpow_neg, zpow_natCast, one_div]
  have hsq : rnd p ((1 + 1 / 2 ^ p) * (1 + 1 / 2 ^ p)) = 1 + 2 / 2 ^ p := by
    set q : ℝ := 1 / 2 ^ p with hqd
    have e : (2 : ℝ) / 2 ^ p = 2 * q := by rw [hqd]; ring
    have hpos : |(1 + q) * (1 + q)| = (1 + q) * (1 + q) := abs_of_nonneg (by positivity)
    rw [rnd_eq p (k := 0) (by rw [hpos]; norm_num; nlinarith) (by rw [hpos]; norm_num; nlinarith), hz,
      e]
    have hr : round ((1 + q) * (1 + q) / q) = 2 ^ p + 2 := by
      rw [round_eq, Int.floor_eq_iff]
      have hq1 : (1 + q) * (1 + q) / q = 2 ^ p + 2 + q := by
        have : (2 : ℝ) ^ p * q = 1 := by rw [hqd]; field_simp
        rw [div_eq_iff hq.ne']
        nlinarith
      rw [hq1]
      push_cast
      constructor <;> linarith
    rw [hr]
    push_cast
    have : (2 : ℝ) ^ p * q = 1 := by rw [hqd]; field_simp
    nlinarith
  refine ⟨c61C p, ⟨rnd p (rnd p ((1 + 1 / 2 ^ p) * (1 + 1 / 2 ^ p)) - (1 + 2 / 2 ^ p))⟩, rfl, ?_, ?_, ?_⟩
  · intro i b hb
    unfold c61C at hb
    split at hb
    · cases hb
      refine rnd_fits p (k := 0) (m := 2 ^ p + 1) ?_ ?_ ?_
      · rw [abs_of_pos (by positivity)]; norm_num
      · rw [abs_of_pos (by positivity)]; norm_num; rw [← one_div]; linarith
      · rw [hz]; push_cast; field_simp
    · cases hb
      refine rnd_fits p (k := 0) (m := 2 ^ p + 2) ?_ ?_ ?_
      · rw [abs_of_pos (by positivity)]; norm_num; positivity
      · rw [abs_of_pos (by positivity)]
        have : (2 : ℝ) / 2 ^ p = 2 * (1 / 2 ^ p) := by ring
        norm_num
        rw [this]; linarith
      · rw [hz]; push_cast; field_simp
  · simp only [hsq, sub_self]
    simp [rnd]
  · have : (den (envOf (convCtx Fl.val (c61C p))) (conv Fl.val (c61E p))).val []
        = (1 + 1 / 2 ^ p) * (1 + 1 / 2 ^ p) - (1 + 2 / 2 ^ p) := rfl
    rw [this]
    have : (1 + 1 / 2 ^ p) * (1 + 1 / 2 ^ p) - (1 + 2 / 2 ^ p) = (1 / 2 ^ p : ℝ) * (1 / 2 ^ p) := by
      ring
    rw [this]
    positivity

/-- Double precision is rounded arithmetic in the sense of the theorems. -/
theorem C61_double : Rounding (Fl.val : Fl 52 → ℝ) (1 / 2 ^ 53) := Fl.rounding 52

/-! ## Examples -/

/-- The bound for `x² - y` in double precision. -/
example (c : Ctx (Fl 52) c61Ty) {r : Fl 52} (h : ((c61D 52).evaluate c).1 = .ok r) :
    |r.val - (den (envOf (convCtx Fl.val c)) (conv Fl.val (c61E 52))).val []|
      ≤ ((1 + 1 / 2 ^ 53) ^ 2 - 1) *
        (den (envOf (convCtx (fun x => |Fl.val x|) c)) (positive Fl.val (c61E 52))).val [] := by
  have hr : FnImpl.Regular (c61D 52) :=
    ⟨⟨trivial, trivial⟩, trivial, fun ⟨_, ds, h, _⟩ => by cases h⟩
  obtain ⟨-, hb⟩ := C61_error C61_double (c61D 52) ⟨⟨trivial, trivial⟩, trivial⟩ hr c h
  obtain ⟨x, hx, hb⟩ := hb [] .nil
  cases hx
  exact hb

/-- The same of its `evaluate_spec`, which succeeds in every context with both values. -/
example (x y : Fl 52) : ∃ s : BSpec (Fl 52) .scalar,
    ((c61D 52).evaluateSpec (fun i => if i = 0 then some x else some y)).1 = .ok s ∧
      |Fl.val s.unwrap - (x.val * x.val - y.val)|
        ≤ ((1 + 1 / 2 ^ 53) ^ 2 - 1) * (|x.val| * |x.val| + |y.val|) := by
  have hr : FnImpl.Regular (c61D 52) :=
    ⟨⟨trivial, trivial⟩, trivial, fun ⟨_, ds, h, _⟩ => by cases h⟩
  refine ⟨.raw (x * x - y), rfl, ?_⟩
  obtain ⟨-, hb⟩ := C61_spec C61_double (c61D 52) ⟨⟨trivial, trivial⟩, trivial⟩ hr
    (fun i => if i = 0 then some x else some y) (s := .raw (x * x - y)) rfl
  obtain ⟨r, hr, hb⟩ := hb [] .nil
  cases hr
  exact hb

/-- `⟨x, y⟩` for vectors of length `1000` in double precision: the relative error is at most `2e-13`
if nothing cancels. -/
example : (1 + 1 / 2 ^ 53 : ℝ) ^ 1003 - 1 ≤ 2e-13 := by
  refine (C61_gamma (by positivity) 1003 (by norm_num)).trans ?_
  norm_num

/-- Vectors of length `n`. -/
abbrev c61Vec (n : ℕ) : Id → BTy := fun _ => .array [n]

/-- Dot products of vectors of any length evaluate, so the hypotheses of `C61_dot` can be met. -/
example (n : ℕ) (x y : Buf (Fl 52) (.array [n])) :
    ∃ r : Fl 52, ((FnImpl.contract (.var (Γ := c61Vec n) 0) (.var (Γ := c61Vec n) 1) (.dot n)).evaluate
      (fun i => if i = 0 then some x else some y)).1 = .ok r ∧
    |r.val - ∑ k ∈ Finset.range n, (Buf.read x [k]).val * (Buf.read y [k]).val|
      ≤ ((1 + 1 / 2 ^ 53) ^ (n + 3) - 1) *
        ∑ k ∈ Finset.range n, |(Buf.read x [k]).val| * |(Buf.read y [k]).val| := by
  let c : Ctx (Fl 52) (c61Vec n) := fun i => if i = 0 then some x else some y
  have hok : ∃ r : Fl 52, ((FnImpl.contract (.var (Γ := c61Vec n) 0) (.var (Γ := c61Vec n) 1)
      (.dot n)).evaluate c).1 = .ok r := by
    obtain ⟨r, hr, -⟩ := sumLoop_holds C61_double.calc n (k := 1)
      (fun i => (NArr.getU [n] x [i]).bind fun a => (NArr.getU [n] y [i]).map fun b => a * b)
      (fun i => (Buf.read x [i]).val * (Buf.read y [i]).val)
      (fun i => |(Buf.read x [i]).val| * |(Buf.read y [i]).val|) (fun i hi =>
        ⟨Buf.read x [i] * Buf.read y [i],
          by rw [read_getU x _ (inBounds_one' hi), read_getU y _ (inBounds_one' hi)]; rfl,
          C61_double.nmul (near.exact _ _) (near.exact _ _)⟩) trivial
    rw [← zipFold_sumLoop] at hr
    refine ⟨r, ?_⟩
    show ((((Res.ofOption (NArr.zipFoldSelf [n] x y 0
      (fun acc (p : Fl 52 × Fl 52) => acc + p.1 * p.2))).map BSpec.raw).mapErr EvalErr.output).map
        (BSpec.unwrap (τ := .scalar)) : Res EvalErr (Buf (Fl 52) .scalar)) = .ok r
    rw [hr]
    rfl
  obtain ⟨r, hr⟩ := hok
  exact ⟨r, hr, C61_dot C61_double (Γ := c61Vec n) rfl rfl _ c (x := x) (y := y) rfl rfl hr⟩

/-- `x² + x`. -/
def c61P (F : Type) : Node F := .add (.mul (.var 0) (.var 0)) (.var 0)

/-- Its evaluation. -/
def c61PD (F : Type) : FnImpl c61Ty (c61P F) .scalar :=
  .add (.mul (.var (Γ := c61Ty) 0) (.var (Γ := c61Ty) 0) .ss) (.var (Γ := c61Ty) 0) .ss

/-- The evaluation of its adjoint. -/
def c61PA (F : Type) :
    FnImpl c61Ty (.add (.add (.mul (.varAdj 0 0) (.var 0)) (.mul (.varAdj 0 0) (.var 0)))
      (.varAdj 0 0) : Node F) .scalar :=
  .add (.add (.mul (.varAdj (Γ := c61Ty) 0 0 .ss (Nat.zero_le _)) (.var (Γ := c61Ty) 0) .ss)
    (.mul (.varAdj (Γ := c61Ty) 0 0 .ss (Nat.zero_le _)) (.var (Γ := c61Ty) 0) .ss) .ss)
    (.varAdj (Γ := c61Ty) 0 0 .ss (Nat.zero_le _)) .ss

/-- Any non-negative number in double precision satisfies the hypotheses of `C61_relative`. -/
example (x : Fl 52) (hx : 0 ≤ x.val) : ∃ r : Fl 52,
    ((c61PD (Fl 52)).evaluate (fun _ => some x)).1 = .ok r ∧
      |r.val - (x.val * x.val + x.val)| ≤ ((1 + 1 / 2 ^ 53) ^ 2 - 1) * |x.val * x.val + x.val| := by
  refine ⟨x * x + x, rfl, ?_⟩
  obtain ⟨y, hy, hb⟩ := C61_relative C61_double (c61PD (Fl 52)) ⟨⟨trivial, trivial⟩, trivial⟩
    ⟨⟨trivial, trivial⟩, trivial⟩ (fun _ => some x)
    (fun i b hb ix y hy => by
      cases hb
      cases ix with
      | nil => cases hy; exact hx
      | cons i ix => cases hy) (v := x * x + x) rfl (ix := []) .nil
  cases hy
  exact hb

/-- The derivative `2x + 1` of `x² + x`, computed in double precision. -/
example (x : Fl 52) : ∃ g : Fl 52, ((c61PA (Fl 52)).evaluate (fun _ => some x)).1 = .ok g ∧
    ∃ D, HasDerivAt (fun s => s * s + s) D x.val ∧
      |g.val - D| ≤ ((1 + 1 / 2 ^ 53) ^ 3 - 1) * (|x.val| + |x.val| + 1) := by
  refine ⟨1 * x + 1 * x + 1, rfl, ?_⟩
  obtain ⟨g, y, D, hg, hy, hD, hb⟩ := C61_derivative C61_double (t := 0) (e := c61P (Fl 52)) rfl
    ⟨⟨trivial, trivial⟩, trivial⟩ (c61PD (Fl 52)) (c61PA (Fl 52)) ⟨⟨trivial, trivial⟩, trivial⟩
    ⟨⟨⟨trivial, trivial⟩, ⟨trivial, trivial⟩⟩, trivial⟩ (fun _ => some x) (v := x * x + x)
    (a := 1 * x + 1 * x + 1) rfl rfl (b := x) rfl ⟨⟨trivial, trivial⟩, trivial⟩ [] [] .nil .nil
  cases hg; cases hy
  refine ⟨D, hD, hb.trans (le_of_eq ?_)⟩
  have hM : (den (envOf (convCtx (fun x : Fl 52 => |Fl.val x|) (fun _ => some x : Ctx (Fl 52) c61Ty)))
      (positive Fl.val (.add (.add (.mul (.varAdj 0 0) (.var 0)) (.mul (.varAdj 0 0) (.var 0)))
        (.varAdj 0 0) : Node (Fl 52)))).val ([] ++ []) = |x.val| + |x.val| + 1 := by
    simp [positive, den, Tensor.zip, Tensor.delta, envOf, convCtx, Tensor.ofBuf, bIdx, Buf.dims,
      Shp.dims, Buf.map, Buf.getU]
  rw [hM]
  rfl

/-- The reals, with exact operations. -/
theorem realRounding : Rounding (id : ℝ → ℝ) 0 where
  nonneg := le_refl _
  zero := rfl
  one := rfl
  isZero x h := by simpa [ScalarFns.isZero] using h
  neg _ := rfl
  add x y := ⟨0, by simp⟩
  sub x y := ⟨0, by simp⟩
  mul x y := ⟨0, by simp⟩
  square x := ⟨0, by simp, by rw [rpow_two']; simp⟩
  fromUsize n k h := by cases h; exact ⟨0, by simp⟩

example (x : ℝ) : ∃ r : ℝ, ((c61PD ℝ).evaluate (fun _ => some x)).1 = .ok r ∧ r = x * x + x := by
  refine ⟨x * x + x, rfl, ?_⟩
  obtain ⟨y, hy, hb⟩ := C61_exact realRounding (c61PD ℝ) ⟨⟨trivial, trivial⟩, trivial⟩
    ⟨⟨trivial, trivial⟩, trivial⟩ (fun _ => some x) (v := x * x + x) rfl (ix := []) .nil
  cases hy
  exact hb

/-- With enough bits, `x² + x` is computed to any accuracy. -/
example (x ε : ℝ) (hε : 0 < ε) : ∃ p : ℕ, ∃ r : Fl p,
    ((c61PD (Fl p)).evaluate (fun _ => some (⟨x⟩ : Fl p))).1 = .ok r ∧
      |r.val - (x * x + x)| ≤ ε := by
  obtain ⟨u₀, hu, h⟩ := C61_convergence (Γ := c61Ty) (τ := .scalar) (fun _ => some x) (c61P ℝ) [] hε
  obtain ⟨p, hp⟩ := exists_pow_lt_of_lt_one hu (show (1 / 2 : ℝ) < 1 by norm_num)
  refine ⟨p, _, rfl, ?_⟩
  obtain ⟨y, hy, hb⟩ := h (Fl p) Fl.val (1 / 2 ^ (p + 1)) (c61P (Fl p)) (c61PD (Fl p))
    (fun _ => some (⟨x⟩ : Fl p)) _ (Fl.rounding p) (by
      rw [← one_div_pow]
      exact (pow_le_pow_of_le_one (by norm_num) (by norm_num) (Nat.le_succ p)).trans hp.le)
    ⟨⟨trivial, trivial⟩, trivial⟩ ⟨⟨trivial, trivial⟩, trivial⟩ rfl rfl rfl .nil
  cases hy
  exact hb

end Aegir.Props
