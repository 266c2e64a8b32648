import Verif.Lemmas.Image
import Verif.Spec.Instances
import Verif.Props.C19_Tensor
import Verif.Props.C48_Typing
import Verif.Props.C61_Rounding
import Mathlib.Data.ZMod.Basic
/-!
# C62: evaluation is uniform in the scalar type

The code is generic in the field `F` of the scalars. A conversion of scalars that preserves what the
code computes with commutes with everything evaluation does: results, errors, panics and what is left
in the caches.
-/

namespace Aegir.Props

open Aegir Aegir.Spec

section
variable {F G : Type} [Zero F] [One F] [Add F] [Sub F] [Mul F] [Div F] [Neg F] [ScalarFns F]
variable [Zero G] [One G] [Add G] [Sub G] [Mul G] [Div G] [Neg G] [ScalarFns G]
variable {Γ : Id → BTy} {f : F → G} {e : Node F} {τ : BTy}

/-- Converting first and then evaluating is the same as evaluating first and then converting, for
the result and for the context left behind. -/
theorem C62_evaluate (hf : ScalarMap f) (he : Respects f e) (d : FnImpl Γ e τ)
    (d' : FnImpl Γ (conv f e) τ) (c : Ctx F Γ) :
    d'.evaluate (convCtx f c) = ((d.evaluate c).1.map (fun b => Buf.map τ b f),
      convCtx f (d.evaluate c).2) ∧
    d'.evaluateSpec (convCtx f c) = ((d.evaluateSpec c).1.map (convSpec f),
      convCtx f (d.evaluateSpec c).2) ∧
    d'.evaluateShape (convCtx f c) = ((d.evaluateShape c).1, convCtx f (d.evaluateShape c).2) := by
  obtain rfl := C48_unique d' (d.conv f)
  have h := d.fn_conv hf he
  refine ⟨h.1 c, h.2.1 c, ?_⟩
  have := h.2.2 c
  rwa [Res.map_id'] at this

omit [Zero F] [One F] [Add F] [Sub F] [Mul F] [Div F] [Neg F] [ScalarFns F]
  [Zero G] [One G] [Add G] [Sub G] [Mul G] [Div G] [Neg G] [ScalarFns G] in
/-- The scalars have no influence on which expressions compile. -/
theorem C62_type (f : F → G) (Γ : Id → BTy) (e : Node F) : typeOf Γ (conv f e) = typeOf Γ e := by
  induction e with
  | var | varAdj | const | constSpec => rfl
  | constAdj n t ih | cached n i ih | sum n ih => simp only [conv, typeOf, ih]
  | un op n ih => simpa only [conv, typeOf] using ih
  | add l r ihl ihr | sub l r ihl ihr | mul l r ihl ihr | div l r ihl ihr | power l r ihl ihr
  | contract k l r ihl ihr => simp only [conv, typeOf, ihl, ihr]

/-- Hence so do whole programs that evaluate an expression or its derivative. -/
theorem C62_run (hf : ScalarMap f) (c : Ctx F Γ) :
    (Respects f e → run (conv f e) (convCtx f c) =
      (run e c).map fun r => ⟨r.1, r.2.map fun b => Buf.map r.1 b f⟩) ∧
    ∀ t, (∀ e', e.adjoint t = some e' → Respects f e') →
      runAdjoint (conv f e) t (convCtx f c) =
        (runAdjoint e t c).map fun r => ⟨r.1, r.2.map fun b => Buf.map r.1 b f⟩ := by
  have key : ∀ e : Node F, Respects f e → run (conv f e) (convCtx f c) =
      (run e c).map fun r => ⟨r.1, r.2.map fun b => Buf.map r.1 b f⟩ := by
    intro e he
    rcases ht : typeOf Γ e with _ | τ
    · rw [(C48_run e c).1.2 ht, (C48_run _ _).1.2 ((C62_type f Γ e).trans ht)]
      rfl
    · obtain ⟨d⟩ := (C48_type e τ).2 ht
      rw [(C48_run e c).2 d, (C48_run _ (convCtx f c)).2 (d.conv f),
        (C62_evaluate hf he d (d.conv f) c).1]
      rfl
  refine ⟨key e, fun t h => ?_⟩
  simp only [runAdjoint, conv_adjoint]
  cases ha : e.adjoint t with
  | none => rfl
  | some e' => exact key e' (h e' ha)

/-- For expressions in the ring operations, the conversion has to preserve negation and squares in
addition; then values and all derivatives are preserved. -/
theorem C62_ring (hf : ScalarMap f) (hn : ∀ x, f (-x) = -f x)
    (hs : ∀ x, f (ScalarFns.pow x (1 + 1)) = ScalarFns.pow (f x) (1 + 1)) (he : RingExpr e)
    (c : Ctx F Γ) :
    run (conv f e) (convCtx f c) =
      (run e c).map (fun r => ⟨r.1, r.2.map fun b => Buf.map r.1 b f⟩) ∧
    ∀ t, runAdjoint (conv f e) t (convCtx f c) =
      (runAdjoint e t c).map fun r => ⟨r.1, r.2.map fun b => Buf.map r.1 b f⟩ := by
  have key : ∀ e : Node F, RingExpr e → Respects f e := by
    intro e he
    induction e with
    | var | varAdj | const | constSpec => trivial
    | constAdj n t ih | sum n ih => exact ih he
    | cached | div | power => exact he.elim
    | add l r ihl ihr | sub l r ihl ihr | mul l r ihl ihr | contract k l r ihl ihr =>
      exact ⟨ihl he.1, ihr he.2⟩
    | un op n ih =>
      refine ⟨fun x => ?_, ih he.2⟩
      have h := he.1
      simp only [List.mem_cons, List.not_mem_nil, or_false] at h
      rcases h with rfl | rfl | rfl | rfl | rfl | rfl | rfl <;>
        simp only [UnOp.apply, hf.sub, hf.add, hf.mul, hf.one, hn]
      rw [hs]
  exact ⟨(C62_run hf c).1 (key e he), fun t =>
    (C62_run hf c).2 t fun e' h => key e' (he.adjoint h)⟩

end

/-! ### Conversions that do not preserve `is_zero`: modular arithmetic -/

section
variable {F G : Type} [CommRing F] [Div F] [ScalarFns F] [CommRing G] [Div G] [ScalarFns G]
variable {Γ : Id → BTy}
variable [LawfulScalar F] [LawfulPow F] [LawfulSquare F] [LawfulScalar G] [LawfulPow G]
  [LawfulSquare G]

/-- A homomorphism of rings need not preserve `is_zero`, so that the two evaluations may take
different shortcuts. For ring expressions their values correspond nevertheless: evaluation in
modular arithmetic gives the residues of the values. -/
theorem C62_modular (f : F →+* G) {e : Node F} {τ : BTy} (he : RingExpr e) (d : FnImpl Γ e τ)
    (d' : FnImpl Γ (conv f e) τ) (hr : FnImpl.Regular d) (hr' : FnImpl.Regular d') (c : Ctx F Γ)
    {v : Buf F τ} {w : Buf G τ} (hv : (d.evaluate c).1 = .ok v)
    (hw : (d'.evaluate (convCtx f c)).1 = .ok w) : w = Buf.map τ v f := by
  have he' : ∀ {e : Node F}, RingExpr e → RingExpr (conv f e) := by
    intro e he
    induction e with
    | var | varAdj | const | constSpec => trivial
    | constAdj n t ih | sum n ih => exact ih he
    | cached | div | power => exact he.elim
    | add l r ihl ihr | sub l r ihl ihr | mul l r ihl ihr | contract k l r ihl ihr =>
      exact ⟨ihl he.1, ihr he.2⟩
    | un op n ih => exact ⟨he.1, ih he.2⟩
  have h1 := ringExpr_not he
  have h2 := ringExpr_not (he' he)
  have hv' := C19_value_cache_free_partial d h1.1 c (fun l r h => absurd h (h1.2 l r)) hr v hv
  have hw' := C19_value_cache_free_partial d' h2.1 (convCtx f c)
    (fun l r h => absurd h (h2.2 l r)) hr' w hw
  rw [image_envOf, image_den f (envOf c) he] at hw'
  have hd : Buf.dims τ w = Buf.dims τ (Buf.map τ v f) := by
    rw [Buf.dims_map, hv'.1]; exact hw'.1
  refine Buf.ext τ w _ (Shp.dims_injective hd) fun ix hix => ?_
  have hix' : InBounds (den (envOf c) e).dims ix := hw'.1 ▸ hix
  rw [Buf.getU_map, hv'.2 ix hix', hw'.2 ix hix']
  rfl

end

/-! ### Integers and real numbers -/

/-- The integers among the real numbers. -/
theorem C62_integers : ScalarMap (Int.cast : ℤ → ℝ) ∧ Rounding (Int.cast : ℤ → ℝ) 0 ∧
    ∀ x : ℤ, ((ScalarFns.pow x (1 + 1) : ℤ) : ℝ) = ScalarFns.pow (x : ℝ) (1 + 1) := by
  have hsq : ∀ x : ℤ, (ScalarFns.pow x (1 + 1) : ℤ) = x ^ 2 := fun x => rfl
  refine ⟨⟨by simp, by simp, by simp, by simp, by simp, fun x => ?_, fun n => ?_⟩, ?_, fun x => ?_⟩
  · simp [ScalarFns.isZero]
  · simp [ScalarFns.fromUsize]
  · exact
      { nonneg := le_refl _
        zero := by simp
        one := by simp
        isZero := fun x h => by simpa [ScalarFns.isZero] using h
        neg := fun x => by simp
        add := fun x y => ⟨0, by simp⟩
        sub := fun x y => ⟨0, by simp⟩
        mul := fun x y => ⟨0, by simp⟩
        square := fun x => ⟨0, by simp, by rw [hsq]; simp⟩
        fromUsize := fun n k h => by cases h; exact ⟨0, by simp⟩ }
  · rw [rpow_two', hsq]
    simp

/-- The adjoint of an expression in the ring operations, evaluated in integers, is the exact
derivative of the real function the expression stands for. -/
theorem C62_integer_derivative {Γ : Id → BTy} {e e' : Node ℤ} {τ σ : BTy} {t : Id}
    (ha : e.adjoint t = some e') (he : RingExpr e) (d : FnImpl Γ e τ) (da : FnImpl Γ e' σ)
    (hr : FnImpl.Regular d) (hra : FnImpl.Regular da) (c : Ctx ℤ Γ) {v : Buf ℤ τ} {a : Buf ℤ σ}
    (h : (d.evaluate c).1 = .ok v) (h' : (da.evaluate c).1 = .ok a) {b : Buf ℤ (Γ t)}
    (hb : c t = some b)
    (hs : Smooth (envOf (convCtx (Int.cast : ℤ → ℝ) c)) t (conv Int.cast e)) :
    ∀ ix K, InBounds (Buf.dims τ v) ix → InBounds (Buf.dims _ b) K →
      ∃ g x : ℤ, Buf.getU σ a (ix ++ K) = some g ∧ Buf.getU _ b K = some x ∧
        HasDerivAt (fun s => (den (perturb (envOf (convCtx (Int.cast : ℤ → ℝ) c)) t K s)
          (conv Int.cast e)).val ix) (g : ℝ) (x : ℝ) := by
  intro ix K hix hK
  obtain ⟨g, x, D, hg, hx, hD, hgD⟩ :=
    C61_derivative C62_integers.2.1 ha he d da hr hra c h h' hb hs ix K hix hK
  refine ⟨g, x, hg, hx, ?_⟩
  have : (g : ℝ) = D := by
    rw [add_zero, one_pow, sub_self, zero_mul] at hgD
    linarith [abs_nonpos_iff.1 hgD]
  rwa [this]

/-! ### Concrete cases -/

/-- One scalar variable. -/
abbrev c62Ty : Id → BTy := fun _ => .scalar

/-- `x² + x` evaluated in integers and in real numbers. -/
example (x : ℤ) : run (Γ := c62Ty) (c61P ℝ) (fun _ => some (x : ℝ)) =
    some ⟨.scalar, .ok ((x * x + x : ℤ) : ℝ)⟩ :=
  (C62_ring (e := c61P ℤ) C62_integers.1 (by simp) C62_integers.2.2
    ⟨⟨trivial, trivial⟩, trivial⟩ (Γ := c62Ty) (fun _ => some x)).1

/-- A cached square, whose value is left in the context in both number systems alike. -/
example (x : ℤ) (d' : FnImpl c62Ty (.cached (.mul (.var 0) (.var 0)) 1 : Node ℝ) .scalar) :
    d'.evaluate (convCtx Int.cast (fun i => if i = 0 then some x else none)) =
      (.ok ((x * x : ℤ) : ℝ), convCtx Int.cast (fun i => if i = 1 then some (x * x) else
        if i = 0 then some x else none)) := by
  have h := (C62_evaluate (f := (Int.cast : ℤ → ℝ)) C62_integers.1
    (e := .cached (.mul (.var 0) (.var 0)) 1) ⟨trivial, trivial⟩
    (.cached (Γ := c62Ty) 1 (.mul (.var (Γ := c62Ty) 0) (.var (Γ := c62Ty) 0) .ss)) d'
    (fun i => if i = 0 then some x else none)).1
  refine h.trans (Prod.ext rfl (congrArg (convCtx Int.cast) (funext fun i => ?_)))
  show (if h : i = 1 then _ else _) = _
  by_cases hi : i = 1
  · subst hi; rfl
  · rw [dif_neg hi, if_neg hi]; rfl

/-- The derivative of `x² + x` at `3`. -/
example : HasDerivAt (fun s : ℝ => s * s + s) 7 3 := by
  obtain ⟨g, y, hg, hy, hD⟩ := C62_integer_derivative (t := 0) (e := c61P ℤ) rfl
    ⟨⟨trivial, trivial⟩, trivial⟩ (c61PD ℤ) (c61PA ℤ) ⟨⟨trivial, trivial⟩, trivial⟩
    ⟨⟨⟨trivial, trivial⟩, ⟨trivial, trivial⟩⟩, trivial⟩ (fun _ => some (3 : ℤ)) (v := (12 : ℤ))
    (a := (7 : ℤ)) rfl rfl (b := (3 : ℤ)) rfl ⟨⟨trivial, trivial⟩, trivial⟩ [] [] .nil .nil
  cases hg; cases hy
  have : (fun s : ℝ => s * s + s) = fun s => (den (perturb (envOf (convCtx (Int.cast : ℤ → ℝ)
      (fun _ => some (3 : ℤ) : Ctx ℤ c61Ty))) 0 [] s) (conv Int.cast (c61P ℤ))).val [] := by
    funext s
    simp [c61P, conv, den, Tensor.zip, perturb, bIdx, envOf, convCtx, Tensor.ofBuf, Buf.dims, Shp.dims]
  rw [this]
  exact_mod_cast hD

/-- Integers modulo 256, i.e. `Wrapping<u8>`; functions it does not have are set to `0`. -/
instance : ScalarFns (ZMod 256) where
  isZero x := decide (x = 0)
  eqb x y := decide (x = y)
  leb x y := decide (x.val ≤ y.val)
  fromUsize n := some n
  infinity := 0
  pow x y := x ^ y.val
  abs x := x
  signum _ := 0
  ln _ := 0
  exp _ := 0
  cos _ := 0
  cosh _ := 0
  acos _ := 0
  acosh _ := 0
  sin _ := 0
  sinh _ := 0
  asin _ := 0
  asinh _ := 0
  tan _ := 0
  tanh _ := 0
  atan _ := 0
  atanh _ := 0
  gamma _ := 0
  digamma _ := 0
  loggamma _ := 0
  erf _ := 0

instance : Div (ZMod 256) := ⟨fun x y => ((x.val / y.val : ℕ) : ZMod 256)⟩

instance : LawfulScalar (ZMod 256) where
  isZero_iff x := by simp [ScalarFns.isZero]
  fromUsize_eq n := rfl

instance : LawfulPow (ZMod 256) where
  eqb_iff x y := by simp [ScalarFns.eqb]
  pow_zero x := by simp [ScalarFns.pow]
  one_pow x := by simp [ScalarFns.pow]

instance : LawfulSquare (ZMod 256) where
  sq x := by
    show x ^ (2 : ZMod 256).val = x * x
    rw [show (2 : ZMod 256).val = 2 from rfl, pow_two]

instance : LawfulSquare ℤ where
  sq x := by
    show x ^ 2 = x * x
    rw [pow_two]

/-- `x² + x` in `Wrapping<u8>` is the residue of the integer value. -/
example (x : ℤ) : ∃ w : ZMod 256, ((c61PD (ZMod 256)).evaluate (fun _ => some (x : ZMod 256))).1 = .ok w ∧
    w = ((x * x + x : ℤ) : ZMod 256) :=
  ⟨_, rfl, C62_modular (Γ := c61Ty) (τ := .scalar) (Int.castRingHom (ZMod 256)) (e := c61P ℤ)
    ⟨⟨trivial, trivial⟩, trivial⟩ (c61PD ℤ) (c61PD (ZMod 256)) ⟨⟨trivial, trivial⟩, trivial⟩
    ⟨⟨trivial, trivial⟩, trivial⟩ (fun _ => some x) (v := x * x + x) rfl rfl⟩

/-- Without the condition on `is_zero`, `C62_evaluate` fails beyond ring expressions: `256⁰` is `1`
in integers, but in `Wrapping<u8>` the compressed constant `256` is zero and `Power` takes a
shortcut. -/
theorem C62_zero_caveat :
    run (Γ := c62Ty) (.power (.constSpec .scalar (.full () 256)) (.var 0) : Node ℤ)
      (fun _ => some (0 : ℤ)) = some ⟨.scalar, .ok (1 : ℤ)⟩ ∧
    run (Γ := c62Ty) (conv (Int.cast : ℤ → ZMod 256)
      (.power (.constSpec .scalar (.full () 256)) (.var 0) : Node ℤ))
      (convCtx Int.cast (fun _ => some (0 : ℤ))) = some ⟨.scalar, .ok (0 : ZMod 256)⟩ := by
  constructor
  · rfl
  · rfl

end Aegir.Props
