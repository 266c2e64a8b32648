import Verif.Spec.DualNode
import Verif.Spec.Scalar
import Verif.Props.C48_Typing
import Verif.Lemmas.Eval
/-!
# C49: `evaluate_dual` and arithmetic of dual numbers
-/

namespace Aegir

open Spec

/-- All identifiers are scalars. -/
private abbrev S : Id → BTy := fun _ => .scalar

variable {F : Type} [CommRing F] [ScalarFns F] [LawfulScalar F]

private theorem add_ss (x y : BSpec F .scalar) :
    ∃ s, addSpec .ss x y = .ok s ∧ s.unwrap = (x.unwrap : F) + (y.unwrap : F) := by
  cases x <;> cases y <;> simp only [addSpec] <;> (try split) <;>
    (first
      | exact ⟨_, rfl, rfl⟩
      | (rename_i h
         have h0 := (LawfulScalar.isZero_iff _).1 h
         refine ⟨_, rfl, ?_⟩
         first
           | (show _ = _ + (_ : F); simp only [BSpec.unwrap, Buf.full]; rw [h0]; exact (add_zero _).symm)
           | (show _ = _ + (_ : F); simp only [BSpec.unwrap, Buf.full]; rw [h0]; exact (zero_add _).symm)))

private theorem sub_ss (x y : BSpec F .scalar) :
    ∃ s, subSpec .ss x y = .ok s ∧ s.unwrap = (x.unwrap : F) - (y.unwrap : F) := by
  cases x <;> cases y <;> simp only [subSpec] <;> (try split) <;>
    (first
      | exact ⟨_, rfl, rfl⟩
      | (rename_i h
         have h0 := (LawfulScalar.isZero_iff _).1 h
         refine ⟨_, rfl, ?_⟩
         show _ = _ - (_ : F)
         simp only [BSpec.unwrap, Buf.full]; rw [h0]; exact (sub_zero _).symm))

private theorem mul_ss (x y : BSpec F .scalar) :
    ∃ s, mulSpec .ss x y = .ok s ∧ s.unwrap = (x.unwrap : F) * (y.unwrap : F) := by
  cases x <;> cases y <;> simp only [mulSpec] <;> (try split) <;>
    (first
      | exact ⟨_, rfl, rfl⟩
      | (rename_i h
         have h0 := (LawfulScalar.isZero_iff _).1 h
         refine ⟨_, rfl, ?_⟩
         first
           | (show _ = _ * (_ : F); simp only [BSpec.unwrap, Buf.full]; rw [h0]; exact (mul_zero _).symm)
           | (show _ = _ * (_ : F); simp only [BSpec.unwrap, Buf.full]; rw [h0]; exact (zero_mul _).symm)))

variable [Div F]

/-- The expression evaluates to `v` and leaves the context as it is. -/
private def Val {e : Node F} (d : FnImpl S e .scalar) (c : Ctx F S) (v : F) : Prop :=
  ∃ s, d.fn.evaluateSpec c = (.ok s, c) ∧ s.unwrap = v

private theorem val_evaluate {e : Node F} {d : FnImpl S e .scalar} {c : Ctx F S} {v : F}
    (h : Val d c v) : d.evaluate c = (.ok v, c) := by
  obtain ⟨s, h, rfl⟩ := h
  have he : d.evaluate = d.fn.evaluateSpec.map BSpec.unwrap := d.evaluate_eq
  rw [he]
  exact (EvalM.map_ok_iff _ _ _ _ _).2 ⟨s, h, rfl⟩

omit [LawfulScalar F] in
private theorem val_bin {l r : Node F} {dl : FnImpl S l .scalar} {dr : FnImpl S r .scalar}
    {c : Ctx F S} {u v w : F} (hl : Val dl c u) (hr : Val dr c v)
    {k : BSpec F .scalar → BSpec F .scalar → Res IncShapes (BSpec F .scalar)} {f : F → F → F}
    (hk : ∀ x y, ∃ s, k x y = .ok s ∧ s.unwrap = f x.unwrap y.unwrap) (hw : f u v = w) :
    ∃ s, binM dl.fn.evaluateSpec dr.fn.evaluateSpec k c = (.ok s, c) ∧ s.unwrap = w := by
  obtain ⟨x, hl, rfl⟩ := hl
  obtain ⟨y, hr, rfl⟩ := hr
  obtain ⟨s, hs, hu⟩ := hk x y
  exact ⟨s, (binM_ok_iff _ _ _ _ _ _).2 ⟨x, c, y, hl, hr, hs⟩, hu.trans hw⟩

private theorem val_add {l r : Node F} {dl : FnImpl S l .scalar} {dr : FnImpl S r .scalar}
    {c : Ctx F S} {u v : F} (hl : Val dl c u) (hr : Val dr c v) :
    Val (.add dl dr .ss) c (u + v) := val_bin hl hr add_ss rfl

private theorem val_sub {l r : Node F} {dl : FnImpl S l .scalar} {dr : FnImpl S r .scalar}
    {c : Ctx F S} {u v : F} (hl : Val dl c u) (hr : Val dr c v) :
    Val (.sub dl dr .ss) c (u - v) := val_bin hl hr sub_ss rfl

private theorem val_mul {l r : Node F} {dl : FnImpl S l .scalar} {dr : FnImpl S r .scalar}
    {c : Ctx F S} {u v : F} (hl : Val dl c u) (hr : Val dr c v) :
    Val (.mul dl dr .ss) c (u * v) := val_bin hl hr mul_ss rfl

omit [LawfulScalar F] in
private theorem val_neg {n : Node F} {d : FnImpl S n .scalar} {c : Ctx F S} {u : F}
    (h : Val d c u) : Val (.un .negate d) c (-u) := by
  obtain ⟨s, h, rfl⟩ := h
  refine ⟨_, (EvalM.map_ok_iff _ _ _ _ _).2 ⟨s, h, rfl⟩, ?_⟩
  cases s <;> rfl

omit [LawfulScalar F] in
private theorem val_const (v : F) (c : Ctx F S) : Val (.const .scalar v) c v := ⟨_, rfl, rfl⟩

omit [LawfulScalar F] in
private theorem val_constAdj (v : F) {t : Id} {c : Ctx F S} (ht : c t ≠ none) :
    Val (.constAdj (.const .scalar v) t .ss) c 0 := by
  obtain ⟨w, hw⟩ := Option.ne_none_iff_exists'.1 ht
  refine ⟨.full () 0, ?_, rfl⟩
  simp [FnImpl.fn, Fn.ofSpec, EvalM.map, EvalM.bind, EvalM.mapErr, EvalM.lift, EvalM.read, hw,
    Res.map, Res.mapErr, ConcatImpl.shape]

omit [LawfulScalar F] in
private theorem val_var {i : Id} {c : Ctx F S} {v : F} (h : c i = some v) :
    Val (.var (Γ := S) i) c v :=
  ⟨.raw v, by simp [FnImpl.fn, EvalM.map, EvalM.read, h, Res.map], rfl⟩

omit [LawfulScalar F] in
private theorem val_varAdj {i t : Id} {c : Ctx F S} (h : c i ≠ none) (ht : c t ≠ none) :
    Val (.varAdj (Γ := S) i t .ss (Nat.zero_le _)) c (if i = t then 1 else 0) := by
  obtain ⟨v, hv⟩ := Option.ne_none_iff_exists'.1 h
  obtain ⟨w, hw⟩ := Option.ne_none_iff_exists'.1 ht
  have key : ∃ s, varAdjSpec (F := F) i t .ss () () = .ok s ∧
      s.unwrap = if i = t then (1 : F) else 0 := by
    unfold varAdjSpec
    by_cases hit : i = t
    · rw [if_pos hit, if_pos hit]
      exact ⟨_, rfl, rfl⟩
    · rw [if_neg hit, if_neg hit]
      exact ⟨_, rfl, rfl⟩
  obtain ⟨s, hs, hu⟩ := key
  refine ⟨s, ?_, hu⟩
  simp only [FnImpl.fn, Fn.ofSpec, EvalM.map, EvalM.bind, EvalM.mapErr, EvalM.lift, EvalM.read, hv,
    hw, Res.map, Res.mapErr]
  exact congrArg (·, c) hs

/-- The dual number of an input when differentiating with respect to `t`. -/
private def seed (t : Id) (x : Id → F) (i : Id) : Dual F F :=
  if i = t then Dual.variable' .scalar (x i) else Dual.constant .scalar (x i)

private theorem val_prog (p : Prog Id F) (t : Id) (c : Ctx F S) (x : Id → F)
    (hx : ∀ i, p.Uses i → c i = some (x i)) (ht : c t ≠ none) :
    ∃ (e' : Node F) (d : FnImpl S p.node .scalar) (da : FnImpl S e' .scalar),
      p.node.adjoint t = some e' ∧ Val d c (p.runDual (seed t x)).value ∧
        Val da c (p.runDual (seed t x)).adjoint := by
  have two : ∀ q r : Prog Id F, (∀ i, q.Uses i ∨ r.Uses i → c i = some (x i)) →
      (∀ i, q.Uses i → c i = some (x i)) ∧ ∀ i, r.Uses i → c i = some (x i) :=
    fun q r h => ⟨fun i hi => h i (.inl hi), fun i hi => h i (.inr hi)⟩
  induction p with
  | input i =>
    have hi : c i = some (x i) := hx i rfl
    refine ⟨_, .var (Γ := S) i, .varAdj (Γ := S) i t .ss (Nat.zero_le _), rfl, ?_, ?_⟩
    · have : (Prog.runDual (seed t x) (.input i)).value = x i := by
        simp only [Prog.runDual, seed]; split <;> rfl
      rw [this]
      exact val_var hi
    · have : (Prog.runDual (seed t x) (.input i)).adjoint = if i = t then 1 else 0 := by
        simp only [Prog.runDual, seed]; split <;> rfl
      rw [this]
      exact val_varAdj (by rw [hi]; simp) ht
  | const v => exact ⟨_, .const .scalar v, .constAdj (.const .scalar v) t .ss, rfl, val_const v c,
      val_constAdj v ht⟩
  | neg p ih =>
    obtain ⟨e', d, da, h, h1, h2⟩ := ih hx
    exact ⟨_, .un .negate d, .un .negate da, by simp [Prog.node, Node.adjoint, h], val_neg h1,
      val_neg h2⟩
  | add p q ihp ihq | addRef p q ihp ihq =>
    obtain ⟨e', d, da, h, h1, h2⟩ := ihp (two p q hx).1
    obtain ⟨g', k, ka, h', h3, h4⟩ := ihq (two p q hx).2
    exact ⟨_, .add d k .ss, .add da ka .ss, by simp [Prog.node, Node.adjoint, h, h'], val_add h1 h3,
      val_add h2 h4⟩
  | sub p q ihp ihq | subRef p q ihp ihq =>
    obtain ⟨e', d, da, h, h1, h2⟩ := ihp (two p q hx).1
    obtain ⟨g', k, ka, h', h3, h4⟩ := ihq (two p q hx).2
    exact ⟨_, .sub d k .ss, .sub da ka .ss, by simp [Prog.node, Node.adjoint, h, h'], val_sub h1 h3,
      val_sub h2 h4⟩
  | mul p q ihp ihq =>
    obtain ⟨e', d, da, h, h1, h2⟩ := ihp (two p q hx).1
    obtain ⟨g', k, ka, h', h3, h4⟩ := ihq (two p q hx).2
    exact ⟨_, .mul d k .ss, .add (.mul da k .ss) (.mul ka d .ss) .ss,
      by simp [Prog.node, Node.adjoint, h, h'], val_mul h1 h3, val_add (val_mul h2 h3) (val_mul h4 h1)⟩
  | mulRef p q ihp ihq =>
    obtain ⟨e', d, da, h, h1, h2⟩ := ihp (two p q hx).1
    obtain ⟨g', k, ka, h', h3, h4⟩ := ihq (two p q hx).2
    refine ⟨_, .mul d k .ss, .add (.mul da k .ss) (.mul ka d .ss) .ss,
      by simp [Prog.node, Node.adjoint, h, h'], val_mul h1 h3, ?_⟩
    have := val_add (val_mul h2 h3) (val_mul h4 h1)
    rw [mul_comm (Prog.runDual (seed t x) q).adjoint] at this
    exact this
  | addV p v ih | addRefV p v ih =>
    obtain ⟨e', d, da, h, h1, h2⟩ := ih hx
    refine ⟨_, .add d (.const .scalar v) .ss, .add da (.constAdj (.const .scalar v) t .ss) .ss,
      by simp [Prog.node, Node.adjoint, h], val_add h1 (val_const v c), ?_⟩
    have := val_add h2 (val_constAdj v ht)
    rwa [add_zero] at this
  | subV p v ih | subRefV p v ih =>
    obtain ⟨e', d, da, h, h1, h2⟩ := ih hx
    refine ⟨_, .sub d (.const .scalar v) .ss, .sub da (.constAdj (.const .scalar v) t .ss) .ss,
      by simp [Prog.node, Node.adjoint, h], val_sub h1 (val_const v c), ?_⟩
    have := val_sub h2 (val_constAdj v ht)
    rwa [sub_zero] at this

/-- Every program over dual numbers, written as an expression over scalars, is differentiable and
implements `Function`, and `evaluate_dual` yields the dual number that the program computes when the
target is a `Dual::variable` and the other inputs are `Dual::constant`. Missing: products of a dual
number and a plain value, see `C49_violation_mulV`. -/
theorem C49_agree_partial (p : Prog Id F) (t : Id) (c : Ctx F fun _ => .scalar) (x : Id → F)
    (hx : ∀ i, p.Uses i → c i = some (x i)) (ht : c t ≠ none) :
    ∃ e', p.node.adjoint t = some e' ∧
      Nonempty (FnImpl (fun _ => .scalar) p.node .scalar) ∧
      Nonempty (FnImpl (fun _ => .scalar) e' .scalar) ∧
      ∀ (d : FnImpl (fun _ => .scalar) p.node .scalar) (da : FnImpl (fun _ => .scalar) e' .scalar),
        ∃ r : Dual F F, evaluateDual d da c = (.ok (r.value, r.adjoint), c) ∧
          r = p.runDual fun i =>
            if i = t then Dual.variable' .scalar (x i) else Dual.constant .scalar (x i) := by
  obtain ⟨e', d0, da0, h, h1, h2⟩ := val_prog p t c x hx ht
  refine ⟨e', h, ⟨d0⟩, ⟨da0⟩, fun d da => ⟨_, ?_, rfl⟩⟩
  rw [C48_unique d d0, C48_unique da da0]
  simp only [evaluateDual, EvalM.bind, EvalM.mapErr, val_evaluate h1, val_evaluate h2, Res.mapErr,
    EvalM.lift]
  rfl

/-- `(x * y - 3) * x` at `x = 2`, `y = 5`, differentiated with respect to `x`. -/
example : ∃ (p : Prog Id ℤ) (c : Ctx ℤ fun _ => .scalar) (x : Id → ℤ),
    (∀ i, p.Uses i → c i = some (x i)) ∧ c 0 ≠ none ∧
    (p.runDual fun i =>
      if i = 0 then Dual.variable' .scalar (x i) else Dual.constant .scalar (x i)) = ⟨14, 17⟩ :=
  ⟨.mul (.subV (.mul (.input 0) (.input 1)) 3) (.input 0),
    fun i => some (if i = 0 then (2 : ℤ) else 5), fun i => if i = 0 then 2 else 5,
    fun _ _ => rfl, by simp, rfl⟩

/-- The property fails for `Dual * V`: the expression `x * 3` differentiates to `3`, the dual number
`x` times `3` has the adjoint `1`. -/
theorem C49_violation_mulV : ∃ (v k : ℤ) (e' : Node ℤ)
    (d : FnImpl (fun _ => .scalar) (.mul (.var 0) (.const .scalar k)) .scalar)
    (da : FnImpl (fun _ => .scalar) e' .scalar) (c : Ctx ℤ fun _ => .scalar),
    (Node.mul (.var 0) (.const .scalar k)).adjoint 0 = some e' ∧ c 0 = some v ∧
    (evaluateDual d da c).1 = .ok ((6 : ℤ), (3 : ℤ)) ∧
    (Dual.variable' .scalar v : Dual ℤ ℤ).mulV k = ⟨6, 1⟩ :=
  ⟨2, 3, _, .mul (.var (Γ := fun _ => .scalar) 0) (.const .scalar (3 : ℤ)) .ss,
    .add (.mul (.varAdj (Γ := fun _ => .scalar) 0 0 .ss (Nat.zero_le _)) (.const .scalar (3 : ℤ)) .ss)
      (.mul (.constAdj (.const .scalar (3 : ℤ)) 0 .ss) (.var (Γ := fun _ => .scalar) 0) .ss) .ss,
    fun _ => some (2 : ℤ), rfl, rfl, rfl, rfl⟩

end Aegir
