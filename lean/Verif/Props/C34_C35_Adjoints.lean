import Verif.Lemmas.Tensor
import Verif.Lemmas.Adjoint
import Verif.Spec.Instances
/-!
# C34, C35: adjoints of variables and constants, dual evaluation

No arithmetic law is used in this file, so everything also applies to floats.
-/

namespace Aegir.Props

open Aegir Aegir.Spec

section
variable {F : Type} {Γ : Id → BTy}
variable [Zero F] [One F] [Add F] [Sub F] [Mul F] [Div F] [Neg F] [ScalarFns F]

/-! ## C34: variable adjoints are identity or zero tensors -/

theorem c34_spec {x t : Id} {τ : BTy} (d : FnImpl Γ (.varAdj x t : Node F) τ) (c : Ctx F Γ)
    (bx : Buf F (Γ x)) (bt : Buf F (Γ t)) (hx : c x = some bx) (ht : c t = some bt) :
    ∃ v : Buf F τ, d.evaluate c = (.ok v, c) ∧
      (∃ s, d.evaluateShape c = (.ok s, c) ∧ Shp.dims τ s = Buf.dims _ bx ++ Buf.dims _ bt) ∧
      IsTensor v (.delta (decide (x = t)) (.ofBuf bx) (.ofBuf bt)) := by
  cases d with
  | varAdj _ _ k hr =>
    obtain ⟨s, hs, _⟩ := varAdjSpec_ok (F := F) x t k (Buf.shape _ bx) (Buf.shape _ bt)
    refine ⟨s.unwrap, ?_, ⟨k.shape (Buf.shape _ bx) (Buf.shape _ bt), ?_, concat_dims k _ _ _⟩, ?_⟩
    · simp only [FnImpl.evaluate, FnImpl.fn, Fn.ofSpec, EvalM.map, EvalM.bind, EvalM.mapErr,
        EvalM.read, EvalM.lift, hx, ht, Res.map, Res.mapErr, hs]
    · simp only [FnImpl.evaluateShape, FnImpl.fn, Fn.ofSpec, EvalM.map, EvalM.bind, EvalM.mapErr,
        EvalM.read, EvalM.lift, hx, ht, Res.map, Res.mapErr]
    · refine varAdjSpec_tensor x t k rfl rfl ?_ s hs
      rintro rfl
      rw [hx] at ht
      cases ht; rfl

/-- The adjoint of `x` with respect to itself evaluates to the identity tensor. -/
theorem C34_identity {x : Id} {e' : Node F} (h : (Node.var x : Node F).adjoint x = some e')
    {τ : BTy} (d : FnImpl Γ e' τ) (c : Ctx F Γ) (b : Buf F (Γ x)) (hx : c x = some b) :
    ∃ v, d.evaluate c = (.ok v, c) ∧ Buf.dims τ v = Buf.dims (Γ x) b ++ Buf.dims (Γ x) b ∧
      ∀ i j, InBounds (Buf.dims (Γ x) b) i → InBounds (Buf.dims (Γ x) b) j →
        Buf.getU τ v (i ++ j) = some (if i = j then 1 else 0) := by
  cases h
  obtain ⟨v, h1, _, h2⟩ := c34_spec d c b b hx hx
  refine ⟨v, h1, h2.1, fun i j hi hj => ?_⟩
  rw [h2.2 (i ++ j) (inBounds_append.2 ⟨i, j, hi, hj, rfl⟩)]
  have : (Tensor.ofBuf b).dims.length = i.length := (inBounds_length hi).symm
  simp [Tensor.delta, this]

/-- With respect to another identifier it evaluates to the zero tensor. -/
theorem C34_zero {x t : Id} (hxt : x ≠ t) {e' : Node F}
    (h : (Node.var x : Node F).adjoint t = some e') {τ : BTy} (d : FnImpl Γ e' τ) (c : Ctx F Γ)
    (bx : Buf F (Γ x)) (bt : Buf F (Γ t)) (hx : c x = some bx) (ht : c t = some bt) :
    ∃ v, d.evaluate c = (.ok v, c) ∧ Buf.dims τ v = Buf.dims (Γ x) bx ++ Buf.dims (Γ t) bt ∧
      ∀ ix, InBounds (Buf.dims τ v) ix → Buf.getU τ v ix = some 0 := by
  cases h
  obtain ⟨v, h1, _, h2⟩ := c34_spec d c bx bt hx ht
  refine ⟨v, h1, h2.1, fun ix hix => ?_⟩
  rw [h2.2 ix (h2.1 ▸ hix)]
  simp [Tensor.delta, hxt]

/-- `evaluate_shape` gives the extents of that value. -/
theorem C34_shape {x t : Id} {e' : Node F} (h : (Node.var x : Node F).adjoint t = some e') {τ : BTy}
    (d : FnImpl Γ e' τ) (c : Ctx F Γ) (bx : Buf F (Γ x)) (bt : Buf F (Γ t)) (hx : c x = some bx)
    (ht : c t = some bt) :
    ∃ s, d.evaluateShape c = (.ok s, c) ∧
      Shp.dims τ s = Buf.dims (Γ x) bx ++ Buf.dims (Γ t) bt := by
  cases h
  obtain ⟨v, _, h1, _⟩ := c34_spec d c bx bt hx ht
  exact h1

/-- An undefined `x` is a `Left` error (also if the target is undefined), in all three methods. -/
theorem C34_left {x t : Id} {e' : Node F} (h : (Node.var x : Node F).adjoint t = some e') {τ : BTy}
    (d : FnImpl Γ e' τ) (c : Ctx F Γ) (hx : c x = none) :
    d.evaluate c = (.err (.left (.undefined x)), c) ∧
      d.evaluateSpec c = (.err (.left (.undefined x)), c) ∧
      d.evaluateShape c = (.err (.left (.undefined x)), c) := by
  cases h
  cases d with
  | varAdj _ _ k hr =>
    refine ⟨?_, ?_, ?_⟩ <;>
    simp only [FnImpl.evaluate, FnImpl.evaluateSpec, FnImpl.evaluateShape, FnImpl.fn, Fn.ofSpec,
      EvalM.map, EvalM.bind, EvalM.mapErr, EvalM.read, hx, Res.map, Res.mapErr]

/-- An undefined target is a `Right` error. -/
theorem C34_right {x t : Id} {e' : Node F} (h : (Node.var x : Node F).adjoint t = some e') {τ : BTy}
    (d : FnImpl Γ e' τ) (c : Ctx F Γ) (bx : Buf F (Γ x)) (hx : c x = some bx) (ht : c t = none) :
    d.evaluate c = (.err (.right (.undefined t)), c) ∧
      d.evaluateSpec c = (.err (.right (.undefined t)), c) ∧
      d.evaluateShape c = (.err (.right (.undefined t)), c) := by
  cases h
  cases d with
  | varAdj _ _ k hr =>
    refine ⟨?_, ?_, ?_⟩ <;>
    simp only [FnImpl.evaluate, FnImpl.evaluateSpec, FnImpl.evaluateShape, FnImpl.fn, Fn.ofSpec,
      EvalM.map, EvalM.bind, EvalM.mapErr, EvalM.read, hx, ht, Res.map, Res.mapErr]

/-- The adjoint of a constant is zero, of the constant's extents followed by the target's; an
undefined target is a `Right` error. -/
theorem C34_constant {σ : BTy} {b : Buf F σ} {t : Id} {e' : Node F}
    (h : (Node.const σ b : Node F).adjoint t = some e') {τ : BTy} (d : FnImpl Γ e' τ)
    (c : Ctx F Γ) :
    (∀ bt, c t = some bt → ∃ v, d.evaluate c = (.ok v, c) ∧
        Buf.dims τ v = Buf.dims σ b ++ Buf.dims (Γ t) bt ∧
        ∀ ix, InBounds (Buf.dims τ v) ix → Buf.getU τ v ix = some 0) ∧
      (c t = none → d.evaluate c = (.err (.right (.undefined t)), c)) := by
  cases h
  cases d with
  | constAdj d0 _ k =>
    cases d0 with
    | const =>
      refine ⟨fun bt ht => ?_, fun ht => ?_⟩
      · refine ⟨Buf.full τ (k.shape (Buf.shape _ b) (Buf.shape _ bt)) 0, ?_, ?_, fun ix hix => ?_⟩
        · simp only [FnImpl.evaluate, FnImpl.fn, Fn.ofSpec, EvalM.map, EvalM.bind, EvalM.mapErr,
            EvalM.read, EvalM.lift, ht, Res.map, Res.mapErr, BSpec.unwrap]
        · exact ((isTensor_full _ (0 : F)).1).trans (concat_dims k _ _ _)
        · have h0 := isTensor_full (k.shape (Buf.shape _ b) (Buf.shape _ bt)) (0 : F)
          exact h0.2 ix (h0.1 ▸ hix)
      · simp only [FnImpl.evaluate, FnImpl.fn, Fn.ofSpec, EvalM.map, EvalM.bind, EvalM.mapErr,
          EvalM.read, EvalM.lift, ht, Res.map, Res.mapErr]

/-! ## C35: `evaluate_dual` pairs value and adjoint -/

/-- `evaluate_dual` returns a pair exactly if `evaluate` returns the first and `evaluate_adjoint`,
run on the context left by `evaluate`, the second; the final context is the one after both. -/
theorem C35_ok_iff {e e' : Node F} {τ σ : BTy} (d : FnImpl Γ e τ) (da : FnImpl Γ e' σ)
    (c c' : Ctx F Γ) (v : Buf F τ) (a : Buf F σ) :
    evaluateDual d da c = (.ok (v, a), c') ↔
      ∃ c1, d.evaluate c = (.ok v, c1) ∧ da.evaluate c1 = (.ok a, c') := by
  simp only [evaluateDual, EvalM.bind_ok_iff, EvalM.mapErr_ok_iff, EvalM.lift_ok_iff]
  constructor
  · rintro ⟨v', c1, h1, a', c2, h2, h3, rfl⟩
    cases h3
    exact ⟨c1, h1, h2⟩
  · rintro ⟨c1, h1, h2⟩
    exact ⟨v, c1, h1, a, c', h2, rfl, rfl⟩

/-- It fails exactly if one of them does: a failing value is `Left` and pre-empts the adjoint
(the context is the one `evaluate` left), a failing adjoint is `Right`. -/
theorem C35_err_iff {e e' : Node F} {τ σ : BTy} (d : FnImpl Γ e τ) (da : FnImpl Γ e' σ)
    (c c' : Ctx F Γ) (g : EvalErr) :
    evaluateDual d da c = (.err g, c') ↔
      (∃ f, d.evaluate c = (.err f, c') ∧ g = .left f) ∨
      (∃ v c1 f, d.evaluate c = (.ok v, c1) ∧ da.evaluate c1 = (.err f, c') ∧ g = .right f) := by
  simp only [evaluateDual, EvalM.bind_err_iff, EvalM.mapErr_err_iff, EvalM.mapErr_ok_iff]
  constructor
  · rintro (⟨f, h, rfl⟩ | ⟨v, c1, h1, ⟨f, h2, rfl⟩ | ⟨a, c2, h2, h3⟩⟩)
    · exact .inl ⟨f, h, rfl⟩
    · exact .inr ⟨v, c1, f, h1, h2, rfl⟩
    · cases h3
  · rintro (⟨f, h, rfl⟩ | ⟨v, c1, f, h1, h2, rfl⟩)
    · exact .inl ⟨f, h, rfl⟩
    · exact .inr ⟨v, c1, h1, .inl ⟨f, h2, rfl⟩⟩

/-- Without `Cached` nodes both run on the same context: `evaluate_dual` succeeds iff `evaluate` and
`evaluate_adjoint` do and returns their values. -/
theorem C35_cache_free {e e' : Node F} {t : Id} (h : e.adjoint t = some e') (hf : CacheFree e)
    {τ σ : BTy} (d : FnImpl Γ e τ) (da : FnImpl Γ e' σ) (c : Ctx F Γ) (v : Buf F τ) (a : Buf F σ) :
    (evaluateDual d da c).1 = .ok (v, a) ↔ (d.evaluate c).1 = .ok v ∧ (da.evaluate c).1 = .ok a := by
  have h1 : (d.evaluate c).2 = c := (d.ctx_eq hf c).1
  have h2 : (da.evaluate c).2 = c := (da.ctx_eq (adjoint_cacheFree h hf) c).1
  constructor
  · intro hd
    obtain ⟨c1, h3, h4⟩ := (C35_ok_iff d da c (evaluateDual d da c).2 v a).1 (Prod.ext hd rfl)
    have : c1 = c := (congrArg Prod.snd h3).symm.trans h1
    subst this
    exact ⟨congrArg Prod.fst h3, congrArg Prod.fst h4⟩
  · rintro ⟨h3, h4⟩
    have := (C35_ok_iff d da c c v a).2 ⟨c, Prod.ext h3 h1, Prod.ext h4 h2⟩
    exact congrArg Prod.fst this

end

/-! ### Concrete cases -/

/-- `0` is a vector of length 2, `1` a 2×2 matrix, the rest scalars. -/
def c34Ty : Id → BTy
  | 0 => .array [2]
  | 1 => .array [2, 2]
  | _ => .scalar

/-- `x = [3, 4]`, `A = [[5, 5], [5, 5]]`, one scalar undefined. -/
def c34Ctx : Ctx ℤ c34Ty
  | 0 => some (Buf.build (.array [2]) () fun ix => if ix = [0] then 3 else 4)
  | 1 => some (Buf.full (.array [2, 2]) () 5)
  | 2 => some (7 : ℤ)
  | _ + 3 => none

/-- `dA/dA`, rank 4 -/
def c34A : FnImpl (F := ℤ) c34Ty (.varAdj 1 1) (.array [2, 2, 2, 2]) :=
  .varAdj (Γ := c34Ty) 1 1 (.aa [2, 2] [2, 2] (by decide)) (by decide)

example : ∃ v, c34A.evaluate c34Ctx = (.ok v, c34Ctx) ∧
    Buf.getU (.array [2, 2, 2, 2]) v [0, 1, 0, 1] = some 1 ∧
    Buf.getU (.array [2, 2, 2, 2]) v [0, 1, 1, 0] = some 0 := by
  have hb : ∀ i j, i < 2 → j < 2 → InBounds [2, 2] [i, j] := fun i j hi hj =>
    .cons hi (.cons hj .nil)
  obtain ⟨v, h1, _, h2⟩ := C34_identity (x := 1) rfl c34A c34Ctx _ rfl
  exact ⟨v, h1, h2 [0, 1] [0, 1] (hb 0 1 (by decide) (by decide)) (hb 0 1 (by decide) (by decide)),
    h2 [0, 1] [1, 0] (hb 0 1 (by decide) (by decide)) (hb 1 0 (by decide) (by decide))⟩

example : ∃ v, FnImpl.evaluate (FnImpl.varAdj (F := ℤ) (Γ := c34Ty) 0 2 (.as [2]) (by decide)) c34Ctx
    = (.ok v, c34Ctx) ∧ Buf.dims (.array [2]) v = [2] := by
  obtain ⟨v, h1, h2, _⟩ := C34_zero (F := ℤ) (x := 0) (t := 2) (by decide) rfl
    (FnImpl.varAdj (Γ := c34Ty) 0 2 (.as [2]) (by decide)) c34Ctx _ _ rfl rfl
  exact ⟨v, h1, h2⟩

example : (FnImpl.varAdj (F := ℤ) (Γ := c34Ty) 3 4 .ss (by decide)).evaluate c34Ctx
    = (.err (.left (.undefined 3)), c34Ctx) := (C34_left (F := ℤ) (x := 3) (t := 4) rfl _ _ rfl).1

example : (FnImpl.varAdj (F := ℤ) (Γ := c34Ty) 2 4 .ss (by decide)).evaluate c34Ctx
    = (.err (.right (.undefined 4)), c34Ctx) :=
  (C34_right (F := ℤ) (x := 2) (t := 4) rfl _ _ _ rfl rfl).1

/-- `s * s` at `s = 7` -/
def c35E : FnImpl (F := ℤ) c34Ty (.mul (.var 2) (.var 2)) .scalar :=
  .mul (.var (Γ := c34Ty) 2) (.var (Γ := c34Ty) 2) .ss

/-- its adjoint -/
def c35A : FnImpl (F := ℤ) c34Ty
    (.add (.mul (.varAdj 2 2) (.var 2)) (.mul (.varAdj 2 2) (.var 2))) .scalar :=
  .add (.mul (.varAdj (Γ := c34Ty) 2 2 .ss (by decide)) (.var (Γ := c34Ty) 2) .ss)
    (.mul (.varAdj (Γ := c34Ty) 2 2 .ss (by decide)) (.var (Γ := c34Ty) 2) .ss) .ss

example : (evaluateDual c35E c35A c34Ctx).1 = .ok ((49 : ℤ), (14 : ℤ)) :=
  (C35_cache_free (e := .mul (.var 2) (.var 2)) (t := 2) rfl (by simp [CacheFree]) c35E c35A c34Ctx
    49 14).2 ⟨rfl, rfl⟩

/-- With caches the two evaluations are not independent: `Cached(x, 1) * t` with the target `1` as
cache identifier. Evaluating the adjoint first fails (`t` undefined), `evaluate_dual` fills the cache
and succeeds. -/
theorem C35_cached_caveat :
    ∃ (Γ : Id → BTy) (e e' : Node ℤ) (d : FnImpl Γ e .scalar) (da : FnImpl Γ e' .scalar)
      (c : Ctx ℤ Γ), e.adjoint 1 = some e' ∧ (evaluateDual d da c).1 = .ok ((9 : ℤ), (3 : ℤ)) ∧
      ∃ g, (da.evaluate c).1 = .err g := by
  let Γ : Id → BTy := fun _ => .scalar
  let v (i : Id) : FnImpl (F := ℤ) Γ (.var i) .scalar := .var (Γ := Γ) i
  let a (i : Id) : FnImpl (F := ℤ) Γ (.varAdj i 1) .scalar := .varAdj (Γ := Γ) i 1 .ss (by decide)
  exact ⟨Γ, _, _, .mul (.cached (Γ := Γ) 1 (v 0)) (v 1) .ss,
    .add (.mul (a 0) (v 1) .ss) (.mul (a 1) (.cached (Γ := Γ) 1 (v 0)) .ss) .ss,
    fun i => if i = 0 then some (3 : ℤ) else none, rfl, rfl, _, rfl⟩

end Aegir.Props
