import Verif.Lemmas.Cost
import Verif.Lemmas.EvalIn
import Verif.Spec.Instances
import Verif.Props.C60_Contexts
/-!
# C65: the work done by evaluation, and the size of derivatives

Which calls of `Read` and `Write` an evaluation makes, in which order, and how large the expressions
returned by `adjoint` are.
-/

namespace Aegir

open Spec Store Props

variable {F : Type} {Γ : Id → BTy} {σ : Type}

section
variable [Zero F] [One F] [Add F] [Sub F] [Mul F] [Div F] [Neg F] [ScalarFns F]

/-- Recording the calls changes nothing: the recorded evaluation is the evaluation. -/
theorem C65_erase (I : CtxImpl F Γ σ) {e : Node F} {τ : BTy} (d : FnImpl Γ e τ) (s : σ) :
    (((d.fnTr I).evaluate s).1, ((d.fnTr I).evaluate s).2.1) = (d.fnIn I).evaluate s ∧
    (((d.fnTr I).evaluateSpec s).1, ((d.fnTr I).evaluateSpec s).2.1) = (d.fnIn I).evaluateSpec s ∧
    (((d.fnTr I).evaluateShape s).1, ((d.fnTr I).evaluateShape s).2.1) =
      (d.fnIn I).evaluateShape s :=
  have h := d.erases I
  ⟨h.1 s, h.2.1 s, h.2.2 s⟩

/-- If every cache that occurs is filled (in particular if none occurs), a successful evaluation
reads every occurrence of an identifier once, from left to right, does nothing else, and leaves the
context as it was. For the shape only the occurrences that matter for the shape are read. -/
theorem C65_reads (I : CtxImpl F Γ σ) {e : Node F} {τ : BTy} (d : FnImpl Γ e τ) (s : σ)
    (hw : ∀ i, CacheId e i → I.read s i ≠ none) :
    (∀ v s' as, (d.fnTr I).evaluate s = (.ok v, s', as) →
      s' = s ∧ (∀ a ∈ as, IsRead a) ∧ as.map accId = valueIds e) ∧
    (∀ v s' as, (d.fnTr I).evaluateSpec s = (.ok v, s', as) →
      s' = s ∧ (∀ a ∈ as, IsRead a) ∧ as.map accId = valueIds e) ∧
    ∀ v s' as, (d.fnTr I).evaluateShape s = (.ok v, s', as) →
      s' = s ∧ (∀ a ∈ as, IsRead a) ∧ as.map accId = shapeIds e := by
  have key : ∀ {α : Type} {m : TM σ α} {ids : List Id}, ReadsOnly s m ids → ∀ v s' as,
      m s = (.ok v, s', as) → s' = s ∧ (∀ a ∈ as, IsRead a) ∧ as.map accId = ids := by
    intro α m ids h v s' as hm
    obtain ⟨h1, h2, h3, -⟩ := h
    rw [hm] at h1 h2 h3
    exact ⟨h1, h2, h3 ⟨v, rfl⟩⟩
  have h := d.readsOnly I s hw
  exact ⟨key h.1, key h.2.1, key h.2.2⟩

/-- A failing evaluation stops at the point of failure: the reads are the first ones of the same
list. -/
theorem C65_prefix (I : CtxImpl F Γ σ) {e : Node F} {τ : BTy} (d : FnImpl Γ e τ) (s : σ)
    (hw : ∀ i, CacheId e i → I.read s i ≠ none) :
    ((d.fnTr I).evaluate s).2.2.map accId <+: valueIds e ∧
      ((d.fnTr I).evaluateSpec s).2.2.map accId <+: valueIds e ∧
      ((d.fnTr I).evaluateShape s).2.2.map accId <+: shapeIds e :=
  have h := d.readsOnly I s hw
  ⟨h.1.2.2.2, h.2.1.2.2.2, h.2.2.2.2.2⟩

/-- Whatever the context type and its state, evaluation makes at most two calls for each node. -/
theorem C65_linear (I : CtxImpl F Γ σ) {e : Node F} {τ : BTy} (d : FnImpl Γ e τ) (s : σ) :
    ((d.fnTr I).evaluate s).2.2.length ≤ 2 * size e ∧
      ((d.fnTr I).evaluateSpec s).2.2.length ≤ 2 * size e ∧
      ((d.fnTr I).evaluateShape s).2.2.length ≤ 2 * size e :=
  have h := d.atMost I
  ⟨h.1 s, h.2.1 s, h.2.2 s⟩

/-- A filled cache costs one read, however large the expression behind it is. -/
theorem C65_hit (I : CtxImpl F Γ σ) {n : Node F} (i : Id) (d : FnImpl Γ n (Γ i)) (s : σ)
    (v : Buf F (Γ i)) (h : I.read s i = some v) :
    ((FnImpl.cached i d).fnTr I).evaluate s = (.ok v, s, [.read i]) := by
  simp only [FnImpl.fnTr, h]

/-- An empty one costs two calls more than the expression behind it, one of them a write. -/
theorem C65_miss (I : CtxImpl F Γ σ) {n : Node F} (i : Id) (d : FnImpl Γ n (Γ i)) (s : σ)
    (h : I.read s i = none) (v : Buf F (Γ i)) (s' : σ) (as : List Acc)
    (hd : (d.fnTr I).evaluate s = (.ok v, s', as)) :
    ((FnImpl.cached i d).fnTr I).evaluate s = (.ok v, I.write s' i v, .read i :: as ++ [.write i]) := by
  simp only [FnImpl.fnTr, h, hd]

/-- In a lawful context type a second evaluation of a cached expression makes one call and returns the
same value. -/
theorem C65_again {I : CtxImpl F Γ σ} {W : Id → Prop} (hI : LawfulCtx I W) {n : Node F} (i : Id)
    (hi : W i) (d : FnImpl Γ n (Γ i)) (s s' : σ) (v : Buf F (Γ i)) (as : List Acc)
    (h : ((FnImpl.cached i d).fnTr I).evaluate s = (.ok v, s', as)) :
    ((FnImpl.cached i d).fnTr I).evaluate s' = (.ok v, s', [.read i]) := by
  refine C65_hit I i d s' v ?_
  simp only [FnImpl.fnTr] at h
  cases hr : I.read s i with
  | some w =>
    rw [hr] at h
    cases h
    exact hr
  | none =>
    rw [hr] at h
    dsimp only at h
    rcases hd : (d.fnTr I).evaluate s with ⟨r, s'', as'⟩
    rw [hd] at h
    cases r with
    | ok w =>
      cases h
      exact hI.same _ _ _ hi
    | err e => cases h
    | panic => cases h

end

/-- The derivative of an expression is at most three times its size times its height. -/
theorem C65_adjoint_size {t : Id} {e e' : Node F} (h : e.adjoint t = some e') :
    size e' ≤ 3 * size e * height e ∧ height e' ≤ 3 * height e := adjoint_size h

/-- Hence at most quadratic, and the second derivative at most cubic. -/
theorem C65_adjoint_poly {t u : Id} {e e' e'' : Node F} (h : e.adjoint t = some e')
    (h' : e'.adjoint u = some e'') :
    size e' ≤ 3 * size e ^ 2 ∧ size e'' ≤ 27 * size e * height e ^ 2 ∧ size e'' ≤ 27 * size e ^ 3 := by
  have hs := height_le_size e
  obtain ⟨a1, a2⟩ := adjoint_size h
  obtain ⟨b1, -⟩ := adjoint_size h'
  have c : size e'' ≤ 27 * size e * height e ^ 2 := calc
    size e'' ≤ 3 * size e' * height e' := b1
    _ ≤ 3 * (3 * size e * height e) * (3 * height e) := by gcongr
    _ = 27 * size e * height e ^ 2 := by ring
  refine ⟨?_, c, c.trans ?_⟩
  · calc size e' ≤ 3 * size e * height e := a1
      _ ≤ 3 * size e * size e := by gcongr
      _ = 3 * size e ^ 2 := by ring
  · calc 27 * size e * height e ^ 2 ≤ 27 * size e * size e ^ 2 := by gcongr
      _ = 27 * size e ^ 3 := by ring

section
variable [Zero F] [One F] [Add F] [Sub F] [Mul F] [Div F] [Neg F] [ScalarFns F]

/-- The calls made to evaluate a derivative, in terms of the expression. -/
theorem C65_adjoint_calls (I : CtxImpl F Γ σ) {t : Id} {e e' : Node F} {τ : BTy}
    (h : e.adjoint t = some e') (d : FnImpl Γ e' τ) (s : σ) :
    ((d.fnTr I).evaluate s).2.2.length ≤ 6 * size e * height e := by
  have h1 := (d.atMost I).1 s
  have h2 := (adjoint_size h).1
  calc ((d.fnTr I).evaluate s).2.2.length ≤ 2 * size e' := h1
    _ ≤ 2 * (3 * size e * height e) := by gcongr
    _ = 6 * size e * height e := by ring

/-- There is no better bound than a quadratic one: the product of `k + 1` scalars takes `k + 1` reads,
its derivative about `k² / 2`, because the derivative of each factor repeats the factors before it. -/
theorem C65_quadratic (I : CtxImpl F (fun _ => .scalar) σ) (s : σ) (x : Id)
    (h0 : I.read s x ≠ none) (h1 : I.readSpec s x ≠ none) (h2 : I.readShape s x ≠ none) (k : Nat) :
    ∃ (e' : Node F) (d : FnImpl (fun _ => .scalar) (powers x k : Node F) .scalar)
      (d' : FnImpl (fun _ => .scalar) e' .scalar), (powers x k).adjoint x = some e' ∧
      size (powers x k : Node F) = 2 * k + 1 ∧ size e' = k ^ 2 + 5 * k + 1 ∧
      (∃ v as, (d.fnTr I).evaluate s = (.ok v, s, as) ∧ as.length = k + 1) ∧
      ∃ v as, (d'.fnTr I).evaluate s = (.ok v, s, as) ∧ 2 * as.length = k ^ 2 + 7 * k + 4 := by
  obtain ⟨⟨v, as, hp⟩, w, bs, ha⟩ := powers_evaluates I s x h0 h1 h2 k
  have hf := powers_cacheFree (F := F) x k
  refine ⟨powersAdj x k, powersImpl x k, powersAdjImpl x k, adjoint_powers x k, size_powers x k,
    by rw [size_powersAdj]; ring, ⟨v, as, hp, ?_⟩, w, bs, ha, ?_⟩
  · rw [← ids_powers (F := F) x k, ← ((C65_reads I (powersImpl x k) s
      fun i ⟨n, hn⟩ => absurd hn (hf.1 n i)).1 _ _ _ hp).2.2, List.length_map]
  · rw [pow_two, ← ids_powersAdj (F := F) x k, ← ((C65_reads I (powersAdjImpl x k) s
      fun i ⟨n, hn⟩ => absurd hn (hf.2 n i)).1 _ _ _ ha).2.2, List.length_map]

end

/-! ### Examples -/

namespace CostExample

/-- Contexts of integers, as maps. -/
abbrev I : CtxImpl ℤ (fun _ => .scalar) (Ctx ℤ fun _ => .scalar) := CtxImpl.ofRead (fun c => c) Ctx.write

/-- `x₀ = 3`, `x₁ = 4`, nothing else. -/
abbrev c : Ctx ℤ fun _ => .scalar := fun i => if i = 0 then some 3 else if i = 1 then some 4 else none

/-- `(x₀ + x₁) · (x₀ + x₁)` with the sum stored under `x₂`. -/
abbrev e : Node ℤ := .mul (.cached (.add (.var 0) (.var 1)) 2)
  (.cached (.add (.var 0) (.var 1)) 2)

/-- Its impl. -/
abbrev d : FnImpl (fun _ => .scalar) e .scalar :=
  .mul (.cached 2 (.add (.var 0) (.var 1) .ss)) (.cached 2 (.add (.var 0) (.var 1) .ss)) .ss

/-- The first evaluation computes the sum once. -/
example : ((d.fnTr I).evaluate c).2.2 =
    [.read 2, .readSpec 0, .readSpec 1, .write 2, .read 2] := by decide

/-- The second one reads it twice and nothing else, as `C65_reads` says. -/
example : ∀ v s' as, (d.fnTr I).evaluate (Ctx.write c 2 7) = (.ok v, s', as) →
    as.map accId = [2, 2] := fun v s' as h =>
  ((C65_reads I d (Ctx.write c 2 7) fun i ⟨n, hn⟩ => by
    simp at hn
    rw [hn.2]
    exact Option.some_ne_none _).1 v s' as h).2.2

example : ((d.fnTr I).evaluate (Ctx.write c 2 7)).1 = .ok 49 := by decide

/-- A failing evaluation: `x₃` is not there, and `x₁` is not asked for. -/
example : (((FnImpl.add (.add (.var 0) (.var 3) .ss) (.var 1) .ss : FnImpl (fun _ => .scalar)
    (.add (.add (.var 0) (.var 3)) (.var 1) : Node ℤ) .scalar).fnTr I).evaluate c).2.2.map accId
      = [0, 3] := by decide

/-- `C65_again` applies to the cached sum. -/
example : ((FnImpl.cached 2 (.add (.var 0) (.var 1) .ss) : FnImpl (fun _ => .scalar)
    (.cached (.add (.var 0) (.var 1)) 2 : Node ℤ) .scalar).fnTr I).evaluate
      (Ctx.write c 2 (7 : ℤ)) = (.ok (7 : ℤ), Ctx.write c 2 (7 : ℤ), [.read 2]) :=
  C65_again (I := I) (W := fun _ => True) (C60_default (fun c => c) Ctx.write _ fun _ _ _ _ => rfl) 2 trivial
    (.add (.var 0) (.var 1) .ss) c _ 7 [.read 2, .readSpec 0, .readSpec 1, .write 2] rfl

/-- The quotient of `x₀` and `x₀ + x₁`: five nodes. -/
example : ∃ e', (Node.div (.var 0) (.add (.var 0) (.var 1)) : Node ℤ).adjoint 0 = some e' ∧
    size e' = 16 ∧ height e' = 5 :=
  ⟨_, rfl, by decide, by decide⟩

/-- The hypotheses of `C65_quadratic`. -/
example : I.read c 0 ≠ none ∧ I.readSpec c 0 ≠ none ∧ I.readShape c 0 ≠ none :=
  ⟨Option.some_ne_none _, Option.some_ne_none _, Option.some_ne_none _⟩

end CostExample

end Aegir
