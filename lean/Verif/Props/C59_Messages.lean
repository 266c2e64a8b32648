import Verif.Lemmas.Messages
import Verif.Lemmas.Node
import Mathlib.Data.Int.Basic
import Verif.Spec.Instances
/-!
# C59: error messages name the cause
-/

namespace Aegir

open Spec

variable {F : Type} {Γ : Id → BTy}

/-- Shapes with the same text are the same shape: fixed and dynamic shapes, numbers of axes and
extents can all be read off the text. -/
theorem C59_shapes (s t : ShapeV) : s.display = t.display ↔ s = t :=
  ⟨fun h => display_inj (congrArg _ h), fun h => h ▸ rfl⟩

example : (ShapeV.fixed [2, 13]).display = "2 × 13" := by decide
example : (ShapeV.fixed [21, 3]).display = "21 × 3" := by decide
example : (ShapeV.fixed [7]).display = "7" := by decide
example : (ShapeV.fixed []).display = "S0" := by decide
example : (ShapeV.dyn [3, 4]).display = "SDynamic([3, 4])" := by decide
example : (ShapeV.dyn []).display = "SDynamic([])" := by decide

/-- Two mismatch messages with the same text are about the same shapes in the same order. -/
theorem C59_mismatch (l r l' r' : ShapeV) : incText l r = incText l' r' ↔ l = l' ∧ r = r' :=
  ⟨incText_inj, fun ⟨h1, h2⟩ => h1 ▸ h2 ▸ rfl⟩

example : incText (.dyn [3]) (.dyn [12]) =
    "Buffer shapes are incompatible: SDynamic([3]) vs SDynamic([12])." := by decide

/-- Every `Broadcast` error is between two `SDynamic` shapes, so no other shape text ever appears in
the message of an evaluation. -/
theorem C59_broadcast (s t : ShapeV) (e : IncShapes) (h : broadcast s t = some (.error e)) :
    s = .dyn e.left ∧ t = .dyn e.right ∧ e.left ≠ e.right := by
  match s, t with
  | .fixed [], .fixed [] | .fixed [], .fixed (_ :: _) | .fixed (_ :: _), .fixed [] =>
    simp [broadcast] at h
  | .fixed (d :: ds), .fixed (f :: fs) =>
    simp only [broadcast] at h; split at h <;> simp at h
  | .dyn ds, .fixed [] | .fixed [], .dyn es => simp [broadcast] at h
  | .dyn ds, .dyn es =>
    simp only [broadcast] at h
    split at h
    · split at h
      · simp at h
      · rename_i hne
        simp only [Option.some.injEq, Except.error.injEq] at h
        subst h; exact ⟨rfl, rfl, hne⟩
    · simp at h
  | .dyn _, .fixed (_ :: _) | .fixed (_ :: _), .dyn _ => simp [broadcast] at h

example : broadcast (.dyn [3]) (.dyn [4]) = some (.error ⟨[3], [4]⟩) := by decide

section
variable [Zero F] [One F] [Add F] [Sub F] [Mul F] [Div F] [Neg F] [ScalarFns F]

/-- The message of a failed evaluation (value, specification or shape) of any expression, caches
included: either it names an identifier that the expression needs and that the context does not
define, or it shows two different vector lengths. -/
theorem C59_cause (dbg : Id → String) {e : Node F} {τ : BTy} (d : FnImpl Γ e τ) (c c' : Ctx F Γ)
    (g : EvalErr) (h : d.evaluate c = (.err g, c') ∨ d.evaluateSpec c = (.err g, c') ∨
      d.evaluateShape c = (.err g, c')) :
    (∃ i, NeedsId e i ∧ c i = none ∧
      g.display dbg = "No variable found with identifier " ++ dbg i ++ ".") ∨
    ∃ n m : Nat, n ≠ m ∧ g.display dbg = "Buffer shapes are incompatible: SDynamic([" ++ toString n ++
      "]) vs SDynamic([" ++ toString m ++ "])." := by
  have h1 : ∃ s f, ErrorAt e g s f ∧ OwnError c s f := by
    rcases h with h | h | h
    · exact d.errorAt.1 c c' g ((d.evaluate_err_iff _ _ _).1 h)
    · exact d.errorAt.1 c c' g h
    · exact d.errorAt.2 c c' g h
  have h2 : ∀ l r, CausedBy g (.clash l r) → ∃ n k, n ≠ k ∧ l = [n] ∧ r = [k] := by
    rcases h with h | h | h
    · exact d.clashes.1 c c' g h
    · exact d.clashes.2.1 c c' g h
    · exact d.clashes.2.2 c c' g h
  obtain ⟨s, f, hs, ho⟩ := h1
  have hsub := hs.subExpr
  have miss : ∀ i, NeedsId s i → c i = none → CausedBy f (.missing i) →
      ∃ i, NeedsId e i ∧ c i = none ∧
        g.display dbg = "No variable found with identifier " ++ dbg i ++ "." :=
    fun i hn hi hk => ⟨i, hn.subExpr hsub, hi, display_of_cause (hs.cause hk)⟩
  have clash : ∀ s : IncShapes, f = .output s →
      ∃ n m : Nat, n ≠ m ∧ g.display dbg = "Buffer shapes are incompatible: SDynamic([" ++ toString n ++
        "]) vs SDynamic([" ++ toString m ++ "])." := by
    rintro s rfl
    have hg := hs.cause (.output s)
    obtain ⟨n, m, hnm, hl, hr⟩ := h2 _ _ hg
    refine ⟨n, m, hnm, ?_⟩
    rw [display_of_cause hg, hl, hr]
    exact clash_text n m
  cases ho with
  | var hi => exact .inl (miss _ (.inl (.refl _)) hi (.undefined _))
  | varAdjValue hi => exact .inl (miss _ (.inr (.inl ⟨_, .refl _⟩)) hi (.left (.undefined _)))
  | varAdjTarget hi =>
    exact .inl (miss _ (.inr (.inr (.inl ⟨_, .refl _⟩))) hi (.right (.undefined _)))
  | constAdjTarget hi =>
    exact .inl (miss _ (.inr (.inr (.inr ⟨_, .refl _⟩))) hi (.right (.undefined _)))
  | add => exact .inr (clash _ rfl)
  | sub => exact .inr (clash _ rfl)
  | mul => exact .inr (clash _ rfl)
  | div => exact .inr (clash _ rfl)

end

/-- With distinct texts for distinct identifiers, two error values have the same message exactly
when they have the same cause. -/
theorem C59_same (dbg : Id → String) (hd : Function.Injective dbg) (g g' : EvalErr) :
    g.display dbg = g'.display dbg ↔ ∃ k, CausedBy g k ∧ CausedBy g' k := by
  constructor
  · intro h
    obtain ⟨k, hk⟩ := cause_exists g
    obtain ⟨k', hk'⟩ := cause_exists g'
    rw [display_of_cause hk, display_of_cause hk'] at h
    exact ⟨k, hk, causeText_inj hd h ▸ hk'⟩
  · rintro ⟨k, hk, hk'⟩
    rw [display_of_cause hk, display_of_cause hk']

/-- The texts `toString i` of the numbers are distinct. -/
example : Function.Injective (fun i : Id => toString i) :=
  fun _ _ h => toString_nat_inj (congrArg _ h)

/-- An error has exactly one cause. -/
theorem C59_unique (g : EvalErr) : ∃! k, CausedBy g k := by
  obtain ⟨k, hk⟩ := cause_exists g
  exact ⟨k, hk, fun j hj => hj.unique hk⟩

section
variable [Zero F] [One F] [Add F] [Sub F] [Mul F] [Div F] [Neg F] [ScalarFns F]

/-- Evaluation of an expression without caches and run-time sizes looks at its identifiers from
left to right: it succeeds exactly when all of them are defined, and otherwise the message names the
first that is not. The context stays as it was. -/
theorem C59_first (dbg : Id → String) (hU : ∀ n, (ScalarFns.fromUsize n : Option F) ≠ none)
    {e : Node F} {τ : BTy} (d : FnImpl Γ e τ) (hc : CacheFree e) (hf : FixedSize Γ e)
    (hp : FnImpl.ProductsInRange d) (c : Ctx F Γ) :
    ((∃ v, d.evaluate c = (.ok v, c)) ↔ ∀ i ∈ reads true e, c i ≠ none) ∧
    ∀ i, FirstMissing c (reads true e) i → ∃ g, d.evaluate c = (.err g, c) ∧
      g.display dbg = "No variable found with identifier " ++ dbg i ++ "." := by
  have h := (d.follows hU hc hf hp).1 c
  constructor
  · rcases h with ⟨h1, h2⟩ | ⟨i, g, ⟨u, w, hr, hi, _⟩, _, h3⟩
    · exact ⟨fun _ => h1, fun _ => h2⟩
    · refine ⟨fun ⟨v, hv⟩ => ?_, fun hall => absurd hi (hall i (by rw [hr]; simp))⟩
      have := h3.symm.trans hv
      cases this
  · intro i hi
    rcases h with ⟨h1, _⟩ | ⟨j, g, hj, h2, h3⟩
    · obtain ⟨u, w, hr, hi, _⟩ := hi
      exact absurd hi (h1 i (by rw [hr]; simp))
    · rw [hi.unique hj]
      exact ⟨g, h3, display_of_cause h2⟩

/-- The same for `evaluate_spec`. -/
theorem C59_first_spec (dbg : Id → String) (hU : ∀ n, (ScalarFns.fromUsize n : Option F) ≠ none)
    {e : Node F} {τ : BTy} (d : FnImpl Γ e τ) (hc : CacheFree e) (hf : FixedSize Γ e)
    (hp : FnImpl.ProductsInRange d) (c : Ctx F Γ) :
    ((∃ v, d.evaluateSpec c = (.ok v, c)) ↔ ∀ i ∈ reads true e, c i ≠ none) ∧
    ∀ i, FirstMissing c (reads true e) i → ∃ g, d.evaluateSpec c = (.err g, c) ∧
      g.display dbg = "No variable found with identifier " ++ dbg i ++ "." := by
  have h := (d.follows hU hc hf hp).2.1 c
  constructor
  · rcases h with ⟨h1, h2⟩ | ⟨i, g, ⟨u, w, hr, hi, _⟩, _, h3⟩
    · exact ⟨fun _ => h1, fun _ => h2⟩
    · refine ⟨fun ⟨v, hv⟩ => ?_, fun hall => absurd hi (hall i (by rw [hr]; simp))⟩
      have := h3.symm.trans hv
      cases this
  · intro i hi
    rcases h with ⟨h1, _⟩ | ⟨j, g, hj, h2, h3⟩
    · obtain ⟨u, w, hr, hi, _⟩ := hi
      exact absurd hi (h1 i (by rw [hr]; simp))
    · rw [hi.unique hj]
      exact ⟨g, h3, display_of_cause h2⟩

/-- The same for `evaluate_shape`, which looks at fewer identifiers: the operands of a power and of
a sum do not matter. -/
theorem C59_first_shape (dbg : Id → String) (hU : ∀ n, (ScalarFns.fromUsize n : Option F) ≠ none)
    {e : Node F} {τ : BTy} (d : FnImpl Γ e τ) (hc : CacheFree e) (hf : FixedSize Γ e)
    (hp : FnImpl.ProductsInRange d) (c : Ctx F Γ) :
    ((∃ v, d.evaluateShape c = (.ok v, c)) ↔ ∀ i ∈ reads false e, c i ≠ none) ∧
    ∀ i, FirstMissing c (reads false e) i → ∃ g, d.evaluateShape c = (.err g, c) ∧
      g.display dbg = "No variable found with identifier " ++ dbg i ++ "." := by
  have h := (d.follows hU hc hf hp).2.2 c
  constructor
  · rcases h with ⟨h1, h2⟩ | ⟨i, g, ⟨u, w, hr, hi, _⟩, _, h3⟩
    · exact ⟨fun _ => h1, fun _ => h2⟩
    · refine ⟨fun ⟨v, hv⟩ => ?_, fun hall => absurd hi (hall i (by rw [hr]; simp))⟩
      have := h3.symm.trans hv
      cases this
  · intro i hi
    rcases h with ⟨h1, _⟩ | ⟨j, g, hj, h2, h3⟩
    · obtain ⟨u, w, hr, hi, _⟩ := hi
      exact absurd hi (h1 i (by rw [hr]; simp))
    · rw [hi.unique hj]
      exact ⟨g, h3, display_of_cause h2⟩

end

/-- If some identifier of the list is undefined, there is a first one. -/
theorem C59_some_first (c : Ctx F Γ) (ids : List Id) (h : ∃ i ∈ ids, c i = none) :
    ∃! i, FirstMissing c ids i := by
  have ex : ∃ i, FirstMissing c ids i := by
    induction ids with
    | nil => obtain ⟨i, hi, _⟩ := h; cases hi
    | cons a ids ih =>
      by_cases ha : c a = none
      · exact ⟨a, [], ids, rfl, ha, by simp⟩
      · obtain ⟨i, hi, hn⟩ := h
        have hi : i ∈ ids := by
          rcases List.mem_cons.1 hi with rfl | hi
          · exact absurd hn ha
          · exact hi
        obtain ⟨j, u, w, rfl, hj, hu⟩ := ih ⟨i, hi, hn⟩
        refine ⟨j, a :: u, w, rfl, hj, fun k hk => ?_⟩
        rcases List.mem_cons.1 hk with rfl | hk
        · exact ha
        · exact hu k hk
  obtain ⟨i, hi⟩ := ex
  exact ⟨i, hi, fun j hj => hj.unique hi⟩

/-- What is looked at is needed, in the sense of C21. -/
theorem C59_reads_needed (b : Bool) (e : Node F) (i : Id) (h : i ∈ reads b e) : NeedsId e i :=
  reads_needs b e i h

/-- `(x2 · x0) + x1` looks at `x2`, `x0`, `x1` in this order; with `x0` and `x1` missing the message
is about `x0`. -/
example : reads true (.add (.mul (.var 2) (.var 0)) (.var 1) : Node ℤ) = [2, 0, 1] ∧
    FirstMissing (F := ℤ) (Γ := fun _ => .scalar) (fun i => if i = 2 then some (5 : ℤ) else none)
      [2, 0, 1] 0 :=
  ⟨rfl, [2], [1], rfl, rfl, by simp⟩

example : (FnImpl.add (F := ℤ) (Γ := fun _ => .scalar) (.mul (.var 2) (.var 0) .ss) (.var 1)
    .ss).evaluate (fun i => if i = 2 then some (5 : ℤ) else none) =
      (.err (.left (.right (.undefined 0))), fun i => if i = 2 then some (5 : ℤ) else none) := rfl

example : (EvalErr.left (.right (.undefined 0))).display toString =
    "No variable found with identifier 0." := by decide

/-- The shape of a sum does not look at the summands, its value does. -/
example : reads false (.sum (.var 3) : Node ℤ) = [] ∧ reads true (.sum (.var 3) : Node ℤ) = [3] :=
  ⟨rfl, rfl⟩

/-- The hypotheses of `C59_first` hold for that expression. -/
example : CacheFree (.add (.mul (.var 2) (.var 0)) (.var 1) : Node ℤ) ∧
    FixedSize (fun _ => .scalar) (.add (.mul (.var 2) (.var 0)) (.var 1) : Node ℤ) ∧
    FnImpl.ProductsInRange (FnImpl.add (F := ℤ) (Γ := fun _ => .scalar)
      (.mul (.var 2) (.var 0) .ss) (.var 1) .ss) ∧
    ∀ n, (ScalarFns.fromUsize n : Option ℤ) ≠ none := by
  refine ⟨?_, ⟨fun _ _ => by simp, ?_, ?_⟩, ⟨⟨trivial, trivial⟩, trivial⟩, fun n => by simp [ScalarFns.fromUsize]⟩
  · intro n i h
    simp at h
  · intro τ b h
    simp at h
  · intro τ s h
    simp at h

/-- Two vectors of different lengths: the division reports both lengths. -/
example : ((FnImpl.div (F := ℤ) (Γ := fun _ => .vec) (.var 0) (.var 1) .vv).evaluate
    (fun i => if i = 0 then some ([1, 2, 3] : List ℤ) else some ([1, 2] : List ℤ))).1 =
      .err (.output ⟨[3], [2]⟩) := rfl

example : (EvalErr.output ⟨[3], [2]⟩).display toString =
    "Buffer shapes are incompatible: SDynamic([3]) vs SDynamic([2])." := by decide

/-- The message does not say where in the expression the error arose: `x0 / x1` and `x1 / x0`
without a value for `x0` fail at different operands with the same text. -/
theorem C59_position_caveat : ∃ g g' : EvalErr, ∃ c : Ctx ℤ (fun _ => .scalar),
    ((FnImpl.div (.var 0) (.var 1) .ss : FnImpl (fun _ => .scalar)
      (.div (.var 0) (.var 1) : Node ℤ) _).evaluate c).1 = .err g ∧
    ((FnImpl.div (.var 1) (.var 0) .ss : FnImpl (fun _ => .scalar)
      (.div (.var 1) (.var 0) : Node ℤ) _).evaluate c).1 = .err g' ∧
    g ≠ g' ∧ ∀ dbg, g.display dbg = g'.display dbg :=
  ⟨.left (.undefined 0), .right (.undefined 0), fun i => if i = 0 then none else some (1 : ℤ),
    rfl, rfl, by decide, fun _ => rfl⟩

end Aegir
