import Verif.Props.C01_C06_Shapes
import Verif.Props.C07_C10_Buffers
import Verif.Props.C13_C16_SpecContract
import Verif.Props.C17_C18_Agreement
import Verif.Props.C20_C22_Errors
import Verif.Props.C23_C27_Contexts
import Verif.Props.C34_C35_Adjoints
import Verif.Props.C39_C40_Dual
import Verif.Props.C42_Store
import Verif.Props.C45_Special
import Verif.Props.C48_Typing
import Verif.Props.C59_Messages
import Verif.Props.C65_Cost
import Verif.Props.C94_Changes
/-!
# Further concrete cases

Applications of theorems whose hypotheses are not met by a theorem-by-theorem example next to them. These show
that the hypotheses can be met together by something that is not trivial; they prove no property by themselves.
-/

namespace Aegir.Tests

open Aegir Aegir.Spec Aegir.Props

/-! ## Shapes and buffers -/

/-- C05: the index `[1, 0, 2]` of the shape `2 × (1 × 3)`. -/
example : Shape.contains (Shape.concat [2] [1, 3]) (Shape.concatIndices [1] [0, 2]) = true :=
  (C05_contains_concat [2] [1, 3] [1] [0, 2] rfl).2
    ⟨.cons (by decide) .nil, .cons (by decide) (.cons (by decide) .nil)⟩

/-- C05: `[1, 3, 0]` is outside. -/
example : ¬ Shape.contains (Shape.concat [2] [1, 3]) (Shape.concatIndices [1] [3, 0]) = true := fun h => by
  have := ((C05_contains_concat [2] [1, 3] [1] [3, 0] rfl).1 h).2
  cases this with
  | cons h _ => exact absurd h (by decide)

/-- C06: a scalar and a vector. -/
example (n : Nat) : BCast [] [n] [n] := C06_broadcast_sound (.fixed []) (.dyn [n]) (.dyn [n]) rfl

/-- C08: two of the entries of a `2 × 2` array, one of them named twice. -/
example : ∃ b, Buf.buildSubset (.array [2, 2]) () (7 : ℤ) [[0, 1], [1, 0], [0, 1]] (fun ix => ix.sum) = some b ∧
    Buf.getU (.array [2, 2]) b [0, 1] = some 1 ∧ Buf.getU (.array [2, 2]) b [1, 1] = some 7 := by
  have hin : ∀ i j, i < 2 → j < 2 → InBounds (Shp.dims (.array [2, 2]) ()) [i, j] := fun i j hi hj =>
    .cons hi (.cons hj .nil)
  obtain ⟨b, hb, -, h⟩ := C08_build_subset (.array [2, 2]) () (7 : ℤ) [[0, 1], [1, 0], [0, 1]] (fun ix => ix.sum)
    (fun ix h => by
      simp only [List.mem_cons, List.not_mem_nil, or_false] at h
      rcases h with rfl | rfl | rfl <;> exact hin _ _ (by decide) (by decide))
  refine ⟨b, hb, ?_, ?_⟩
  · rw [h _ (hin _ _ (by decide) (by decide))]
    rfl
  · rw [h _ (hin _ _ (by decide) (by decide))]
    rfl

/-- C14: the outer product of a constant and a diagonal array. -/
example (v w : ℤ) : ∃ s, BSpec.contract (.mm 2 2 2) (.full () v) (.diagonal () w) = .ok s ∧
    Buf.contract (.mm 2 2 2) (BSpec.full () v : BSpec ℤ (.array [2, 2])).unwrap
      (BSpec.diagonal () w : BSpec ℤ (.array [2, 2])).unwrap = .ok s.unwrap := by
  have h := contract_eq (.mm 2 2 2) (BSpec.full () v : BSpec ℤ (.array [2, 2])).unwrap
    (BSpec.diagonal () w : BSpec ℤ (.array [2, 2])).unwrap trivial
  obtain ⟨s, h1, h2⟩ := C14_contract_spec (.mm 2 2 2) _ _ _ h
  exact ⟨s, h1, h2 ▸ h⟩

/-! ## Errors -/

/-- C20: the product on the left fails. -/
example (c : Ctx ℤ exErrTy) (h0 : c 0 = none) : exErr.evaluate c = (.err (.left (.left (.undefined 0))), c) :=
  (C20_left (d := exErr) (.add _ _ _) c c _
    (C20_left (.mul _ _ _) c c _ (C20_undefined 0 c h0).1).1).1

/-- C20: the same of the shape. -/
example (c : Ctx ℤ exErrTy) (h0 : c 0 = none) : exErr.evaluateShape c = (.err (.left (.left (.undefined 0))), c) :=
  C20_left_shape (d := exErr) (.add _ _ _) (by simp) c c _
    (C20_left_shape (.mul _ _ _) (by simp) c c _ (C20_undefined 0 c h0).2.2)

/-- C20: the absolute value on the right fails. -/
example (c : Ctx ℤ exErrTy) (y : List ℤ) (h1 : c 1 = some y) (h2 : c 2 = none) :
    (FnImpl.add (.var 1) (.un .abs (.var 2)) .vv :
      FnImpl exErrTy (.add (.var 1) (.un .abs (.var 2)) : Node ℤ) .vec).evaluate c = (.err (.right (.undefined 2)), c) :=
  (C20_right (by simp [LawfulScalar.fromUsize_eq]) (.add _ _ _) c c c y _ (C20_defined 1 c _ h1).1
    ((C20_unary .abs _ c c _).1.2 (C20_undefined 2 c h2).1)).1

/-- C20: the same of the shape. -/
example (c : Ctx ℤ exErrTy) (y : List ℤ) (h1 : c 1 = some y) (h2 : c 2 = none) :
    (FnImpl.add (.var 1) (.un .abs (.var 2)) .vv :
      FnImpl exErrTy (.add (.var 1) (.un .abs (.var 2)) : Node ℤ) .vec).evaluateShape c =
        (.err (.right (.undefined 2)), c) :=
  C20_right_shape (.add _ _ _) (by simp) c c c (y.length : Nat) _ (C20_defined 1 c _ h1).2.2
    ((C20_unary .abs _ c c _).2.2.2 (C20_undefined 2 c h2).2.2)

/-- C22: quotients of lists of different lengths. -/
example (c : Ctx ℤ exErrTy) (h1 : c 1 = some [1, 2, 3]) (h2 : c 2 = some [4]) :
    (FnImpl.div (.var 1) (.var 2) .vv : FnImpl exErrTy (.div (.var 1) (.var 2) : Node ℤ) .vec).evaluate c =
      (.err (.output ⟨[3], [1]⟩), c) :=
  (C22_div (Γ := exErrTy) (.var 1) (.var 2) c c c [1, 2, 3] [4] (by decide) (C20_defined 1 c _ h1).1
    (C20_defined 2 c _ h2).1).1

/-- C22: shapes of sums of lists of different lengths. -/
example (c : Ctx ℤ exErrTy) (h1 : c 1 = some [1, 2, 3]) (h2 : c 2 = some [4]) :
    (FnImpl.add (.var 1) (.var 2) .vv : FnImpl exErrTy (.add (.var 1) (.var 2) : Node ℤ) .vec).evaluateShape c =
      (.err (.output ⟨[3], [1]⟩), c) :=
  C22_shape (.add _ _ _) c c c 3 1 (by decide) (C20_defined 1 c _ h1).2.2 (C20_defined 2 c _ h2).2.2

/-- C20: the only error of a quotient whose operands evaluate. -/
example (c c' : Ctx ℤ exErrTy) (x y : List ℤ) (h1 : c 1 = some x) (h2 : c 2 = some y) (g : EvalErr)
    (h : (FnImpl.div (.var 1) (.var 2) .vv : FnImpl exErrTy (.div (.var 1) (.var 2) : Node ℤ) .vec).evaluate c =
      (.err g, c')) : g = .output ⟨[x.length], [y.length]⟩ ∧ c' = c :=
  have := C20_output (by simp [LawfulScalar.fromUsize_eq]) (dl := .var 1) (dr := .var 2) (.div _ _ _) c c c c' x y g
    (C20_defined 1 c _ h1).1 (C20_defined 2 c _ h2).1 h
  ⟨this.1, this.2.1⟩

/-! ## Caches -/

section

/-- All scalars. -/
abbrev S : Id → BTy := fun _ => .scalar

/-- C27: a filled cache; its inner node is not even defined. -/
example (c : Ctx ℤ S) (v : ℤ) (h0 : c 0 = none) (h : c 5 = some v) :
    (FnImpl.cached 5 (.var 0) : FnImpl S (.cached (.var 0) 5 : Node ℤ) .scalar).evaluate c = (.ok v, c) ∧
      (FnImpl.var 0 : FnImpl S (.var 0 : Node ℤ) .scalar).evaluate c = (.err (.undefined 0), c) :=
  ⟨(C27_hit (Γ := S) 5 (.var 0) c v h).1, (C20_undefined 0 c h0).1⟩

/-- C27: an empty cache is filled. -/
example (c : Ctx ℤ S) (v : ℤ) (h0 : c 0 = some v) (h : c 5 = none) :
    ∃ c', (FnImpl.cached 5 (.var 0) : FnImpl S (.cached (.var 0) 5 : Node ℤ) .scalar).evaluate c = (.ok v, c') ∧
      c' 5 = some v ∧ c' 0 = some v := by
  obtain ⟨c', h1, h2, h3⟩ := C27_miss (Γ := S) 5 (.var 0) c c v h (C20_defined 0 c v h0).1
  exact ⟨c', h1, h2, (h3 0 (by decide)).trans h0⟩

/-- C27: a failure leaves the cache empty. -/
example (c : Ctx ℤ S) (h0 : c 0 = none) (h : c 5 = none) :
    (FnImpl.cached 5 (.var 0) : FnImpl S (.cached (.var 0) 5 : Node ℤ) .scalar).evaluate c = (.err (.undefined 0), c) ∧
      ((FnImpl.cached 5 (.var 0) : FnImpl S (.cached (.var 0) 5 : Node ℤ) .scalar).evaluate c).2 5 = none := by
  have h1 := (C27_failure (Γ := S) 5 (.var 0) c c h).1 _ (C20_undefined 0 c h0).1
  refine ⟨h1, C27_failure_entry (Γ := S) 5 (.var 0) c h (fun ⟨m, hm⟩ => by simp at hm) fun v c' h2 => ?_⟩
  rw [h1] at h2
  cases h2

end

/-! ## Adjoints and dual numbers -/

/-- C34: the adjoint of a vector of two in a matrix variable has three axes. -/
example (c : Ctx ℤ fun i => if i = 0 then .array [2] else .array [3, 4]) (x : NArr ℤ [2]) (t : NArr ℤ [3, 4])
    (hx : c 0 = some x) (ht : c 1 = some t) {τ : BTy}
    (d : FnImpl (fun i => if i = 0 then .array [2] else .array [3, 4]) (.varAdj 0 1 : Node ℤ) τ) :
    ∃ s, d.evaluateShape c = (.ok s, c) ∧ Shp.dims τ s = [2, 3, 4] :=
  C34_shape rfl d c x t hx ht

/-- C34: the adjoint of a constant. -/
example (c : Ctx ℤ S) (h : c 0 = none) {τ : BTy} (d : FnImpl S (.constAdj (.const .tuple (3, 4)) 0 : Node ℤ) τ) :
    d.evaluate c = (.err (.right (.undefined 0)), c) := (C34_constant rfl d c).2 h

/-- C40: owned and borrowed operands. -/
example : (⟨3, 4⟩ : Dual ℤ ℤ).mulRef ⟨5, 6⟩ = ⟨15, 38⟩ := (C40_refs ⟨3, 4⟩ ⟨5, 6⟩ 0).1.2.2.trans rfl

/-- C40: products with constants other than one of anything but constants are wrong. -/
example (x : ℤ) : (⟨x, 2⟩ : Dual ℤ ℤ).mulV 3 ≠ (⟨x, 2⟩ : Dual ℤ ℤ).mul (Dual.constant .scalar 3) :=
  fun h => by simpa using (C40_mul_only _ _).1 h

/-! ## Special functions, typing, cost -/

/-- C45: the logistic function of a logistic function lies between zero and one. -/
example (c : Ctx ℝ S) (b : ℝ)
    (hb : ((FnImpl.un .sigmoid (.un .sigmoid (.var 0)) : FnImpl S (.un .sigmoid (.un .sigmoid (.var 0)) : Node ℝ) .scalar).evaluate
      c).1 = .ok b) : 0 < b ∧ b < 1 :=
  C45_sigmoid_range (τ := .scalar) _ c b hb [] b rfl

/-- C45: maps compose. -/
example : Maps ((fun x : ℝ => x * x) ∘ fun x => x + x) (.var 0) (.un .square (.un .double (.var 0))) :=
  C45_compose (C45_double _) (C45_square _)

/-- C65: the adjoint of `x² y` is not much larger. -/
example : ∃ e', (Node.mul (.un .square (.var 0)) (.var 1) : Node ℤ).adjoint 0 = some e' ∧
    size e' ≤ 3 * 4 * height (.mul (.un .square (.var 0)) (.var 1) : Node ℤ) :=
  ⟨_, rfl, (C65_adjoint_size (e := .mul (.un .square (.var 0)) (.var 1)) (t := 0) rfl).1⟩

/-! ## Stores -/

/-- A vector and a scalar cache. -/
abbrev fields : Store.Struct := [⟨some 7, false, .vec⟩, ⟨some 3, true, .scalar⟩]

theorem fields_coherent : Store.Coherent fields := by
  intro j k i hj hk
  match j, k with
  | 0, 0 | 1, 1 => rfl
  | 0, 1 => cases hj; cases hk
  | 1, 0 => cases hj; cases hk

/-- C42: what is written is read, the other field stays as it is. -/
example (s : Store.State ℤ fields) (v : List ℤ) :
    (s.write 7 v).read 7 = some v ∧ (s.write 7 v) 1 = s 1 ∧ (s.write 7 v).read 3 = s.read 3 :=
  ⟨(C42_read_write s 7 0 rfl fields_coherent v).1, C42_frame s 7 v 1 (fun h => by cases h), (C42_independent s 7 3 (by decide) v).1⟩

/-! ## Messages -/

/-- C59: the first identifier that is missing in `(x₂ x₀) + x₁`. -/
example (c : Ctx ℤ S) (v : ℤ) (h2 : c 2 = some v) (h0 : c 0 = none) : ∃ g,
    (FnImpl.add (.mul (.var 2) (.var 0) .ss) (.var 1) .ss :
      FnImpl S (.add (.mul (.var 2) (.var 0)) (.var 1) : Node ℤ) .scalar).evaluate c = (.err g, c) ∧
    g.display toString = "No variable found with identifier " ++ toString 0 ++ "." :=
  (C59_first toString (by simp [LawfulScalar.fromUsize_eq]) _ (by simp [CacheFree])
    ⟨by simp, fun τ b h => by simp at h, fun τ b h => by simp at h⟩ (by simp [FnImpl.ProductsInRange]) c).2 0
    ⟨[2], [1], rfl, h0, by simp [h2]⟩

/-! ## Mean values -/

/-- C94: between any two numbers there is one at which the double is the slope of the square. -/
example (x y : ℝ) : ∃ θ : ℝ, 0 < θ ∧ θ < 1 ∧ y ^ 2 - x ^ 2 = 2 * (x + θ * (y - x)) * (y - x) := by
  let T : Finset (Id × Idx) := {(0, [])}
  let p₀ : T := ⟨(0, []), by simp [T]⟩
  have hT : ∀ p ∈ T, p = (0, []) := fun p hp => by simpa [T] using hp
  obtain ⟨q, r, θ, g, hq, hr, h0, h1, -, hg, h⟩ := C94_mean (Γ := S) (S := T) (e := .un .square (.var 0))
    (adj := fun _ => .mul (.un .double (.var 0)) (.varAdj 0 0)) (σ := fun _ => .scalar) (A := Set.univ)
    (by simp [CacheFree]) (.un .square (.var 0)) (by simp [FnImpl.Regular]) ⟨(0, []), by simp [T]⟩
    (fun p hp => by rw [hT p hp]; rfl) (fun _ => .mul (.un .double (.var 0)) (.varAdj 0 0 .ss (by simp [BTy.rank])) .ss)
    (fun _ => by simp [FnImpl.Regular]) (fun _ => some (0 : ℝ)) (by simp)
    (fun p hp => ⟨(0 : ℝ), rfl, by rw [hT p hp]; exact .nil⟩) (ix := []) (fun _ _ => .nil)
    (by simp [Smooth, UnOp.SmoothAt]) convex_univ (x := fun _ => x) (y := fun _ => y) (Set.mem_univ _) (Set.mem_univ _)
    rfl rfl
  refine ⟨θ, h0, h1, ?_⟩
  have hp : ∀ z : ℝ, ScalarFns.pow z (1 + 1) = z ^ 2 := fun z => by
    rw [one_add_one_eq_two]
    exact Real.rpow_two z
  have hq' : some (ScalarFns.pow x (1 + 1)) = some q := hq
  have hr' : some (ScalarFns.pow y (1 + 1)) = some r := hr
  obtain ⟨a, ha, hga⟩ := hg p₀
  have ha' : (Res.ok ((1 + 1) * (x + θ * (y - x)) * 1) : Res EvalErr ℝ) = .ok a := ha
  cases ha'
  have hga' : some ((1 + 1) * (x + θ * (y - x)) * 1) = some (g p₀) := hga
  rw [Fintype.sum_eq_single p₀ fun p hp => absurd (Subtype.ext (hT p.1 p.2)) hp] at h
  rw [← Option.some.inj hq', ← Option.some.inj hr', ← Option.some.inj hga', hp, hp] at h
  rw [h]
  ring

end Aegir.Tests
