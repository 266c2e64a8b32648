import Verif.Spec.Special
import Verif.Spec.Real
import Verif.Props.C19_Tensor
import Mathlib.Analysis.SpecialFunctions.Sigmoid
/-!
# C45: special functions
-/

namespace Aegir

open Spec

section
variable {F : Type} [Zero F] [One F] [Add F] [Sub F] [Mul F] [Div F] [Neg F] [ScalarFns F]

omit [Zero F] [One F] [Add F] [Sub F] [Mul F] [Div F] [Neg F] [ScalarFns F] in
private theorem image_mutate {τ : BTy} (f : F → F) (b : Buf F τ) : Image f b (Buf.mutate τ b f) := by
  rw [Buf.mutate_eq_map]
  exact ⟨Buf.shape_map _ _ _, fun ix => Buf.getU_map _ _ _ _⟩

/-- Every unary operator applies its scalar function to every entry. No arithmetic laws. -/
theorem C45_entrywise (op : UnOp) (n : Node F) : Maps op.apply n (.un op n) := by
  intro Γ τ
  refine ⟨⟨fun ⟨d⟩ => ?_, fun ⟨d⟩ => ⟨.un op d⟩⟩, fun d => ?_⟩
  · cases d with
    | un op d => exact ⟨d⟩
  · cases d with
    | un op d =>
      refine ⟨d, fun c => ⟨⟨?_, rfl⟩, ⟨?_, rfl⟩, rfl⟩⟩
      · show ImageRes _ _ ((d.evaluate c).1.map _)
        cases (d.evaluate c).1 with
        | ok b => exact image_mutate _ b
        | err e => rfl
        | panic => trivial
      · show ImageRes _ _ (((d.evaluateSpec c).1.map (unSpec op.apply)).map BSpec.unwrap)
        cases (d.evaluateSpec c).1 with
        | ok b =>
          show Image _ _ (unSpec op.apply b).unwrap
          rw [unSpec_unwrap]
          exact image_mutate _ _
        | err e => rfl
        | panic => trivial

/-- Entrywise operators compose. -/
theorem C45_compose {f g : F → F} {n e e' : Node F} (h : Maps f n e) (h' : Maps g e e') :
    Maps (g ∘ f) n e' := by
  intro Γ τ
  refine ⟨(h' Γ τ).1.trans (h Γ τ).1, fun d => ?_⟩
  obtain ⟨d1, h1⟩ := (h' Γ τ).2 d
  obtain ⟨d2, h2⟩ := (h Γ τ).2 d1
  have key : ∀ {a b c : Res EvalErr (Buf F τ)}, ImageRes f a b → ImageRes g b c →
      ImageRes (g ∘ f) a c := by
    intro a b c hab hbc
    cases a <;> cases b <;> cases c <;> simp only [ImageRes] at hab hbc ⊢
    · exact ⟨hbc.1.trans hab.1, fun ix => by rw [hbc.2, hab.2, Option.map_map]⟩
    · exact hab.trans hbc
  exact ⟨d2, fun c => ⟨⟨key (h2 c).1.1 (h1 c).1.1, (h1 c).1.2.trans (h2 c).1.2⟩,
    ⟨key (h2 c).2.1.1 (h1 c).2.1.1, (h1 c).2.1.2.trans (h2 c).2.1.2⟩,
    (h1 c).2.2.trans (h2 c).2.2⟩⟩

end

/-- What `Maps` says for a successful evaluation, in terms of entries. -/
theorem C45_entry {f : ℝ → ℝ} {n e : Node ℝ} (h : Maps f n e) {Γ : Id → BTy} {τ : BTy}
    (d : FnImpl Γ e τ) (c : Ctx ℝ Γ) (b : Buf ℝ τ) (hb : (d.evaluate c).1 = .ok b) :
    ∃ (dn : FnImpl Γ n τ) (bn : Buf ℝ τ), (dn.evaluate c).1 = .ok bn ∧ Image f bn b := by
  obtain ⟨dn, hd⟩ := (h Γ τ).2 d
  have := (hd c).1.1
  rw [hb] at this
  cases hn : (dn.evaluate c).1 <;> rw [hn] at this <;> simp only [ImageRes] at this
  exact ⟨dn, _, hn, this⟩

/-! ### The functions, over the reals -/

/-- `sigmoid` is `1 / (1 + e^-x)` on both of its branches ... -/
theorem C45_sigmoid (n : Node ℝ) :
    Maps (fun x => 1 / (1 + Real.exp (-x))) n (.un .sigmoid n) := by
  convert C45_entrywise .sigmoid n using 1
  funext x
  simp only [UnOp.apply, sigmoid, ScalarFns.leb, ScalarFns.exp]
  split_ifs with h
  · rfl
  · have := Real.exp_pos x
    rw [Real.exp_neg]
    field_simp
    ring

/-- ... and lies strictly between 0 and 1. -/
theorem C45_sigmoid_range {n : Node ℝ} {Γ : Id → BTy} {τ : BTy} (d : FnImpl Γ (.un .sigmoid n) τ)
    (c : Ctx ℝ Γ) (b : Buf ℝ τ) (hb : (d.evaluate c).1 = .ok b) (ix : Idx) (y : ℝ)
    (hy : Buf.getU τ b ix = some y) : 0 < y ∧ y < 1 := by
  obtain ⟨_, bn, _, _, h⟩ := C45_entry (C45_sigmoid n) d c b hb
  rw [h, Option.map_eq_some_iff] at hy
  obtain ⟨x, _, rfl⟩ := hy
  have := Real.exp_pos (-x)
  refine ⟨by positivity, ?_⟩
  rw [div_lt_one (by positivity)]
  linarith

/-- `Square` is `x * x`. -/
theorem C45_square (n : Node ℝ) : Maps (fun x => x * x) n (.un .square n) := by
  convert C45_entrywise .square n using 1
  funext x
  simp only [UnOp.apply, ScalarFns.pow]
  rw [one_add_one_eq_two, Real.rpow_two, sq]

/-- `Double` is `x + x`. -/
theorem C45_double (n : Node ℝ) : Maps (fun x => x + x) n (.un .double n) := by
  convert C45_entrywise .double n using 1
  funext x
  simp only [UnOp.apply]
  ring

/-- `XLnX` is `x ln x` for positive `x` and 0 otherwise. -/
theorem C45_xlnx (n : Node ℝ) : Maps (fun x => if 0 < x then x * Real.log x else 0) n (.un .xlnx n) := by
  convert C45_entrywise .xlnx n using 1
  funext x
  by_cases h : 0 < x
  · simp [UnOp.apply, ScalarFns.leb, ScalarFns.ln, h]
  · simp [UnOp.apply, ScalarFns.leb, h, not_lt.1 h]

/-- `OneSub`, `AddOne`, `SubOne`, `Rabbit`, `Negate`. -/
theorem C45_arithmetic (n : Node ℝ) :
    Maps (fun x => 1 - x) n (.un .oneSub n) ∧ Maps (fun x => x + 1) n (.un .addOne n) ∧
    Maps (fun x => x - 1) n (.un .subOne n) ∧ Maps (fun x => x * (1 - x)) n (.un .rabbit n) ∧
    Maps (fun x => -x) n (.un .negate n) :=
  ⟨C45_entrywise .oneSub n, C45_entrywise .addOne n, C45_entrywise .subOne n,
    C45_entrywise .rabbit n, C45_entrywise .negate n⟩

/-- `Factorial` (`ops/special.rs` L110-115: `Gamma(AddOne(n))`) is the factorial on naturals. -/
theorem C45_factorial (n : Node ℝ) : ∃ f : ℝ → ℝ, (∀ k : ℕ, f k = k.factorial) ∧
    Maps f n (.un .gamma (.un .addOne n)) :=
  ⟨_, fun k => Real.Gamma_nat_eq_factorial k,
    C45_compose (C45_entrywise .addOne n) (C45_entrywise .gamma _)⟩

/-- `Erfc` and `Erf::complement` (`ops/special.rs` L163-172: `OneSub(Erf(n))`) is one minus the error
function. -/
theorem C45_erfc (n : Node ℝ) :
    Maps (fun x => 1 - 2 / Real.sqrt Real.pi * ∫ t in (0 : ℝ)..x, Real.exp (-t ^ 2)) n
      (.un .oneSub (.un .erf n)) :=
  C45_compose (C45_entrywise .erf n) (C45_entrywise .oneSub _)

/-- `Abs` and `Sign`; the sign of zero is zero. -/
theorem C45_abs_sign (n : Node ℝ) : Maps (fun x => |x|) n (.un .abs n) ∧
    Maps (fun x => (SignType.sign x : ℝ)) n (.un .sign n) := by
  refine ⟨C45_entrywise .abs n, ?_⟩
  convert C45_entrywise .sign n using 1
  funext x
  by_cases h : x = 0
  · simp [UnOp.apply, ScalarFns.isZero, h]
  · simp [UnOp.apply, ScalarFns.isZero, signum_of_ne h, h]

/-- A concrete case: `sigmoid`, `XLnX` and the factorial of `x` for the vector `x = (2, 0, -1)`. -/
example (op : UnOp) : ∃ (d : FnImpl (fun _ => .vec) (.un op (.var 0)) .vec) (b : List ℝ),
    (d.evaluate (fun _ => some ([2, 0, -1] : List ℝ))).1 = .ok b ∧
    Buf.getU .vec b [0] = some (op.apply 2) :=
  ⟨.un op (.var (Γ := fun _ => .vec) 0), _, rfl, by
    show Buf.getU .vec (Buf.mutate .vec ([2, 0, -1] : List ℝ) op.apply) [0] = _
    rw [Buf.mutate_eq_map, Buf.getU_map]; rfl⟩

/-! ### The same by arithmetic nodes -/

private theorem isTensor_inj {τ : BTy} {a b : Buf ℝ τ} {T : Tensor ℝ} (ha : IsTensor a T)
    (hb : IsTensor b T) : a = b := by
  have hd : Buf.dims τ a = Buf.dims τ b := ha.1.trans hb.1.symm
  refine Buf.ext τ a b ?_ fun ix hix => ?_
  · cases τ with
    | vec => simpa [Buf.dims, Shp.dims] using hd
    | _ => rfl
  · rw [ha.2 ix (ha.1 ▸ hix), hb.2 ix (ha.1 ▸ hix)]

/-- Expressions by arithmetic nodes that stand for a unary operator applied to `n`. -/
inductive Spelled (n : Node ℝ) : UnOp → Node ℝ → Prop
  | square : Spelled n .square (.mul n n)
  | squarePower : Spelled n .square (.power n (.const .scalar (2 : ℝ)))
  | double : Spelled n .double (.add n n)
  | doubleMul : Spelled n .double (.mul (.const .scalar (2 : ℝ)) n)
  | addOne : Spelled n .addOne (.add n (.const .scalar (1 : ℝ)))
  | subOne : Spelled n .subOne (.sub n (.const .scalar (1 : ℝ)))
  | oneSub : Spelled n .oneSub (.sub (.const .scalar (1 : ℝ)) n)
  | rabbit : Spelled n .rabbit (.mul n (.un .oneSub n))
  | negate : Spelled n .negate (.mul n (.const .scalar (-1 : ℝ)))
  | sigmoid : Spelled n .sigmoid (.div (.const .scalar (1 : ℝ))
      (.un .addOne (.un .exp (.un .negate n))))
  | tan : Spelled n .tan (.div (.un .sin n) (.un .cos n))
  | tanh : Spelled n .tanh (.div (.un .sinh n) (.un .cosh n))
  | logGamma : Spelled n .logGamma (.un .ln (.un .gamma n))
  | abs : Spelled n .abs (.mul n (.un .sign n))

/-- The operators evaluate to the same buffer as the arithmetic expressions they abbreviate, for all
cache-free operands, types and contexts in which both evaluate (outside the irregular forms of C19,
for which the arithmetic expression itself is evaluated wrongly). -/
theorem C45_spelled {n e : Node ℝ} {op : UnOp} (hs : Spelled n op e) {Γ : Id → BTy} {τ : BTy}
    (d : FnImpl Γ (.un op n) τ) (d' : FnImpl Γ e τ) (hf : CacheFree n) (c : Ctx ℝ Γ)
    (hp : PowSafe (envOf c) n) (hr : FnImpl.Regular d) (hr' : FnImpl.Regular d') (b b' : Buf ℝ τ)
    (hb : (d.evaluate c).1 = .ok b) (hb' : (d'.evaluate c).1 = .ok b') : b = b' := by
  have hf1 : CacheFree (.un op n) := by
    intro m i h
    simp at h
    exact hf m i h
  have hp1 : PowSafe (envOf c) (.un op n) := by
    intro l r h
    simp at h
    exact hp l r h
  have hfe : CacheFree e := by
    intro m i h
    cases hs <;> simp at h <;> exact hf m i h
  have hpe : PowSafe (envOf c) e := by
    intro l r h
    cases hs with
    | squarePower =>
      simp at h
      rcases h with ⟨rfl, rfl⟩ | h
      · right
        intro _
        show (0 : ℝ) ^ (2 : ℝ) = 0
        norm_num
      · exact hp l r h
    | _ => simp at h; exact hp l r h
  have h1 := Props.C19_value_cache_free_partial d hf1 c hp1 hr b hb
  have h2 := Props.C19_value_cache_free_partial d' hfe c hpe hr' b' hb'
  have key : (den (envOf c) (.un op n)).Same (den (envOf c) e) := by
    have hb1 : ∀ ix, InBounds (den (envOf c) n).dims ix → bIdx (den (envOf c) n).dims ix = ix :=
      fun ix hix => bIdx_inBounds hix
    have hc1 : ∀ (x : ℝ) ix, (Tensor.ofBuf (τ := .scalar) x).val (bIdx [] ix) = x := fun _ _ => rfl
    have hc2 : ∀ (x : ℝ), (Tensor.ofBuf (τ := .scalar) x).dims = [] := fun _ => rfl
    have hi1 : ∀ ds : Dims, (if ds = [] then [] else ds) = ds := by
      intro ds; split_ifs with h <;> simp [h]
    have hsq : ∀ x : ℝ, ScalarFns.pow x ((1 : ℝ) + 1) = x * x := fun x => by
      simp only [ScalarFns.pow]
      rw [one_add_one_eq_two, Real.rpow_two, sq]
    have habs : ∀ x : ℝ, ScalarFns.abs x =
        x * (if ScalarFns.isZero x = true then x else ScalarFns.signum x) := fun x => by
      by_cases h : x = 0
      · simp [ScalarFns.abs, ScalarFns.isZero, h]
      · simp [ScalarFns.abs, ScalarFns.isZero, signum_of_ne h, h]
    cases hs with
    | squarePower =>
      have hd : (den (envOf c) n).dims = [] := by
        cases d'
        exact h1.1.symm
      refine ⟨hd, fun ix hix => ?_⟩
      have hix : InBounds [] ix := hix
      obtain rfl : ix = [] := by simpa [InBounds] using hix
      simp only [den, Tensor.map, UnOp.apply]
      rw [one_add_one_eq_two]
      rfl
    | sigmoid =>
      refine ⟨by simp [den, Tensor.zip, Tensor.map, hc2], fun ix hix => ?_⟩
      have hix' : InBounds (den (envOf c) n).dims ix := by
        simpa [den, Tensor.zip, Tensor.map, hc2] using hix
      simp only [den, Tensor.zip, Tensor.map, UnOp.apply, hb1 ix hix', hc2, hc1, sigmoid,
        ScalarFns.leb, ScalarFns.exp]
      split_ifs with h
      · rw [add_comm]
      · have := Real.exp_pos ((den (envOf c) n).val ix)
        rw [Real.exp_neg]
        field_simp
    | _ =>
      refine ⟨by by_cases h : (den (envOf c) n).dims = [] <;>
        simp [den, Tensor.zip, Tensor.map, hc2, h], fun ix hix => ?_⟩
      have hix' : InBounds (den (envOf c) n).dims ix := by
        by_cases h : (den (envOf c) n).dims = [] <;>
          simpa [den, Tensor.zip, Tensor.map, hc2, h] using hix
      simp only [den, Tensor.zip, Tensor.map, UnOp.apply, hb1 ix hix', hc2, hc1, hsq]
      all_goals first
        | rfl
        | exact Real.tan_eq_sin_div_cos _
        | exact Real.tanh_eq_sinh_div_cosh _
        | exact habs _
        | ring
  exact isTensor_inj h1 (h2.same key.symm)

example : ∃ (d : FnImpl (fun _ => .array [2]) (.un .square (.var 0)) (.array [2]))
    (d' : FnImpl (fun _ => .array [2]) (.mul (.var 0) (.var 0)) (.array [2])) (b b' : _),
    Spelled (.var 0) .square (.mul (.var 0) (.var 0)) ∧ CacheFree (.var 0 : Node ℝ) ∧
    PowSafe (envOf fun _ => some (Buf.full (.array [2]) () (3 : ℝ))) (.var 0) ∧
    FnImpl.Regular d ∧ FnImpl.Regular d' ∧
    (d.evaluate fun _ => some (Buf.full (.array [2]) () (3 : ℝ))).1 = .ok b ∧
    (d'.evaluate fun _ => some (Buf.full (.array [2]) () (3 : ℝ))).1 = .ok b' :=
  ⟨.un .square (.var (Γ := fun _ => .array [2]) 0),
    .mul (.var (Γ := fun _ => .array [2]) 0) (.var (Γ := fun _ => .array [2]) 0) (.aa [2]), _, _,
    .square, by simp [CacheFree], by simp [PowSafe], trivial, ⟨trivial, trivial⟩, rfl, rfl⟩

end Aegir
