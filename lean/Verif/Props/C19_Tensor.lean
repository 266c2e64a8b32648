import Verif.Lemmas.Tensor
import Verif.Lemmas.Node
import Verif.Spec.Instances
/-!
# C19: `evaluate` computes the mathematical tensor value

`den ρ e` (Spec/Tensor) is the tensor an expression denotes when variable `i` stands for the tensor
`ρ i`. Full statement: `C19_value_partial` without the hypotheses `PowSafe` and `Regular`. The code
violates it for each of the excluded forms, see the `C19_violation_*`.
-/

namespace Aegir.Props

open Aegir Aegir.Spec

section
variable {F : Type} [CommRing F] [Div F] [ScalarFns F] [LawfulScalar F] [LawfulPow F]
variable {Γ : Id → BTy}

/-- A value returned by `evaluate` holds the tensor the expression denotes; `NamesCaches` says that
a cache identifier stands for the value of its `Cached` node. Missing: `Power` with a compressed
zero base, scalar minus or divided by an array of rank two or more, non-square matrix-vector
products. -/
theorem C19_value_partial {ρ : Id → Tensor F} {e : Node F} {τ : BTy} (d : FnImpl Γ e τ)
    (hn : NamesCaches ρ e) (hp : PowSafe ρ e) (hr : FnImpl.Regular d) (c : Ctx F Γ)
    (hc : Describes ρ c) :
    Describes ρ (d.evaluate c).2 ∧
      ∀ v, (d.evaluate c).1 = .ok v → IsTensor v (den ρ e) := by
  have h := (FnImpl.den_spec d hn hp hr).1 c hc
  have he : d.evaluate = d.fn.evaluateSpec.map BSpec.unwrap := d.evaluate_eq
  rw [he]
  refine ⟨h.1, fun v hv => ?_⟩
  obtain ⟨s, hs, rfl⟩ := (Res.map_ok_iff _ _ _).1 hv
  exact h.2 s hs

/-- The same for `evaluate_spec` (the compressed value describes that tensor) and `evaluate_shape`
(its extents). -/
theorem C19_spec_shape_partial {ρ : Id → Tensor F} {e : Node F} {τ : BTy} (d : FnImpl Γ e τ)
    (hn : NamesCaches ρ e) (hp : PowSafe ρ e) (hr : FnImpl.Regular d) (c : Ctx F Γ)
    (hc : Describes ρ c) :
    (∀ s, (d.evaluateSpec c).1 = .ok s → IsTensor s.unwrap (den ρ e)) ∧
      ∀ s, (d.evaluateShape c).1 = .ok s → Shp.dims τ s = (den ρ e).dims :=
  ⟨((FnImpl.den_spec d hn hp hr).1 c hc).2, ((FnImpl.den_spec d hn hp hr).2 c hc).2⟩

/-- Without `Cached` nodes no further hypothesis on the context is needed: the value is determined
by the tensors stored in it. -/
theorem C19_value_cache_free_partial {e : Node F} {τ : BTy} (d : FnImpl Γ e τ) (hf : CacheFree e)
    (c : Ctx F Γ) (hp : PowSafe (envOf c) e) (hr : FnImpl.Regular d) (v : Buf F τ)
    (hv : (d.evaluate c).1 = .ok v) : IsTensor v (den (envOf c) e) :=
  (C19_value_partial d (fun n i hs => absurd hs (hf n i)) hp hr c (describes_envOf c)).2 v hv

end

/-! ### A concrete case: `A·x ∘ 2 - Σ(x)` for a 2×2 matrix `A` and a vector `x` -/

/-- `0` is a vector, `1` a matrix, the rest scalars. -/
def c19Ty : Id → BTy
  | 0 => .array [2]
  | 1 => .array [2, 2]
  | _ => .scalar

/-- `A·x ∘ 2 - Σ(x)` -/
def c19E : FnImpl (F := ℤ) c19Ty
    (.sub (.mul (.contract 1 (.var 1) (.var 0)) (.const .scalar (2 : ℤ))) (.sum (.var 0)))
    (.array [2]) :=
  .sub (.mul (.contract (.var (Γ := c19Ty) 1) (.var (Γ := c19Ty) 0) (.mv 2 2))
    (.const .scalar (2 : ℤ)) (.as [2])) (.sum (.var (Γ := c19Ty) 0)) (.as [2])

/-- `x = [3, 4]`, `A = [[1, 2], [0, 1]]`. -/
def c19Ctx : Ctx ℤ c19Ty
  | 0 => some (Buf.build (.array [2]) () fun ix => if ix = [0] then 3 else 4)
  | 1 => some (Buf.build (.array [2, 2]) () fun ix =>
      if ix = [0, 1] then 2 else if ix = [1, 0] then 0 else 1)
  | _ + 2 => none

/-- `[2·11 - 7, 2·4 - 7]` -/
example : (c19E.evaluate c19Ctx).1
    = .ok (Buf.build (.array [2]) () fun ix => if ix = [0] then (15 : ℤ) else 1) := rfl

example : IsTensor (τ := .array [2]) (Buf.build (.array [2]) () fun ix => if ix = [0] then (15 : ℤ) else 1)
    (den (envOf c19Ctx) (.sub (.mul (.contract 1 (.var 1) (.var 0)) (.const .scalar (2 : ℤ)))
      (.sum (.var 0)))) :=
  C19_value_cache_free_partial c19E (by simp [CacheFree]) c19Ctx (by simp [PowSafe])
    ⟨⟨⟨trivial, trivial, by simp [c19Ty], by simp [c19Ty]⟩, trivial⟩, trivial, by simp⟩ _ rfl

/-- `Cached(s * s, 3) ^ Cached(s * s, 3)`. -/
def c19P : FnImpl (F := ℤ) c19Ty (.power (.cached (.mul (.var 2) (.var 2)) 3)
    (.cached (.mul (.var 2) (.var 2)) 3)) .scalar :=
  .power (.cached (Γ := c19Ty) 3 (.mul (.var (Γ := c19Ty) 2) (.var (Γ := c19Ty) 2) .ss))
    (.cached (Γ := c19Ty) 3 (.mul (.var (Γ := c19Ty) 2) (.var (Γ := c19Ty) 2) .ss))

/-- `s = 2`, cache empty. -/
def c19Ctx2 : Ctx ℤ c19Ty
  | 2 => some (2 : ℤ)
  | _ => none

/-- `s` is `2` and the cache identifier stands for `4`. -/
def c19Env : Id → Tensor ℤ
  | 2 => .const [] 2
  | 3 => .const [] 4
  | _ => .const [] 0

example : IsTensor (τ := .scalar) (256 : ℤ) (den c19Env (.power (.cached (.mul (.var 2) (.var 2)) 3)
    (.cached (.mul (.var 2) (.var 2)) 3))) := by
  refine (C19_value_partial c19P ?_ ?_ ⟨⟨trivial, trivial⟩, trivial, trivial⟩ c19Ctx2 ?_).2 _ rfl
  · intro n i h
    simp at h
    obtain ⟨rfl, rfl⟩ := h
    exact ⟨rfl, fun ix _ => rfl⟩
  · intro l r h
    simp at h
    obtain ⟨rfl, rfl⟩ := h
    exact .inl trivial
  · intro i b h
    match i, b, h with
    | 2, b, h =>
      cases h
      exact isTensor_scalar rfl rfl

/-! ### Where the code breaks the claim -/

/-- `Power` (`binary.rs` L113-118): a compressed zero to the power `0` evaluates to `0`. -/
theorem C19_violation_power :
    ∃ (e : Node ℤ) (d : FnImpl c19Ty e .scalar) (c : Ctx ℤ c19Ty), CacheFree e ∧
      FnImpl.Regular d ∧ (d.evaluate c).1 = .ok (0 : ℤ) ∧
      IsTensor (τ := .scalar) (1 : ℤ) (den (envOf c) e) := by
  refine ⟨_, .power (.constSpec .scalar (.full () 0)) (.var (Γ := c19Ty) 2),
    fun i => match i with | 2 => some (0 : ℤ) | _ => none, by simp [CacheFree], ⟨trivial, trivial⟩,
    rfl, isTensor_scalar rfl rfl⟩

/-- Scalar minus matrix (C11): `1 - M` evaluates to `M - 1`. -/
theorem C19_violation_sub :
    ∃ (e : Node ℤ) (d : FnImpl c19Ty e (.array [2, 2])) (c : Ctx ℤ c19Ty), CacheFree e ∧
      PowSafe (envOf c) e ∧ (d.evaluate c).1 = .ok (Buf.full (.array [2, 2]) () (4 : ℤ)) ∧
      IsTensor (Buf.full (.array [2, 2]) () (-4 : ℤ)) (den (envOf c) e) := by
  refine ⟨_, .sub (.var (Γ := c19Ty) 2) (.var (Γ := c19Ty) 1) (.sa [2, 2]),
    fun i => match i with
      | 1 => some (Buf.full (.array [2, 2]) () (5 : ℤ)) | 2 => some (1 : ℤ) | _ => none,
    by simp [CacheFree], by simp [PowSafe], rfl, rfl, fun ix hix => ?_⟩
  have hix : InBounds [2, 2] ix := hix
  rw [Buf.getU_full (.array [2, 2]) _ _ _ hix]
  have h5 : Buf.getU (.array [2, 2]) (Buf.full (.array [2, 2]) () (5 : ℤ)) ix = some 5 :=
    Buf.getU_full (.array [2, 2]) _ _ _ hix
  show some (-4) = some (1 - (Buf.getU (.array [2, 2]) (Buf.full (.array [2, 2]) () (5 : ℤ)) ix).getD 0)
  rw [h5]; rfl

/-- The same for `Div`: `8 / M` with all entries of `M` equal to `2` evaluates to `2 / 8`. -/
theorem C19_violation_div :
    ∃ (e : Node ℤ) (d : FnImpl c19Ty e (.array [2, 2])) (c : Ctx ℤ c19Ty), CacheFree e ∧
      PowSafe (envOf c) e ∧ (d.evaluate c).1 = .ok (Buf.full (.array [2, 2]) () (0 : ℤ)) ∧
      IsTensor (Buf.full (.array [2, 2]) () (4 : ℤ)) (den (envOf c) e) := by
  refine ⟨_, .div (.var (Γ := c19Ty) 2) (.var (Γ := c19Ty) 1) (.sa [2, 2]),
    fun i => match i with
      | 1 => some (Buf.full (.array [2, 2]) () (2 : ℤ)) | 2 => some (8 : ℤ) | _ => none,
    by simp [CacheFree], by simp [PowSafe], rfl, rfl, fun ix hix => ?_⟩
  have hix : InBounds [2, 2] ix := hix
  rw [Buf.getU_full (.array [2, 2]) _ _ _ hix]
  have h5 : Buf.getU (.array [2, 2]) (Buf.full (.array [2, 2]) () (2 : ℤ)) ix = some 2 :=
    Buf.getU_full (.array [2, 2]) _ _ _ hix
  show some 4 = some (8 / (Buf.getU (.array [2, 2]) (Buf.full (.array [2, 2]) () (2 : ℤ)) ix).getD 0)
  rw [h5]; rfl

/-- Vector times a 2×1 matrix (C15): `[1, 1]·[[1], [1]]` evaluates to `[1]` instead of `[2]`. -/
theorem C19_violation_vm :
    ∃ (e : Node ℤ) (d : FnImpl c19Ty e (.array [1])) (c : Ctx ℤ c19Ty), CacheFree e ∧
      PowSafe (envOf c) e ∧ (d.evaluate c).1 = .ok (Buf.full (.array [1]) () (1 : ℤ)) ∧
      IsTensor (Buf.full (.array [1]) () (2 : ℤ)) (den (envOf c) e) := by
  refine ⟨.contract 1 (.const (.array [2]) (Buf.full (.array [2]) () (1 : ℤ)))
      (.const (.array [2, 1]) (Buf.full (.array [2, 1]) () (1 : ℤ))),
    .contract (.const _ _) (.const _ _) (.vm 2 1), fun _ => none,
    by simp [CacheFree], by simp [PowSafe], rfl, rfl, fun ix hix => ?_⟩
  have hix : InBounds [1] ix := hix
  obtain ⟨i, hi, rfl⟩ := Buf.inBounds_one.1 hix
  obtain rfl : i = 0 := by omega
  rfl

end Aegir.Props
