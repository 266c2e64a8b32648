import Verif.Spec.Calculus
import Mathlib.Analysis.Calculus.FDeriv.Pi
/-!
# Varying several entries of several variables at once
-/

namespace Aegir.Spec

/-- The environment in which the entries `S` (a variable and an index each) have the values `x`, and
everything else is as in `ρ`. -/
def perturbAll (ρ : Id → Tensor ℝ) (S : Finset (Id × Idx)) (x : S → ℝ) : Id → Tensor ℝ := fun i =>
  ⟨(ρ i).dims, fun ix => if h : (i, ix) ∈ S then x ⟨(i, ix), h⟩ else (ρ i).val ix⟩

/-- The context in which the entries `S` have the values `x`. -/
def setEntries {Γ : Id → BTy} (c : Ctx ℝ Γ) (S : Finset (Id × Idx)) (x : S → ℝ) : Ctx ℝ Γ := fun i =>
  (c i).map fun b => Buf.build (Γ i) (Buf.shape (Γ i) b) fun ix =>
    if h : (i, ix) ∈ S then x ⟨(i, ix), h⟩ else (Buf.getU (Γ i) b ix).getD 0

/-- The values of the entries `S` in the context. -/
def entries {Γ : Id → BTy} (c : Ctx ℝ Γ) (S : Finset (Id × Idx)) : S → ℝ := fun p =>
  match c p.1.1 with
  | some b => (Buf.getU _ b p.1.2).getD 0
  | none => 0

/-- Entry `ix` of the value of `d`, as a function of the entries `S` of the context (junk value `0`
if evaluation fails or `ix` is out of bounds). -/
noncomputable def alongAll {Γ : Id → BTy} {e : Node ℝ} {τ : BTy} (d : FnImpl Γ e τ) (c : Ctx ℝ Γ)
    (S : Finset (Id × Idx)) (ix : Idx) (x : S → ℝ) : ℝ :=
  match (d.evaluate (setEntries c S x)).1 with
  | .ok v => (Buf.getU τ v ix).getD 0
  | _ => 0

/-- The linear function with the coefficients `g`. -/
noncomputable def linear {S : Finset (Id × Idx)} (g : S → ℝ) : (S → ℝ) →L[ℝ] ℝ :=
  ∑ p : S, g p • ContinuousLinearMap.proj (R := ℝ) (φ := fun _ : S => ℝ) p

end Aegir.Spec
