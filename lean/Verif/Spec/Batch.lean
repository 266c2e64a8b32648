import Verif.Spec.TotalDeriv
/-!
# Losses over several samples

A batch is a finite family of contexts, one for each sample; the same entries are set in all of them. Its
value is the sum of the values, its gradient the sum of the adjoints.
-/

namespace Aegir.Spec

variable {Γ : Id → BTy} {e : Node ℝ} {τ : BTy} {adj : Id → Node ℝ} {σ : Id → BTy} {J : Type} [Fintype J]

/-- The sum of entry `ix` of the values, as a function of the entries `S`. -/
noncomputable def batchValue (d : FnImpl Γ e τ) (c : J → Ctx ℝ Γ) (S : Finset (Id × Idx)) (ix : Idx) (x : S → ℝ) : ℝ :=
  ∑ j, alongAll d (c j) S ix x

/-- The adjoints' entries for entry `ix` of the value, as a function of the entries `S` (junk value `0` if
evaluation fails). -/
noncomputable def gradAll {S : Finset (Id × Idx)} (da : ∀ p : S, FnImpl Γ (adj p.1.1) (σ p.1.1)) (c : Ctx ℝ Γ) (ix : Idx)
    (x : S → ℝ) (p : S) : ℝ :=
  match ((da p).evaluate (setEntries c S x)).1 with
  | .ok a => (Buf.getU _ a (ix ++ p.1.2)).getD 0
  | _ => 0

/-- The sum of the adjoints' entries. -/
noncomputable def batchGrad {S : Finset (Id × Idx)} (da : ∀ p : S, FnImpl Γ (adj p.1.1) (σ p.1.1)) (c : J → Ctx ℝ Γ)
    (ix : Idx) (x : S → ℝ) (p : S) : ℝ :=
  ∑ j, gradAll da (c j) ix x p

/-- The entries `x` move against the gradient, by `η` times its length, in every step. -/
def Descends {S : Finset (Id × Idx)} (η : ℝ) (g : (S → ℝ) → S → ℝ) (x : ℕ → S → ℝ) : Prop :=
  ∀ n p, x (n + 1) p = x n p - η * g (x n) p

end Aegir.Spec
