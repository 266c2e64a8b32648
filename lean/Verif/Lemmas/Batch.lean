import Verif.Spec.Batch
import Verif.Lemmas.TotalEval
/-!
# Contexts in which entries have been set
-/

namespace Aegir

open Spec

variable {Γ : Id → BTy} {S : Finset (Id × Idx)}

theorem setEntries_setEntries (c : Ctx ℝ Γ) (x y : S → ℝ) :
    setEntries (setEntries c S x) S y = setEntries c S y := by
  funext i
  unfold setEntries
  cases c i with
  | none => rfl
  | some b =>
    simp only [Option.map_some, Option.some_inj]
    refine Buf.ext _ _ _ (by simp only [Buf.shape_build]) fun ix hix => ?_
    have h0 : InBounds (Shp.dims _ (Buf.shape (Γ i) b)) ix := by
      rw [Buf.dims_build, Buf.shape_build] at hix
      exact hix
    rw [Buf.getU_build _ _ _ _ (by rw [Buf.shape_build]; exact h0), Buf.getU_build _ _ _ _ h0,
      Buf.getU_build _ _ _ _ h0]
    split_ifs <;> rfl

theorem entries_setEntries (c : Ctx ℝ Γ)
    (hS : ∀ p ∈ S, ∃ b, c p.1 = some b ∧ InBounds (Buf.dims _ b) p.2) (x : S → ℝ) :
    entries (setEntries c S x) S = x := by
  funext p
  obtain ⟨b, hb, hi⟩ := hS p.1 p.2
  simp only [entries, setEntries, hb, Option.map_some]
  rw [Buf.getU_build _ _ _ _ hi, dif_pos p.2]
  rfl

theorem setEntries_inBounds {c : Ctx ℝ Γ} {p : Id × Idx}
    (h : ∃ b, c p.1 = some b ∧ InBounds (Buf.dims _ b) p.2) (x : S → ℝ) :
    ∃ b, setEntries c S x p.1 = some b ∧ InBounds (Buf.dims _ b) p.2 := by
  obtain ⟨b, hb, hi⟩ := h
  refine ⟨_, by rw [setEntries, hb, Option.map_some], ?_⟩
  rw [Buf.dims_build]
  exact hi

theorem envOf_entries (c : Ctx ℝ Γ)
    (hS : ∀ p ∈ S, ∃ b, c p.1 = some b ∧ InBounds (Buf.dims _ b) p.2) :
    envOf (setEntries c S (entries c S)) = envOf c := by
  rw [envOf_setEntries c hS]
  funext i
  unfold perturbAll
  have : (fun ix => if h : (i, ix) ∈ S then entries c S ⟨(i, ix), h⟩ else (envOf c i).val ix) =
      (envOf c i).val := by
    funext ix
    split_ifs with h
    · obtain ⟨b, hb, -⟩ := hS _ h
      simp only [entries, envOf, hb, Tensor.ofBuf]
    · rfl
  rw [this]

end Aegir
