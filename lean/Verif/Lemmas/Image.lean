import Verif.Lemmas.Convert
import Verif.Lemmas.Tensor
import Verif.Lemmas.Node
import Verif.Spec.Polynomial
/-!
# Homomorphic images of tensors
-/

namespace Aegir

open Spec

/-- The tensor with every entry converted. -/
def image {F G : Type} (f : F → G) (T : Tensor F) : Tensor G := ⟨T.dims, fun ix => f (T.val ix)⟩

section
variable {F G : Type} [CommRing F] [Div F] [ScalarFns F] [CommRing G] [Div G] [ScalarFns G]
variable {Γ : Id → BTy}

theorem Shp.dims_injective {τ : BTy} {s t : Shp τ} (h : Shp.dims τ s = Shp.dims τ t) : s = t := by
  by_cases hv : τ = .vec
  · subst hv
    simpa [Shp.dims] using h
  · exact Buf.shape_eq_of_fixed hv s t

omit [Div F] [ScalarFns F] [Div G] [ScalarFns G] in
theorem image_sumOver (f : F →+* G) (ds : Dims) (g : Idx → F) :
    f (sumOver ds g) = sumOver ds fun ix => f (g ix) := by
  induction ds generalizing g with
  | nil => rfl
  | cons d ds ih => simp only [sumOver, map_sum, ih]

omit [Div F] [ScalarFns F] [Div G] [ScalarFns G] in
theorem image_ofBuf (f : F →+* G) {τ : BTy} (b : Buf F τ) :
    Tensor.ofBuf (Buf.map τ b f) = image f (.ofBuf b) := by
  unfold Tensor.ofBuf image
  congr 1
  · exact Buf.dims_map _ b f
  · funext ix
    rw [Buf.getU_map]
    show ((Buf.getU τ b ix).map f).getD 0 = f ((Buf.getU τ b ix).getD 0)
    cases Buf.getU τ b ix <;> simp

theorem image_den [LawfulSquare F] [LawfulSquare G] (f : F →+* G) (ρ : Id → Tensor F) {e : Node F}
    (he : RingExpr e) : den (fun i => image f (ρ i)) (conv f e) = image f (den ρ e) := by
  induction e with
  | var i => rfl
  | varAdj i t =>
    simp only [conv, den, image, Tensor.delta]
    congr 1
    funext ix
    split_ifs <;> simp
  | const τ b => exact image_ofBuf f b
  | constSpec τ s =>
    cases s with
    | raw b => exact image_ofBuf f b
    | full s x => rfl
    | diagonal s x =>
      simp only [conv, den, image, convSpec, Tensor.ofSpec]
      congr 1
      funext ix
      split_ifs <;> simp
  | constAdj n t ih =>
    simp only [conv, den, ih he]
    simp [image, Tensor.const]
  | cached | div | power => exact he.elim
  | add l r ihl ihr | sub l r ihl ihr | mul l r ihl ihr =>
    simp only [conv, den, ihl he.1, ihr he.2]
    simp only [image, Tensor.zip, map_add, map_sub, map_mul]
    rfl
  | contract k l r ihl ihr =>
    simp only [conv, den, ihl he.1, ihr he.2]
    simp only [image, Tensor.contract, image_sumOver, map_mul]
    rfl
  | sum n ih =>
    simp only [conv, den, ih he]
    simp [image, image_sumOver]
  | un op n ih =>
    simp only [conv, den, ih he.2]
    have h := he.1
    simp only [List.mem_cons, List.not_mem_nil, or_false] at h
    rcases h with rfl | rfl | rfl | rfl | rfl | rfl | rfl <;>
      simp [image, Tensor.map, UnOp.apply, LawfulSquare.sq]

omit [Div F] [ScalarFns F] [Div G] [ScalarFns G] in
theorem image_envOf (f : F →+* G) (c : Ctx F Γ) :
    envOf (convCtx f c) = fun i => image f (envOf c i) := by
  funext i
  unfold envOf convCtx
  cases c i with
  | none => simp [image, Tensor.const]
  | some b => exact image_ofBuf f b

omit [CommRing F] [Div F] [ScalarFns F] in
theorem ringExpr_not {e : Node F} (he : RingExpr e) :
    CacheFree e ∧ ∀ l r, ¬ SubExpr (.power l r) e := by
  induction e with
  | var | varAdj | const | constSpec => exact ⟨by simp [CacheFree], by simp⟩
  | constAdj n t ih | sum n ih => exact ⟨by simpa [CacheFree] using (ih he).1, by simpa using (ih he).2⟩
  | cached | div | power => exact he.elim
  | add l r ihl ihr | sub l r ihl ihr | mul l r ihl ihr | contract k l r ihl ihr =>
    have h1 := ihl he.1
    have h2 := ihr he.2
    refine ⟨fun n i h => ?_, fun l r h => ?_⟩
    · simp at h
      exact h.elim (h1.1 n i) (h2.1 n i)
    · simp at h
      exact h.elim (h1.2 l r) (h2.2 l r)
  | un op n ih => exact ⟨by simpa [CacheFree] using (ih he.2).1, by simpa using (ih he.2).2⟩

end

end Aegir
