import Verif.Lemmas.Node
/-!
# Facts about adjoint trees
-/

namespace Aegir

open Spec

variable {F : Type}

/-- `CacheFree` node by node. -/
theorem cacheFree_iff (e : Node F) :
    CacheFree e ↔ (∀ n i, e ≠ .cached n i) ∧ ∀ e' ∈ children e, CacheFree e' := by
  constructor
  · exact fun h => ⟨fun n i he => h n i (he ▸ .refl _), fun e' he' => h.child he'⟩
  · rintro ⟨h1, h2⟩ n i hs
    rw [SubExpr.iff_children] at hs
    rcases hs with rfl | ⟨e', he', hs⟩
    · exact h1 n i rfl
    · exact h2 e' he' n i hs

/-- The adjoint of a tree without `Cached` has no `Cached`. -/
theorem adjoint_cacheFree {e e' : Node F} {t : Id} (h : e.adjoint t = some e') (hf : CacheFree e) :
    CacheFree e' := by
  induction e generalizing e' with
  | var i => cases h; rw [cacheFree_iff]; simp [children]
  | varAdj i j => cases h; rw [cacheFree_iff]; simp [children, hf]
  | const τ b => cases h; rw [cacheFree_iff]; simp [children, hf]
  | constSpec | constAdj => cases h
  | cached n i => exact absurd (.refl _) (hf n i)
  | add l r ihl ihr | sub l r ihl ihr | mul l r ihl ihr | div l r ihl ihr | power l r ihl ihr
  | contract k l r ihl ihr =>
    simp only [Node.adjoint, Option.bind_eq_some_iff, Option.map_eq_some_iff] at h
    obtain ⟨l', hl, r', hr, rfl⟩ := h
    have h1 := hf.child (e' := l) (by simp [children])
    have h2 := hf.child (e' := r) (by simp [children])
    have h3 := ihl hl h1
    have h4 := ihr hr h2
    simp [cacheFree_iff (.add _ _), cacheFree_iff (.sub _ _), cacheFree_iff (.mul _ _),
      cacheFree_iff (.div _ _), cacheFree_iff (.power _ _), cacheFree_iff (.contract _ _ _),
      cacheFree_iff (.un _ _), children, h1, h2, h3, h4]
  | sum n ih => exact ih h (hf.child (by simp [children]))
  | un op n ih =>
    have h1 := hf.child (e' := n) (by simp [children])
    cases op <;> simp only [Node.adjoint, Option.map_eq_some_iff, reduceCtorEq] at h
    all_goals first
      | exact ih h h1
      | obtain ⟨n', hn, rfl⟩ := h
        have h3 := ih hn h1
        simp [cacheFree_iff (.mul _ _), cacheFree_iff (.div _ _), cacheFree_iff (.un _ _),
          children, h1, h3]

/-- No compressed constant in `e`. -/
def ConstSpecFree (e : Node F) : Prop := ∀ τ s, ¬ SubExpr (.constSpec τ s) e

theorem constSpecFree_iff (e : Node F) :
    ConstSpecFree e ↔ (∀ τ s, e ≠ .constSpec τ s) ∧ ∀ e' ∈ children e, ConstSpecFree e' := by
  constructor
  · exact fun h => ⟨fun n i he => h n i (he ▸ .refl _), fun e' he' n i hs => h n i (.step he' hs)⟩
  · rintro ⟨h1, h2⟩ n i hs
    rw [SubExpr.iff_children] at hs
    rcases hs with rfl | ⟨e', he', hs⟩
    · exact h1 n i rfl
    · exact h2 e' he' n i hs

/-- Differentiable trees and their adjoints have no compressed constants. -/
theorem adjoint_constSpecFree {e e' : Node F} {t : Id} (h : e.adjoint t = some e') :
    ConstSpecFree e ∧ ConstSpecFree e' := by
  induction e generalizing e' with
  | var i => cases h; simp [ConstSpecFree]
  | varAdj i j => cases h; simp [ConstSpecFree]
  | const τ b => cases h; simp [ConstSpecFree]
  | constSpec | constAdj => cases h
  | cached n i ih =>
    simp only [Node.adjoint] at h
    split at h
    · refine ⟨?_, (ih h).2⟩
      rw [constSpecFree_iff]
      simp [children, (ih h).1]
    · cases h
  | add l r ihl ihr | sub l r ihl ihr | mul l r ihl ihr | div l r ihl ihr | power l r ihl ihr
  | contract k l r ihl ihr =>
    simp only [Node.adjoint, Option.bind_eq_some_iff, Option.map_eq_some_iff] at h
    obtain ⟨l', hl, r', hr, rfl⟩ := h
    obtain ⟨h1, h3⟩ := ihl hl
    obtain ⟨h2, h4⟩ := ihr hr
    simp [constSpecFree_iff (.add _ _), constSpecFree_iff (.sub _ _), constSpecFree_iff (.mul _ _),
      constSpecFree_iff (.div _ _), constSpecFree_iff (.power _ _),
      constSpecFree_iff (.contract _ _ _), constSpecFree_iff (.un _ _), children, h1, h2, h3, h4]
  | sum n ih =>
    refine ⟨?_, (ih h).2⟩
    rw [constSpecFree_iff]
    simp [children, (ih h).1]
  | un op n ih =>
    cases op <;> simp only [Node.adjoint, Option.map_eq_some_iff, reduceCtorEq] at h
    all_goals first
      | refine ⟨?_, (ih h).2⟩
        simp [constSpecFree_iff (.un _ _), children, (ih h).1]
      | obtain ⟨n', hn, rfl⟩ := h
        obtain ⟨h1, h3⟩ := ih hn
        simp [constSpecFree_iff (.mul _ _), constSpecFree_iff (.div _ _),
          constSpecFree_iff (.un _ _), children, h1, h3]

end Aegir
