import Verif.Lemmas.Adjoint
import Verif.Model.Eval
/-!
# Types of expressions

The value type of a node is determined by the node, and an adjoint is a scalar only if the
expression is.
-/

namespace Aegir

open Spec

variable {F : Type} {Γ : Id → BTy}

theorem ZipImpl.out_unique {a b c c' : BTy} (z : ZipImpl a b c) (z' : ZipImpl a b c') : c = c' := by
  cases z <;> cases z' <;> rfl

theorem ContractImpl.out_unique {k : Nat} {a b c c' : BTy} (z : ContractImpl k a b c)
    (z' : ContractImpl k a b c') : c = c' := by
  cases z <;> cases z' <;> rfl

theorem ConcatImpl.out_unique {a b c c' : BTy} (z : ConcatImpl a b c) (z' : ConcatImpl a b c') :
    c = c' := by
  cases z <;> cases z' <;> rfl

/-- A node has at most one value type in a context type. -/
theorem FnImpl.type_unique {e : Node F} {τ σ : BTy} (d : FnImpl Γ e τ) (d' : FnImpl Γ e σ) :
    τ = σ := by
  induction d generalizing σ with
  | var i => cases d'; rfl
  | varAdj i t k _ => cases d' with | varAdj _ _ k' _ => exact k.out_unique k'
  | const τ b => cases d'; rfl
  | constSpec τ s => cases d'; rfl
  | constAdj d t k ih =>
    cases d' with
    | constAdj d2 _ k' =>
      obtain rfl := ih d2
      exact k.out_unique k'
  | cached i d ih => cases d'; rfl
  | add dl dr z ihl ihr =>
    cases d' with
    | add dl' dr' z' =>
      obtain rfl := ihl dl'; obtain rfl := ihr dr'
      exact z.out_unique z'
  | sub dl dr z ihl ihr =>
    cases d' with
    | sub dl' dr' z' =>
      obtain rfl := ihl dl'; obtain rfl := ihr dr'
      exact z.out_unique z'
  | mul dl dr z ihl ihr =>
    cases d' with
    | mul dl' dr' z' =>
      obtain rfl := ihl dl'; obtain rfl := ihr dr'
      exact z.out_unique z'
  | div dl dr z ihl ihr =>
    cases d' with
    | div dl' dr' z' =>
      obtain rfl := ihl dl'; obtain rfl := ihr dr'
      exact z.out_unique z'
  | power dl dr ihl ihr => cases d'; rfl
  | contract dl dr z ihl ihr =>
    cases d' with
    | contract dl' dr' z' =>
      obtain rfl := ihl dl'; obtain rfl := ihr dr'
      exact z.out_unique z'
  | sum d ih => cases d'; rfl
  | un op d ih => cases d' with | un _ d' => exact ih d'

theorem ZipImpl.scalar_out {a b : BTy} (z : ZipImpl a b .scalar) : a = .scalar ∧ b = .scalar := by
  cases z; exact ⟨rfl, rfl⟩

theorem ZipImpl.scalar_in {c : BTy} (z : ZipImpl .scalar .scalar c) : c = .scalar := by
  cases z; rfl

theorem ConcatImpl.scalar_out {a b : BTy} (z : ConcatImpl a b .scalar) : a = .scalar := by
  cases z; rfl

/-- If the adjoint is a scalar, so is the expression. -/
theorem adjoint_scalar {e e' : Node F} {t : Id} (h : e.adjoint t = some e') {τ : BTy}
    (d : FnImpl Γ e τ) (da : FnImpl Γ e' .scalar) : τ = .scalar := by
  induction e generalizing e' τ with
  | var i =>
    cases h
    cases d with | var =>
    cases da with | varAdj _ _ k _ => exact k.scalar_out
  | varAdj i j =>
    cases h
    cases da with
    | constAdj d' _ k =>
      obtain rfl := d.type_unique d'
      exact k.scalar_out
  | const σ b =>
    cases h
    cases da with
    | constAdj d' _ k =>
      obtain rfl := d.type_unique d'
      exact k.scalar_out
  | constSpec | constAdj => cases h
  | cached n i ih =>
    simp only [Node.adjoint] at h
    split at h
    · cases d with | cached _ d => exact ih h d da
    · cases h
  | add l r ihl ihr =>
    simp only [Node.adjoint, Option.bind_eq_some_iff, Option.map_eq_some_iff] at h
    obtain ⟨l', hl, r', hr, rfl⟩ := h
    cases d with | add dl dr z =>
    cases da with | add dl' dr' z' =>
    obtain ⟨rfl, rfl⟩ := z'.scalar_out
    obtain rfl := ihl hl dl dl'
    obtain rfl := ihr hr dr dr'
    exact z.scalar_in
  | sub l r ihl ihr =>
    simp only [Node.adjoint, Option.bind_eq_some_iff, Option.map_eq_some_iff] at h
    obtain ⟨l', hl, r', hr, rfl⟩ := h
    cases d with | sub dl dr z =>
    cases da with | sub dl' dr' z' =>
    obtain ⟨rfl, rfl⟩ := z'.scalar_out
    obtain rfl := ihl hl dl dl'
    obtain rfl := ihr hr dr dr'
    exact z.scalar_in
  | mul l r ihl ihr =>
    simp only [Node.adjoint, Option.bind_eq_some_iff, Option.map_eq_some_iff] at h
    obtain ⟨l', hl, r', hr, rfl⟩ := h
    cases d with | mul dl dr z =>
    cases da with | add d1 d2 z' =>
    obtain ⟨rfl, rfl⟩ := z'.scalar_out
    cases d1 with | mul d3 d4 z1 =>
    cases d2 with | mul d5 d6 z2 =>
    obtain ⟨rfl, rfl⟩ := z1.scalar_out
    obtain ⟨rfl, rfl⟩ := z2.scalar_out
    obtain rfl := dl.type_unique d6
    obtain rfl := dr.type_unique d4
    exact z.scalar_in
  | div l r ihl ihr =>
    simp only [Node.adjoint, Option.bind_eq_some_iff, Option.map_eq_some_iff] at h
    obtain ⟨l', hl, r', hr, rfl⟩ := h
    cases d with | div dl dr z =>
    cases da with | div d1 d2 z' =>
    obtain ⟨rfl, rfl⟩ := z'.scalar_out
    cases d1 with | sub d1 d2 z'' =>
    obtain ⟨rfl, rfl⟩ := z''.scalar_out
    cases d1 with | mul d3 d4 z1 =>
    cases d2 with | mul d5 d6 z2 =>
    obtain ⟨rfl, rfl⟩ := z1.scalar_out
    obtain ⟨rfl, rfl⟩ := z2.scalar_out
    obtain rfl := dl.type_unique d5
    obtain rfl := dr.type_unique d3
    exact z.scalar_in
  | power l r ihl ihr => cases d; rfl
  | contract k l r ihl ihr =>
    simp only [Node.adjoint, Option.bind_eq_some_iff, Option.map_eq_some_iff] at h
    obtain ⟨l', hl, r', hr, rfl⟩ := h
    cases d with | contract dl dr z =>
    cases da with | add d1 d2 z' =>
    obtain ⟨rfl, rfl⟩ := z'.scalar_out
    cases d1 with | contract d3 d4 z1 =>
    cases d2 with | contract d5 d6 z2 =>
    obtain rfl := dl.type_unique d3
    obtain rfl := dr.type_unique d6
    cases z1 <;> cases z2 <;> cases z <;> rfl
  | sum n ih => cases d; rfl
  | un op n ih =>
    cases d with | un _ d =>
    cases op <;> simp only [Node.adjoint, Option.map_eq_some_iff, reduceCtorEq] at h
    case subOne | addOne => exact ih h d da
    case oneSub | negate | double =>
      obtain ⟨n', hn, rfl⟩ := h
      cases da with | un _ da => exact ih hn d da
    case square | sign | abs | exp | rabbit =>
      obtain ⟨n', hn, rfl⟩ := h
      cases da with | mul d1 d2 z =>
      obtain ⟨rfl, rfl⟩ := z.scalar_out
      exact ih hn d d2
    case xlnx | sigmoid | logGamma | sin =>
      obtain ⟨n', hn, rfl⟩ := h
      cases da with | mul d1 d2 z =>
      obtain ⟨rfl, rfl⟩ := z.scalar_out
      exact ih hn d d1
    case ln =>
      obtain ⟨n', hn, rfl⟩ := h
      cases da with | div d1 d2 z =>
      obtain ⟨rfl, rfl⟩ := z.scalar_out
      exact ih hn d d1
    case gamma =>
      obtain ⟨n', hn, rfl⟩ := h
      cases da with | mul d1 d2 z =>
      obtain ⟨rfl, rfl⟩ := z.scalar_out
      cases d1 with | mul d3 d4 z' =>
      obtain ⟨rfl, rfl⟩ := z'.scalar_out
      exact ih hn d d3
    case cos =>
      obtain ⟨n', hn, rfl⟩ := h
      cases da with | un _ d1 =>
      cases d1 with | mul d3 d4 z' =>
      obtain ⟨rfl, rfl⟩ := z'.scalar_out
      exact ih hn d d3

end Aegir
