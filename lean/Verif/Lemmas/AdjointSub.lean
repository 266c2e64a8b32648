import Verif.Lemmas.Adjoint
import Verif.Spec.Errors
import Verif.Spec.Tensor
/-!
# Subexpressions of adjoints
-/

namespace Aegir

open Spec

variable {F : Type} {Γ : Id → BTy}

/-- What the adjoint of `e` with respect to `t` may contain. -/
inductive AdjSub (e : Node F) (t : Id) : Node F → Prop
  | old {s : Node F} (h : SubExpr s e) : AdjSub e t s
  | varAdj {i : Id} (h : SubExpr (.var i) e) : AdjSub e t (.varAdj i t)
  | constAdj {n : Node F} (h : SubExpr n e) : AdjSub e t (.constAdj n t)
  | add (l r : Node F) : AdjSub e t (.add l r)
  | sub (l r : Node F) : AdjSub e t (.sub l r)
  | mul (l r : Node F) : AdjSub e t (.mul l r)
  | div (l r : Node F) : AdjSub e t (.div l r)
  | contract {k : Nat} {l' r' : Node F} (h : SubExpr (.contract k l' r') e) (l r : Node F) :
      AdjSub e t (.contract k l r)
  | un (op : UnOp) (n : Node F) : AdjSub e t (.un op n)
  | power {l r : Node F} (h : SubExpr (.power l r) e) : AdjSub e t (.power l (.un .subOne r))

theorem AdjSub.parent {e n s : Node F} {t : Id} (hc : n ∈ children e) (h : AdjSub n t s) :
    AdjSub e t s := by
  cases h with
  | old h => exact .old (.step hc h)
  | varAdj h => exact .varAdj (.step hc h)
  | constAdj h => exact .constAdj (.step hc h)
  | power h => exact .power (.step hc h)
  | add => exact .add _ _
  | sub => exact .sub _ _
  | mul => exact .mul _ _
  | div => exact .div _ _
  | contract h => exact .contract (.step hc h) _ _
  | un => exact .un _ _

theorem AdjSub.bin {e l r l' r' s : Node F} {t : Id} (hl : l ∈ children e) (hr : r ∈ children e)
    (ihl : SubExpr s l' → AdjSub l t s) (ihr : SubExpr s r' → AdjSub r t s)
    (h : SubExpr s l' ∨ SubExpr s r' ∨ SubExpr s l ∨ SubExpr s r ∨ AdjSub e t s) :
    AdjSub e t s := by
  rcases h with h | h | h | h | h
  · exact (ihl h).parent hl
  · exact (ihr h).parent hr
  · exact .old (.step hl h)
  · exact .old (.step hr h)
  · exact h

theorem adjoint_sub {e e' s : Node F} {t : Id} (h : e.adjoint t = some e') (hs : SubExpr s e') :
    AdjSub e t s := by
  induction e generalizing e' s with
  | var i =>
    cases h
    simp only [SubExpr.varAdj] at hs
    subst hs
    exact .varAdj (.refl _)
  | varAdj i j =>
    cases h
    simp only [SubExpr.constAdj] at hs
    rcases hs with rfl | hs
    · exact .constAdj (.refl _)
    · exact .old hs
  | const τ b =>
    cases h
    simp only [SubExpr.constAdj] at hs
    rcases hs with rfl | hs
    · exact .constAdj (.refl _)
    · exact .old hs
  | constSpec | constAdj => cases h
  | cached n i ih =>
    simp only [Node.adjoint] at h
    split at h
    · exact (ih h hs).parent (by simp [children])
    · cases h
  | add l r ihl ihr | sub l r ihl ihr | mul l r ihl ihr | div l r ihl ihr =>
    simp only [Node.adjoint, Option.bind_eq_some_iff, Option.map_eq_some_iff] at h
    obtain ⟨l', hl, r', hr, rfl⟩ := h
    simp only [SubExpr.add, SubExpr.sub, SubExpr.mul, SubExpr.div, SubExpr.un] at hs
    refine AdjSub.bin (l := l) (r := r) (by simp [children]) (by simp [children]) (ihl hl) (ihr hr) ?_
    grind [AdjSub.add, AdjSub.mul, AdjSub.sub, AdjSub.div, AdjSub.un]
  | contract k l r ihl ihr =>
    simp only [Node.adjoint, Option.bind_eq_some_iff, Option.map_eq_some_iff] at h
    obtain ⟨l', hl, r', hr, rfl⟩ := h
    simp only [SubExpr.add, SubExpr.contract] at hs
    refine AdjSub.bin (l := l) (r := r) (by simp [children]) (by simp [children]) (ihl hl) (ihr hr) ?_
    have hc : ∀ a b, AdjSub (.contract k l r) t (.contract k a b) :=
      fun a b => .contract (.refl _) a b
    grind [AdjSub.add]
  | power l r ihl ihr =>
    simp only [Node.adjoint, Option.bind_eq_some_iff, Option.map_eq_some_iff] at h
    obtain ⟨l', hl, r', hr, rfl⟩ := h
    simp only [SubExpr.add, SubExpr.mul, SubExpr.power, SubExpr.un] at hs
    refine AdjSub.bin (l := l) (r := r) (by simp [children]) (by simp [children]) (ihl hl) (ihr hr) ?_
    have h5 : AdjSub (.power l r) t (.power l (.un .subOne r)) := .power (.refl _)
    grind [AdjSub.add, AdjSub.mul, AdjSub.un]
  | sum n ih => exact (ih h hs).parent (by simp [children])
  | un op n ih =>
    have h1 : ∀ {n'}, n.adjoint t = some n' → SubExpr s n' → AdjSub (.un op n) t s :=
      fun hn hs => (ih hn hs).parent (by simp [children])
    have h3 : SubExpr s n → AdjSub (.un op n) t s := fun hs => .old (.step (by simp [children]) hs)
    cases op <;> simp only [Node.adjoint, Option.map_eq_some_iff, reduceCtorEq] at h
    all_goals first
      | exact h1 h hs
      | obtain ⟨n', hn, rfl⟩ := h
        simp only [SubExpr.mul, SubExpr.div, SubExpr.un] at hs
        have h1 := h1 hn
        grind [AdjSub.mul, AdjSub.div, AdjSub.un]

/-- Identifiers the adjoint looks up: those of the expression and the target. -/
theorem adjoint_needs {e e' : Node F} {t i : Id} (h : e.adjoint t = some e') (hi : NeedsId e' i) :
    NeedsId e i ∨ i = t := by
  rcases hi with hs | ⟨j, hs⟩ | ⟨j, hs⟩ | ⟨n, hs⟩
  · cases adjoint_sub h hs with | old hs => exact .inl (.inl hs)
  · cases adjoint_sub h hs with
    | old hs => exact .inl (.inr (.inl ⟨_, hs⟩))
    | varAdj h' => exact .inl (.inl h')
  · cases adjoint_sub h hs with
    | old hs => exact .inl (.inr (.inr (.inl ⟨_, hs⟩)))
    | varAdj _ => exact .inr rfl
  · cases adjoint_sub h hs with
    | old hs => exact .inl (.inr (.inr (.inr ⟨_, hs⟩)))
    | constAdj _ => exact .inr rfl

theorem needs_of_contains {e : Node F} (hf : CacheFree e) {i : Id} (h : e.contains i = true) :
    NeedsId e i := by
  induction e with
  | var j => simp only [Node.contains, beq_iff_eq] at h; subst h; exact .inl (.refl _)
  | varAdj j t =>
    simp only [Node.contains, Bool.or_eq_true, beq_iff_eq] at h
    rcases h with rfl | rfl
    · exact .inr (.inl ⟨_, .refl _⟩)
    · exact .inr (.inr (.inl ⟨_, .refl _⟩))
  | const | constSpec => simp [Node.contains] at h
  | constAdj n t ih =>
    simp only [Node.contains, Bool.or_eq_true, beq_iff_eq] at h
    rcases h with h | rfl
    · exact .child (by simp [children]) (ih (hf.child (by simp [children])) h)
    · exact .inr (.inr (.inr ⟨_, .refl _⟩))
  | cached n j ih => exact absurd (.refl _) (hf n j)
  | add l r ihl ihr | sub l r ihl ihr | mul l r ihl ihr | div l r ihl ihr | power l r ihl ihr
  | contract k l r ihl ihr =>
    simp only [Node.contains, Bool.or_eq_true] at h
    rcases h with h | h
    · exact .child (by simp [children]) (ihl (hf.child (by simp [children])) h)
    · exact .child (by simp [children]) (ihr (hf.child (by simp [children])) h)
  | sum n ih | un op n ih =>
    exact .child (by simp [children]) (ih (hf.child (by simp [children])) h)

theorem contains_of_needs {e : Node F} {i : Id} (h : NeedsId e i) : e.contains i = true := by
  have hsub : ∀ {s e : Node F}, SubExpr s e → s.contains i = true → e.contains i = true := by
    intro s e hs
    induction hs with
    | refl => exact id
    | @step e' e'' hc _ ih =>
      intro hi
      have ih := ih hi
      cases e'' <;> simp only [children, List.mem_cons, List.not_mem_nil, or_false] at hc
      case constAdj | cached | sum | un => subst hc; simp [Node.contains, ih]
      all_goals rcases hc with rfl | rfl <;> simp [Node.contains, ih]
  rcases h with hs | ⟨j, hs⟩ | ⟨j, hs⟩ | ⟨n, hs⟩ <;> exact hsub hs (by simp [Node.contains])

/-- Without `Vec`s in the expression and the target there are none in the adjoint. -/
theorem adjoint_fixedSize {e e' : Node F} {t : Id} (h : e.adjoint t = some e') (hf : CacheFree e)
    (hs : FixedSize Γ e) (ht : Γ t ≠ .vec) : FixedSize Γ e' := by
  refine ⟨fun i hi => ?_, fun τ b hsub => ?_, fun τ b hsub => ?_⟩
  · rcases adjoint_needs h (needs_of_contains (adjoint_cacheFree h hf) hi) with h | rfl
    · exact hs.1 i (contains_of_needs h)
    · exact ht
  · cases adjoint_sub h hsub with | old h => exact hs.2.1 τ b h
  · cases adjoint_sub h hsub with | old h => exact hs.2.2 τ b h

theorem Spec.FnImpl.Regular.inRange [CommRing F] {e : Node F} {τ : BTy} {d : FnImpl Γ e τ}
    (h : FnImpl.Regular d) : FnImpl.ProductsInRange d := by
  induction d with
  | var | varAdj | const | constSpec => trivial
  | constAdj d t k ih => exact ih h
  | cached i d ih => exact ih h
  | add dl dr z ihl ihr | mul dl dr z ihl ihr | power dl dr ihl ihr => exact ⟨ihl h.1, ihr h.2⟩
  | sub dl dr z ihl ihr | div dl dr z ihl ihr => exact ⟨ihl h.1, ihr h.2.1⟩
  | contract dl dr z ihl ihr =>
    refine ⟨ihl h.1, ihr h.2.1, fun n m ha hb hc => ?_, fun n m ha hb hc => ?_⟩
    · subst ha hb hc
      cases z
      exact (h.2.2.1 n m rfl rfl rfl).ge
    · subst ha hb hc
      cases z
      exact (h.2.2.2 n m rfl rfl rfl).ge
  | sum d ih => exact ih h
  | un op d ih => exact ih h

end Aegir
