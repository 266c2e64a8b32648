import Verif.Spec.Repeat
import Verif.Lemmas.AdjointSub
/-!
# Existence of first and second adjoints
-/

namespace Aegir

open Aegir.Spec

variable {F : Type}

theorem allSub_iff {p : Node F → Prop} {e : Node F} :
    (∀ s, SubExpr s e → p s) ↔ p e ∧ ∀ c ∈ children e, ∀ s, SubExpr s c → p s :=
  ⟨fun h => ⟨h e (.refl e), fun _ hc s hs => h s (.step hc hs)⟩, fun h s hs => by
    cases hs with
    | refl => exact h.1
    | step hc hs => exact h.2 _ hc s hs⟩

/-- The condition of `Once` on one node. -/
def OnceAt (t : Id) : Node F → Prop
  | .constSpec _ _ | .constAdj _ _ => False
  | .cached _ i => t = i
  | .un op _ => op ∈ ruleOps
  | _ => True

theorem once_allSub {t : Id} {e : Node F} : Once t e ↔ ∀ s, SubExpr s e → OnceAt t s := by
  constructor
  · rintro ⟨h1, h2, h3, h4⟩ s hs
    cases s with
    | constSpec τ s => exact h1 τ s hs
    | constAdj n i => exact h2 n i hs
    | cached n i => exact h3 n i hs
    | un op n => exact h4 op n hs
    | _ => trivial
  · intro h
    exact ⟨fun τ s hs => h _ hs, fun n i hs => h _ hs, fun n i hs => h _ hs, fun op n hs => h _ hs⟩

/-- The condition of `Twice` on one node. -/
def TwiceAt : Node F → Prop
  | .const _ _ | .varAdj _ _ => False
  | .un op _ => op ∈ twiceOps
  | _ => True

theorem twice_allSub {e : Node F} : Twice e ↔ ∀ s, SubExpr s e → TwiceAt s := by
  constructor
  · rintro ⟨h1, h2, h4⟩ s hs
    cases s with
    | const τ b => exact h1 τ b hs
    | varAdj n i => exact h2 n i hs
    | un op n => exact h4 op n hs
    | _ => trivial
  · intro h
    exact ⟨fun τ s hs => h _ hs, fun n i hs => h _ hs, fun op n hs => h _ hs⟩

theorem once_iff (t : Id) (e : Node F) : (∃ e', e.adjoint t = some e') ↔ Once t e := by
  rw [← Option.isSome_iff_exists, once_allSub]
  induction e with
  | var i | varAdj i j | const τ b | constSpec τ s | constAdj n i =>
    rw [allSub_iff]; simp [Node.adjoint, OnceAt, children]
  | cached n i ih =>
    rw [allSub_iff]
    by_cases h : t = i <;> simp [Node.adjoint, h, OnceAt, children]
    subst h
    exact ih
  | add l r ihl ihr | sub l r ihl ihr | mul l r ihl ihr | div l r ihl ihr | power l r ihl ihr
  | contract k l r ihl ihr =>
    rw [allSub_iff]
    simp only [children, List.mem_cons, List.not_mem_nil, or_false, forall_eq_or_imp,
      forall_eq, ← ihl, ← ihr]
    cases hl : l.adjoint t <;> cases hr : r.adjoint t <;> simp [Node.adjoint, hl, hr, OnceAt]
  | sum n ih =>
    rw [allSub_iff]
    simp only [children, List.mem_cons, List.not_mem_nil, or_false, forall_eq, ← ih]
    simp [Node.adjoint, OnceAt]
  | un op n ih =>
    rw [allSub_iff]
    simp only [children, List.mem_cons, List.not_mem_nil, or_false, forall_eq, ← ih]
    cases op <;> simp [Node.adjoint, ruleOps, OnceAt]

theorem once_other {t u : Id} {e : Node F} (hf : CacheFree e) (h : Once t e) : Once u e :=
  ⟨h.1, h.2.1, fun n i hs => absurd hs (hf n i), h.2.2.2⟩

/-- Of the adjoint of `e`, all that `e` does not already satisfy. -/
theorem twice_iff {t u : Id} {e e₁ : Node F} (hf : CacheFree e) (h : e.adjoint t = some e₁) :
    (∃ e₂, e₁.adjoint u = some e₂) ↔ Twice e := by
  have hu : ∀ {n n' : Node F}, CacheFree n → n.adjoint t = some n' → (n.adjoint u).isSome = true := by
    intro n n' hn h
    rw [Option.isSome_iff_exists, once_iff]
    exact once_other hn ((once_iff t n).1 ⟨_, h⟩)
  rw [← Option.isSome_iff_exists, twice_allSub]
  induction e generalizing e₁ with
  | var i | varAdj i j | const τ b =>
    cases h; rw [allSub_iff]; simp [Node.adjoint, TwiceAt, children]
  | constSpec τ s => cases h
  | constAdj n i => cases h
  | cached n i => exact absurd (.refl _) (hf n i)
  | add l r ihl ihr | sub l r ihl ihr | mul l r ihl ihr | div l r ihl ihr | power l r ihl ihr
  | contract k l r ihl ihr =>
    simp only [Node.adjoint, Option.bind_eq_some_iff, Option.map_eq_some_iff] at h
    obtain ⟨l', hl, r', hr, rfl⟩ := h
    rw [allSub_iff]
    have hfl := hf.child (e' := l) (by simp [children])
    have hfr := hf.child (e' := r) (by simp [children])
    simp only [children, List.mem_cons, List.not_mem_nil, or_false, forall_eq_or_imp,
      forall_eq, ← ihl hfl hl, ← ihr hfr hr]
    obtain ⟨l2, hl2⟩ := Option.isSome_iff_exists.1 (hu hfl hl)
    obtain ⟨r2, hr2⟩ := Option.isSome_iff_exists.1 (hu hfr hr)
    cases hl3 : l'.adjoint u <;> cases hr3 : r'.adjoint u <;>
      simp [Node.adjoint, hl2, hr2, hl3, hr3, TwiceAt]
  | sum n ih =>
    have hfn := hf.child (e' := n) (by simp [children])
    rw [allSub_iff]
    simp only [children, List.mem_cons, List.not_mem_nil, or_false, forall_eq, ← ih hfn h]
    simp [TwiceAt]
  | un op n ih =>
    have hfn := hf.child (e' := n) (by simp [children])
    rw [allSub_iff]
    simp only [children, List.mem_cons, List.not_mem_nil, or_false, forall_eq]
    obtain ⟨n', hn⟩ : ∃ n', n.adjoint t = some n' := by
      cases hn : n.adjoint t with
      | some n' => exact ⟨n', rfl⟩
      | none => exfalso; cases op <;> simp [Node.adjoint, hn] at h
    have ihn := ih hfn hn
    simp only [← ihn]
    obtain ⟨n2, hn2⟩ := Option.isSome_iff_exists.1 (hu hfn hn)
    cases op <;> simp only [Node.adjoint, hn, Option.map_some, Option.some.injEq, reduceCtorEq] at h <;>
      subst h <;> cases hn3 : n'.adjoint u <;> simp [Node.adjoint, twiceOps, hn2, hn3, TwiceAt]

end Aegir
