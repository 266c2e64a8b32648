import Verif.Spec.Mixed
import Verif.Spec.Polynomial
import Verif.Lemmas.EvalDeriv
import Verif.Lemmas.Node
import Mathlib.Tactic.Ring
import Mathlib.Tactic.LinearCombination
/-!
# Differentiating with respect to two variables
-/

namespace Aegir

open Spec

variable {F : Type} [CommRing F] [Div F] [ScalarFns F]

/-- Conditions on shapes, node by node: no caches, sums only of a single entry (C31), powers only of
scalars, and quotients only of tensors that combine. -/
def Level (ρ : Id → Tensor F) : Node F → Prop
  | .var _ => True
  | .varAdj _ _ => True
  | .const _ _ => True
  | .constSpec _ _ => True
  | .constAdj _ _ => True
  | .cached _ _ => False
  | .add l r => Level ρ l ∧ Level ρ r
  | .sub l r => Level ρ l ∧ Level ρ r
  | .mul l r => Level ρ l ∧ Level ρ r
  | .div l r => Level ρ l ∧ Level ρ r ∧
      ((den ρ l).dims = [] ∨ (den ρ r).dims = [] ∨ (den ρ l).dims = (den ρ r).dims)
  | .power l r => Level ρ l ∧ Level ρ r ∧ (den ρ l).dims = [] ∧ (den ρ r).dims = []
  | .contract _ l r => Level ρ l ∧ Level ρ r
  | .sum n => Level ρ n ∧ (den ρ n).dims = []
  | .un _ n => Level ρ n

/-- The adjoint with respect to a scalar has the extents of the expression, and the shape conditions
hold of it. -/
theorem level_adjoint {ρ : Id → Tensor F} {e e' : Node F} {t : Id} (h : e.adjoint t = some e')
    (hm : Level ρ e) (ht : (ρ t).dims = []) :
    (den ρ e').dims = (den ρ e).dims ∧ Level ρ e' := by
  induction e generalizing e' with
  | var i => cases h; simp [den, Tensor.delta, ht, Level]
  | varAdj i j => cases h; simp [den, Tensor.const, ht, Level]
  | const τ b => cases h; simp [den, Tensor.const, ht, Level]
  | constSpec | constAdj => cases h
  | cached => exact hm.elim
  | add l r ihl ihr | sub l r ihl ihr =>
    simp only [Node.adjoint, Option.bind_eq_some_iff, Option.map_eq_some_iff] at h
    obtain ⟨l', hl, r', hr, rfl⟩ := h
    obtain ⟨hl1, hl2⟩ := ihl hl hm.1
    obtain ⟨hr1, hr2⟩ := ihr hr hm.2
    exact ⟨by simp only [den, Tensor.zip, hl1, hr1], hl2, hr2⟩
  | mul l r ihl ihr =>
    simp only [Node.adjoint, Option.bind_eq_some_iff, Option.map_eq_some_iff] at h
    obtain ⟨l', hl, r', hr, rfl⟩ := h
    obtain ⟨hl1, hl2⟩ := ihl hl hm.1
    obtain ⟨hr1, hr2⟩ := ihr hr hm.2
    refine ⟨?_, ⟨hl2, hm.2⟩, hr2, hm.1⟩
    simp only [den, Tensor.zip, hl1, hr1]
    split_ifs <;> simp_all
  | div l r ihl ihr =>
    simp only [Node.adjoint, Option.bind_eq_some_iff, Option.map_eq_some_iff] at h
    obtain ⟨l', hl, r', hr, rfl⟩ := h
    obtain ⟨h1, h2, h3⟩ := hm
    obtain ⟨hl1, hl2⟩ := ihl hl h1
    obtain ⟨hr1, hr2⟩ := ihr hr h2
    refine ⟨?_, ⟨⟨h2, hl2⟩, h1, hr2⟩, h2, ?_⟩
    · simp only [den, Tensor.zip, Tensor.map, hl1, hr1]
      split_ifs <;> simp_all
    · simp only [den, Tensor.zip, Tensor.map, hl1, hr1]
      split_ifs <;> simp_all
  | power l r ihl ihr =>
    simp only [Node.adjoint, Option.bind_eq_some_iff, Option.map_eq_some_iff] at h
    obtain ⟨l', hl, r', hr, rfl⟩ := h
    obtain ⟨h1, h2, h3, h4⟩ := hm
    obtain ⟨hl1, hl2⟩ := ihl hl h1
    obtain ⟨hr1, hr2⟩ := ihr hr h2
    refine ⟨by simp [den, Tensor.zip, Tensor.map, hl1, hr1, h3, h4], ⟨h1, h2, h3, h4⟩, ⟨h2, hl2⟩, h1, hr2⟩
  | contract k l r ihl ihr =>
    simp only [Node.adjoint, Option.bind_eq_some_iff, Option.map_eq_some_iff] at h
    obtain ⟨l', hl, r', hr, rfl⟩ := h
    obtain ⟨hl1, hl2⟩ := ihl hl hm.1
    obtain ⟨hr1, hr2⟩ := ihr hr hm.2
    exact ⟨by simp only [den, Tensor.zip, Tensor.contract, hl1, hr1, ite_self], ⟨hm.1, hr2⟩, hl2, hm.2⟩
  | sum n ih =>
    obtain ⟨h1, h2⟩ := ih h hm.1
    exact ⟨by rw [h1, hm.2]; rfl, h2⟩
  | un op n ih =>
    cases op <;> simp only [Node.adjoint, Option.map_eq_some_iff, reduceCtorEq] at h
    case subOne | addOne => exact ih h hm
    all_goals
      obtain ⟨n', hn, rfl⟩ := h
      obtain ⟨h1, h2⟩ := ih hn hm
      simp only [den, Tensor.zip, Tensor.map, h1, ite_self, Level, h2, or_true, and_true, true_and]
      try first | exact hm | exact ⟨hm, hm⟩

/-- Values of two adjoints of adjoints, taken in opposite order. -/
theorem mixed_val [LawfulSquare F] {ρ : Id → Tensor F} {e es et est ets : Node F} {s t : Id}
    (hdiv : (∃ n, SubExpr (.un .xlnx n) e) → ∀ a b c : F, a / b * c = c / b * a) (hs : e.adjoint s = some es)
    (ht : e.adjoint t = some et) (hst : es.adjoint t = some est) (hts : et.adjoint s = some ets)
    (hm : Level ρ e) (hp : PowerRule ρ e) (hs0 : (ρ s).dims = []) (ht0 : (ρ t).dims = []) (ix : Idx) :
    (den ρ est).val ix = (den ρ ets).val ix := by
  induction e generalizing es et est ets ix with
  | var i => cases hs; cases ht; cases hst; cases hts; rfl
  | varAdj i j => cases hs; cases hst
  | const τ b => cases hs; cases hst
  | constSpec | constAdj => cases hs
  | cached => exact hm.elim
  | sum n ih => exact ih (fun ⟨m, h⟩ => hdiv ⟨m, .step (by simp [children]) h⟩) hs ht hst hts hm.1 (fun l r h => hp l r (.step (by simp [children]) h)) ix
  | add l r ihl ihr | sub l r ihl ihr =>
    have ihl' := fun a b c d p q r s => ihl (es := a) (et := b) (est := c) (ets := d)
      (fun ⟨m, h⟩ => hdiv ⟨m, .step (by simp [children]) h⟩) p q r s hm.1
      (fun l r h => hp l r (.step (by simp [children]) h))
    have ihr' := fun a b c d p q r s => ihr (es := a) (et := b) (est := c) (ets := d)
      (fun ⟨m, h⟩ => hdiv ⟨m, .step (by simp [children]) h⟩) p q r s hm.2
      (fun l r h => hp l r (.step (by simp [children]) h))
    simp only [Node.adjoint, Option.bind_eq_some_iff, Option.map_eq_some_iff] at hs ht
    obtain ⟨l1, hl1, r1, hr1, rfl⟩ := hs
    obtain ⟨l2, hl2, r2, hr2, rfl⟩ := ht
    simp only [Node.adjoint, Option.bind_eq_some_iff, Option.map_eq_some_iff] at hst hts
    obtain ⟨l12, hl12, r12, hr12, rfl⟩ := hst
    obtain ⟨l21, hl21, r21, hr21, rfl⟩ := hts
    have hl := ihl' _ _ _ _ hl1 hl2 hl12 hl21
    have hr := ihr' _ _ _ _ hr1 hr2 hr12 hr21
    obtain ⟨a1, a2⟩ := level_adjoint hl1 hm.1 hs0
    obtain ⟨b1, b2⟩ := level_adjoint hr1 hm.2 hs0
    obtain ⟨c1, c2⟩ := level_adjoint hl2 hm.1 ht0
    obtain ⟨d1, d2⟩ := level_adjoint hr2 hm.2 ht0
    have a3 := (level_adjoint hl12 a2 ht0).1
    have b3 := (level_adjoint hr12 b2 ht0).1
    have c3 := (level_adjoint hl21 c2 hs0).1
    have d3 := (level_adjoint hr21 d2 hs0).1
    simp only [den, Tensor.zip, a1, b1, c1, d1, a3, b3, c3, d3, hl, hr]
  | mul l r ihl ihr =>
    have ihl' := fun a b c d p q r s => ihl (es := a) (et := b) (est := c) (ets := d)
      (fun ⟨m, h⟩ => hdiv ⟨m, .step (by simp [children]) h⟩) p q r s hm.1
      (fun l r h => hp l r (.step (by simp [children]) h))
    have ihr' := fun a b c d p q r s => ihr (es := a) (et := b) (est := c) (ets := d)
      (fun ⟨m, h⟩ => hdiv ⟨m, .step (by simp [children]) h⟩) p q r s hm.2
      (fun l r h => hp l r (.step (by simp [children]) h))
    simp only [Node.adjoint, Option.bind_eq_some_iff, Option.map_eq_some_iff] at hs ht
    obtain ⟨l1, hl1, r1, hr1, rfl⟩ := hs
    obtain ⟨l2, hl2, r2, hr2, rfl⟩ := ht
    simp only [Node.adjoint, Option.bind_eq_some_iff, Option.map_eq_some_iff] at hst hts
    obtain ⟨_, ⟨l12, hl12, r2', hr2', rfl⟩, _, ⟨r12, hr12, l2', hl2', rfl⟩, rfl⟩ := hst
    obtain ⟨_, ⟨l21, hl21, r1', hr1', rfl⟩, _, ⟨r21, hr21, l1', hl1', rfl⟩, rfl⟩ := hts
    cases hr2.symm.trans hr2'
    cases hl2.symm.trans hl2'
    cases hr1.symm.trans hr1'
    cases hl1.symm.trans hl1'
    have hl := ihl' _ _ _ _ hl1 hl2 hl12 hl21
    have hr := ihr' _ _ _ _ hr1 hr2 hr12 hr21
    obtain ⟨a1, a2⟩ := level_adjoint hl1 hm.1 hs0
    obtain ⟨b1, b2⟩ := level_adjoint hr1 hm.2 hs0
    obtain ⟨c1, c2⟩ := level_adjoint hl2 hm.1 ht0
    obtain ⟨d1, d2⟩ := level_adjoint hr2 hm.2 ht0
    have a3 := (level_adjoint hl12 a2 ht0).1
    have b3 := (level_adjoint hr12 b2 ht0).1
    have c3 := (level_adjoint hl21 c2 hs0).1
    have d3 := (level_adjoint hr21 d2 hs0).1
    simp only [den, Tensor.zip, a1, b1, c1, d1, a3, b3, c3, d3, hl, hr, bIdx]
    by_cases h1 : (den ρ l).dims = [] <;> by_cases h2 : (den ρ r).dims = [] <;>
      simp only [h1, h2, if_true, if_false, ite_self] <;> ring
  | div l r ihl ihr =>
    have ihl' := fun a b c d p q r s => ihl (es := a) (et := b) (est := c) (ets := d)
      (fun ⟨m, h⟩ => hdiv ⟨m, .step (by simp [children]) h⟩) p q r s hm.1
      (fun l r h => hp l r (.step (by simp [children]) h))
    have ihr' := fun a b c d p q r s => ihr (es := a) (et := b) (est := c) (ets := d)
      (fun ⟨m, h⟩ => hdiv ⟨m, .step (by simp [children]) h⟩) p q r s hm.2.1
      (fun l r h => hp l r (.step (by simp [children]) h))
    simp only [Node.adjoint, Option.bind_eq_some_iff, Option.map_eq_some_iff] at hs ht
    obtain ⟨l1, hl1, r1, hr1, rfl⟩ := hs
    obtain ⟨l2, hl2, r2, hr2, rfl⟩ := ht
    simp only [Node.adjoint, Option.bind_eq_some_iff, Option.map_eq_some_iff] at hst hts
    obtain ⟨_, ⟨_, ⟨r2', hr2', l12, hl12, rfl⟩, _, ⟨l2', hl2', r12, hr12, rfl⟩, rfl⟩, _,
      ⟨r2'', hr2'', rfl⟩, rfl⟩ := hst
    obtain ⟨_, ⟨_, ⟨r1', hr1', l21, hl21, rfl⟩, _, ⟨l1', hl1', r21, hr21, rfl⟩, rfl⟩, _,
      ⟨r1'', hr1'', rfl⟩, rfl⟩ := hts
    cases hr2.symm.trans hr2''
    cases hr1.symm.trans hr1''
    cases hr2.symm.trans hr2'
    cases hl2.symm.trans hl2'
    cases hr1.symm.trans hr1'
    cases hl1.symm.trans hl1'
    have hl := ihl' _ _ _ _ hl1 hl2 hl12 hl21
    have hr := ihr' _ _ _ _ hr1 hr2 hr12 hr21
    obtain ⟨a1, a2⟩ := level_adjoint hl1 hm.1 hs0
    obtain ⟨b1, b2⟩ := level_adjoint hr1 hm.2.1 hs0
    obtain ⟨c1, c2⟩ := level_adjoint hl2 hm.1 ht0
    obtain ⟨d1, d2⟩ := level_adjoint hr2 hm.2.1 ht0
    have a3 := (level_adjoint hl12 a2 ht0).1
    have b3 := (level_adjoint hr12 b2 ht0).1
    have c3 := (level_adjoint hl21 c2 hs0).1
    have d3 := (level_adjoint hr21 d2 hs0).1
    simp only [den, Tensor.zip, Tensor.map, UnOp.apply, LawfulSquare.sq, a1, b1, c1, d1, a3, b3, c3, d3,
      hl, hr, bIdx]
    by_cases h1 : (den ρ l).dims = [] <;> by_cases h2 : (den ρ r).dims = [] <;>
      simp only [h1, h2, if_true, if_false, ite_self] <;> congr 1 <;> ring
  | power l r ihl ihr =>
    obtain ⟨-, p1, p2⟩ := hp l r (.refl _)
    obtain ⟨-, -, h1, h2⟩ := id hm
    have ihl' := fun a b c d p q r s => ihl (es := a) (et := b) (est := c) (ets := d)
      (fun ⟨m, h⟩ => hdiv ⟨m, .step (by simp [children]) h⟩) p q r s hm.1
      (fun l r h => hp l r (.step (by simp [children]) h))
    have ihr' := fun a b c d p q r s => ihr (es := a) (et := b) (est := c) (ets := d)
      (fun ⟨m, h⟩ => hdiv ⟨m, .step (by simp [children]) h⟩) p q r s hm.2.1
      (fun l r h => hp l r (.step (by simp [children]) h))
    simp only [Node.adjoint, Option.bind_eq_some_iff, Option.map_eq_some_iff] at hs ht
    obtain ⟨l1, hl1, r1, hr1, rfl⟩ := hs
    obtain ⟨l2, hl2, r2, hr2, rfl⟩ := ht
    simp only [Node.adjoint, Option.bind_eq_some_iff, Option.map_eq_some_iff] at hst hts
    obtain ⟨_, ⟨l2', hl2', r2', hr2', rfl⟩, _, ⟨_, ⟨r2'', hr2'', l12, hl12, rfl⟩, _,
      ⟨_, ⟨l2'', hl2'', rfl⟩, r12, hr12, rfl⟩, rfl⟩, rfl⟩ := hst
    obtain ⟨_, ⟨l1', hl1', r1', hr1', rfl⟩, _, ⟨_, ⟨r1'', hr1'', l21, hl21, rfl⟩, _,
      ⟨_, ⟨l1'', hl1'', rfl⟩, r21, hr21, rfl⟩, rfl⟩, rfl⟩ := hts
    cases hr2.symm.trans hr2''
    cases hr1.symm.trans hr1''
    cases hl2.symm.trans hl2''
    cases hl1.symm.trans hl1''
    cases hr2.symm.trans hr2'
    cases hl2.symm.trans hl2'
    cases hr1.symm.trans hr1'
    cases hl1.symm.trans hl1'
    have hl := ihl' _ _ _ _ hl1 hl2 hl12 hl21
    have hr := ihr' _ _ _ _ hr1 hr2 hr12 hr21
    obtain ⟨a1, a2⟩ := level_adjoint hl1 hm.1 hs0
    obtain ⟨b1, b2⟩ := level_adjoint hr1 hm.2.1 hs0
    obtain ⟨c1, c2⟩ := level_adjoint hl2 hm.1 ht0
    obtain ⟨d1, d2⟩ := level_adjoint hr2 hm.2.1 ht0
    have a3 := (level_adjoint hl12 a2 ht0).1
    have b3 := (level_adjoint hr12 b2 ht0).1
    have c3 := (level_adjoint hl21 c2 hs0).1
    have d3 := (level_adjoint hr21 d2 hs0).1
    simp only [den, Tensor.zip, Tensor.map, UnOp.apply, a1, b1, c1, d1, a3, b3, c3, d3,
      hl, hr, bIdx, h1, h2, if_true, ite_self, p1, Bool.false_eq_true, if_false]
    linear_combination (den ρ l1).val [] * (den ρ r2).val [] * p2 - (den ρ l2).val [] * (den ρ r1).val [] * p2
  | contract k l r ihl ihr =>
    have ihl' := fun a b c d p q r s => ihl (es := a) (et := b) (est := c) (ets := d)
      (fun ⟨m, h⟩ => hdiv ⟨m, .step (by simp [children]) h⟩) p q r s hm.1
      (fun l r h => hp l r (.step (by simp [children]) h))
    have ihr' := fun a b c d p q r s => ihr (es := a) (et := b) (est := c) (ets := d)
      (fun ⟨m, h⟩ => hdiv ⟨m, .step (by simp [children]) h⟩) p q r s hm.2
      (fun l r h => hp l r (.step (by simp [children]) h))
    simp only [Node.adjoint, Option.bind_eq_some_iff, Option.map_eq_some_iff] at hs ht
    obtain ⟨l1, hl1, r1, hr1, rfl⟩ := hs
    obtain ⟨l2, hl2, r2, hr2, rfl⟩ := ht
    simp only [Node.adjoint, Option.bind_eq_some_iff, Option.map_eq_some_iff] at hst hts
    obtain ⟨_, ⟨l2', hl2', r12, hr12, rfl⟩, _, ⟨l12, hl12, r2', hr2', rfl⟩, rfl⟩ := hst
    obtain ⟨_, ⟨l1', hl1', r21, hr21, rfl⟩, _, ⟨l21, hl21, r1', hr1', rfl⟩, rfl⟩ := hts
    cases hr2.symm.trans hr2'
    cases hl2.symm.trans hl2'
    cases hr1.symm.trans hr1'
    cases hl1.symm.trans hl1'
    have hl := ihl' _ _ _ _ hl1 hl2 hl12 hl21
    have hr := ihr' _ _ _ _ hr1 hr2 hr12 hr21
    obtain ⟨a1, a2⟩ := level_adjoint hl1 hm.1 hs0
    obtain ⟨b1, b2⟩ := level_adjoint hr1 hm.2 hs0
    obtain ⟨c1, c2⟩ := level_adjoint hl2 hm.1 ht0
    obtain ⟨d1, d2⟩ := level_adjoint hr2 hm.2 ht0
    have a3 := (level_adjoint hl12 a2 ht0).1
    have b3 := (level_adjoint hr12 b2 ht0).1
    have c3 := (level_adjoint hl21 c2 hs0).1
    have d3 := (level_adjoint hr21 d2 hs0).1
    simp only [den, Tensor.zip, Tensor.contract, a1, b1, c1, d1, a3, b3, c3, d3, hl, hr, bIdx, ite_self]
    ring
  | un op n ih =>
    have ih' := fun a b c d p q r s => ih (es := a) (et := b) (est := c) (ets := d)
      (fun ⟨m, h⟩ => hdiv ⟨m, .step (by simp [children]) h⟩) p q r s hm
      (fun l r h => hp l r (.step (by simp [children]) h))
    cases op <;> simp only [Node.adjoint, Option.map_eq_some_iff, reduceCtorEq] at hs ht
    case subOne | addOne => exact ih' _ _ _ _ hs ht hst hts ix
    all_goals
      obtain ⟨n1, hn1, rfl⟩ := hs
      obtain ⟨n2, hn2, rfl⟩ := ht
      simp only [Node.adjoint, Option.bind_eq_some_iff, Option.map_eq_some_iff, hn1, hn2, Option.map_some,
        Option.bind_some, Option.some.injEq, reduceCtorEq, false_and] at hst hts
    case gamma => obtain ⟨_, ⟨_, _, _, h⟩, _⟩ := hst; exact h.elim
    case sign => obtain ⟨_, h⟩ := hst; exact h.elim
    case logGamma => obtain ⟨_, _, _, h⟩ := hst; exact h.elim
    case cos =>
      obtain ⟨_, ⟨n12, hn12, rfl⟩, rfl⟩ := hst
      obtain ⟨_, ⟨n21, hn21, rfl⟩, rfl⟩ := hts
      have hn := ih' _ _ _ _ hn1 hn2 hn12 hn21
      obtain ⟨a1, a2⟩ := level_adjoint hn1 hm hs0
      obtain ⟨c1, c2⟩ := level_adjoint hn2 hm ht0
      simp only [den, Tensor.zip, Tensor.map, UnOp.apply, a1, c1, (level_adjoint hn12 a2 ht0).1,
        (level_adjoint hn21 c2 hs0).1, hn, bIdx, ite_self]
      split_ifs <;> ring
    case xlnx =>
      obtain ⟨n12, hn12, rfl⟩ := hst
      obtain ⟨n21, hn21, rfl⟩ := hts
      have hn := ih' _ _ _ _ hn1 hn2 hn12 hn21
      obtain ⟨a1, a2⟩ := level_adjoint hn1 hm hs0
      obtain ⟨c1, c2⟩ := level_adjoint hn2 hm ht0
      simp only [den, Tensor.zip, Tensor.map, UnOp.apply, a1, c1, (level_adjoint hn12 a2 ht0).1,
        (level_adjoint hn21 c2 hs0).1, hn, bIdx, ite_self]
      split_ifs <;> exact congrArg _ (hdiv ⟨_, .refl _⟩ _ _ _)
    case ln =>
      obtain ⟨n12, hn12, rfl⟩ := hst
      obtain ⟨n21, hn21, rfl⟩ := hts
      have hn := ih' _ _ _ _ hn1 hn2 hn12 hn21
      obtain ⟨a1, a2⟩ := level_adjoint hn1 hm hs0
      obtain ⟨c1, c2⟩ := level_adjoint hn2 hm ht0
      simp only [den, Tensor.zip, Tensor.map, UnOp.apply, a1, c1, (level_adjoint hn12 a2 ht0).1,
        (level_adjoint hn21 c2 hs0).1, hn, bIdx, ite_self]
      rw [mul_comm ((den ρ n1).val _)]
    all_goals
      obtain ⟨n12, hn12, rfl⟩ := hst
      obtain ⟨n21, hn21, rfl⟩ := hts
      have hn := ih' _ _ _ _ hn1 hn2 hn12 hn21
      obtain ⟨a1, a2⟩ := level_adjoint hn1 hm hs0
      obtain ⟨c1, c2⟩ := level_adjoint hn2 hm ht0
      simp only [den, Tensor.zip, Tensor.map, UnOp.apply, a1, c1, (level_adjoint hn12 a2 ht0).1,
        (level_adjoint hn21 c2 hs0).1, hn, bIdx, ite_self]
      try split_ifs <;> ring

variable {Γ : Id → BTy}

/-- Two buffers of the same type can be combined. -/
def ZipImpl.self : (τ : BTy) → ZipImpl τ τ τ
  | .scalar => .ss
  | .array ds => .aa ds
  | .tuple => .tt
  | .vec => .vv

/-- Two results of a combination can be combined. -/
theorem regular_self (τ : BTy) : ¬ (τ = .scalar ∧ ∃ ds, τ = .array ds ∧ 2 ≤ ds.length) := by
  rintro ⟨rfl, _, h, _⟩; cases h

theorem quotient_zip {a b c : BTy} (z : ZipImpl a b c) :
    ∃ _ : ZipImpl c b c, ¬ (c = .scalar ∧ ∃ ds, b = .array ds ∧ 2 ≤ ds.length) := by
  cases z
  case ss => exact ⟨.ss, by simp⟩
  case tt => exact ⟨.tt, by simp⟩
  case vv => exact ⟨.vv, by simp⟩
  case vs => exact ⟨.vs, by simp⟩
  case sv => exact ⟨.vv, by simp⟩
  case aa ds => exact ⟨.aa ds, by simp⟩
  case as ds => exact ⟨.as ds, by simp⟩
  case sa ds => exact ⟨.aa ds, by simp⟩

omit [CommRing F] [Div F] [ScalarFns F] in
theorem Spec.ScalarSums.child {e n : Node F} (h : ScalarSums Γ e) (hn : n ∈ children e) :
    ScalarSums Γ n := fun m σ hs d => h m σ (.step hn hs) d

omit [CommRing F] [Div F] [ScalarFns F] in
/-- The adjoint with respect to a scalar variable has the type of the expression. -/
theorem scalar_target_impl {e e' : Node F} {t : Id} (h : e.adjoint t = some e') (hf : CacheFree e)
    (hfs : FixedSize Γ e) (hrk : ∀ i, SubExpr (.var i) e → (Γ i).rank ≤ 3) (hss : ScalarSums Γ e)
    (ht : Γ t = .scalar) {τ : BTy} (d : FnImpl Γ e τ) (hr : FnImpl.Regular d) :
    ∃ d' : FnImpl Γ e' τ, FnImpl.Regular d' := by
  have cc : ∀ {a : BTy}, a ≠ .vec → Nonempty (ConcatImpl a (Γ t) a) := by
    intro a ha
    rw [ht]
    cases a with
    | scalar => exact ⟨.ss⟩
    | array ds => exact ⟨.as ds⟩
    | tuple => exact ⟨.ts⟩
    | vec => exact absurd rfl ha
  induction e generalizing e' τ with
  | var i =>
    cases h
    cases d
    obtain ⟨k⟩ := cc (hfs.1 i (by simp [Node.contains]))
    exact ⟨.varAdj i t k (hrk i (.refl _)), trivial⟩
  | varAdj i j =>
    cases h
    cases d with | varAdj _ _ k hi =>
    obtain ⟨k'⟩ := cc ((FnImpl.varAdj (F := F) i j k hi).ne_vec hfs)
    exact ⟨.constAdj (.varAdj i j k hi) t k', trivial⟩
  | const τ b =>
    cases h
    cases d
    obtain ⟨k⟩ := cc (hfs.2.1 τ b (.refl _))
    exact ⟨.constAdj (.const τ b) t k, trivial⟩
  | constSpec | constAdj => cases h
  | cached n i => exact absurd (.refl _) (hf n i)
  | add l r ihl ihr | sub l r ihl ihr | mul l r ihl ihr | div l r ihl ihr | power l r ihl ihr
  | contract k l r ihl ihr =>
    simp only [Node.adjoint, Option.bind_eq_some_iff, Option.map_eq_some_iff] at h
    obtain ⟨l', hl, r', hr', rfl⟩ := h
    have ihl' := fun τ => ihl (τ := τ) hl (hf.child (by simp [children])) (hfs.child (by simp [children]))
      (fun i h => hrk i (.step (by simp [children]) h)) (hss.child (by simp [children]))
    have ihr' := fun τ => ihr (τ := τ) hr' (hf.child (by simp [children])) (hfs.child (by simp [children]))
      (fun i h => hrk i (.step (by simp [children]) h)) (hss.child (by simp [children]))
    first
    | cases d with | add dl dr z =>
      obtain ⟨dl', hdl⟩ := ihl' _ dl hr.1
      obtain ⟨dr', hdr⟩ := ihr' _ dr hr.2
      exact ⟨.add dl' dr' z, hdl, hdr⟩
    | cases d with | sub dl dr z =>
      obtain ⟨dl', hdl⟩ := ihl' _ dl hr.1
      obtain ⟨dr', hdr⟩ := ihr' _ dr hr.2.1
      exact ⟨.sub dl' dr' z, hdl, hdr, hr.2.2⟩
    | cases d with | mul dl dr z =>
      obtain ⟨dl', hdl⟩ := ihl' _ dl hr.1
      obtain ⟨dr', hdr⟩ := ihr' _ dr hr.2
      exact ⟨.add (.mul dl' dr z) (.mul dr' dl z.symm) (.self _), ⟨hdl, hr.2⟩, hdr, hr.1⟩
    | cases d with | power dl dr =>
      obtain ⟨dl', hdl⟩ := ihl' _ dl hr.1
      obtain ⟨dr', hdr⟩ := ihr' _ dr hr.2
      exact ⟨.mul (.power dl (.un _ dr)) (.add (.mul dr dl' .ss) (.mul (.un _ dl) dr' .ss) .ss) .ss,
        ⟨hr.1, hr.2⟩, ⟨hr.2, hdl⟩, hr.1, hdr⟩
    | cases d with | contract dl dr z =>
      obtain ⟨dl', hdl⟩ := ihl' _ dl hr.1
      obtain ⟨dr', hdr⟩ := ihr' _ dr hr.2.1
      exact ⟨.add (.contract dl dr' z) (.contract dl' dr z) (.self _), ⟨hr.1, hdr, hr.2.2⟩,
        hdl, hr.2.1, hr.2.2⟩
    | cases d with | div dl dr z =>
      obtain ⟨dl', hdl⟩ := ihl' _ dl hr.1
      obtain ⟨dr', hdr⟩ := ihr' _ dr hr.2.1
      obtain ⟨z', hz'⟩ := quotient_zip z
      exact ⟨.div (.sub (.mul dr dl' z.symm) (.mul dl dr' z) (.self _)) (.un _ dr) z',
        ⟨⟨hr.2.1, hdl⟩, ⟨hr.1, hdr⟩, regular_self _⟩, hr.2.1, hz'⟩
  | sum n ih =>
    cases d with | @sum _ a d =>
    cases hss n a (.refl _) d
    exact ih h (hf.child (by simp [children])) (hfs.child (by simp [children]))
      (fun i h => hrk i (.step (by simp [children]) h)) (hss.child (by simp [children])) d hr
  | un op n ih =>
    cases d with | un _ d =>
    have ih' := fun n' h => ih (e' := n') h (hf.child (by simp [children]))
      (hfs.child (by simp [children])) (fun i h => hrk i (.step (by simp [children]) h))
      (hss.child (by simp [children])) d hr
    have hr : FnImpl.Regular d := hr
    cases op <;> simp only [Node.adjoint, Option.map_eq_some_iff, reduceCtorEq] at h
    case subOne | addOne => exact ih' _ h
    case oneSub | double | negate =>
      obtain ⟨n', hn, rfl⟩ := h
      obtain ⟨d', hd'⟩ := ih' _ hn
      exact ⟨.un _ d', hd'⟩
    case square | sign | abs | exp =>
      obtain ⟨n', hn, rfl⟩ := h
      obtain ⟨d', hd'⟩ := ih' _ hn
      exact ⟨.mul (.un _ d) d' (.self _), hr, hd'⟩
    case rabbit =>
      obtain ⟨n', hn, rfl⟩ := h
      obtain ⟨d', hd'⟩ := ih' _ hn
      exact ⟨.mul (.un _ (.un _ d)) d' (.self _), hr, hd'⟩
    case logGamma | sin =>
      obtain ⟨n', hn, rfl⟩ := h
      obtain ⟨d', hd'⟩ := ih' _ hn
      exact ⟨.mul d' (.un _ d) (.self _), hd', hr⟩
    case xlnx | sigmoid =>
      obtain ⟨n', hn, rfl⟩ := h
      obtain ⟨d', hd'⟩ := ih' _ hn
      exact ⟨.mul d' (.un _ (.un _ d)) (.self _), hd', hr⟩
    case cos =>
      obtain ⟨n', hn, rfl⟩ := h
      obtain ⟨d', hd'⟩ := ih' _ hn
      exact ⟨.un _ (.mul d' (.un _ d) (.self _)), hd', hr⟩
    case gamma =>
      obtain ⟨n', hn, rfl⟩ := h
      obtain ⟨d', hd'⟩ := ih' _ hn
      exact ⟨.mul (.mul d' (.un _ d) (.self _)) (.un _ d) (.self _), ⟨hd', hr⟩, hr⟩
    case ln =>
      obtain ⟨n', hn, rfl⟩ := h
      obtain ⟨d', hd'⟩ := ih' _ hn
      exact ⟨.div d' d (.self _), hd', hr, regular_self _⟩

omit [CommRing F] [Div F] [ScalarFns F] in
theorem regular_child {e n : Node F} {τ : BTy} {d : FnImpl Γ e τ} (h : FnImpl.Regular d)
    (hn : n ∈ children e) : ∃ (σ : BTy) (d' : FnImpl Γ n σ), FnImpl.Regular d' := by
  cases d with
  | var | varAdj | const | constSpec => simp [children] at hn
  | constAdj d | cached _ d | sum d | un _ d =>
    simp only [children, List.mem_singleton] at hn
    subst hn
    exact ⟨_, d, h⟩
  | add dl dr | sub dl dr | mul dl dr | div dl dr | power dl dr | contract dl dr =>
    simp only [children, List.mem_cons, List.not_mem_nil, or_false] at hn
    rcases hn with rfl | rfl
    · exact ⟨_, dl, h.1⟩
    · first | exact ⟨_, dr, h.2⟩ | exact ⟨_, dr, h.2.1⟩

omit [CommRing F] [Div F] [ScalarFns F] in
theorem regular_subExpr {e n : Node F} (hn : SubExpr n e) :
    ∀ {τ : BTy} {d : FnImpl Γ e τ}, FnImpl.Regular d →
      ∃ (σ : BTy) (d' : FnImpl Γ n σ), FnImpl.Regular d' := by
  induction hn with
  | refl => exact fun {τ d} h => ⟨τ, d, h⟩
  | step hc _ ih =>
    intro τ d h
    obtain ⟨σ, d', h'⟩ := regular_child h hc
    exact ih h'

/-- What evaluates satisfies the conditions on shapes. -/
theorem level_of_compat {ρ : Id → Tensor F} {e : Node F} (hf : CacheFree e) (h : Compat ρ e)
    (hs : ∀ n, SubExpr (.sum n) e → (den ρ n).dims = []) : Level ρ e := by
  induction e with
  | var | varAdj | const | constSpec | constAdj => trivial
  | cached n i => exact absurd (.refl _) (hf n i)
  | add l r ihl ihr | sub l r ihl ihr | mul l r ihl ihr | contract k l r ihl ihr =>
    exact ⟨ihl (hf.child (by simp [children])) h.1 fun n hn => hs n (.step (by simp [children]) hn),
      ihr (hf.child (by simp [children])) h.2.1 fun n hn => hs n (.step (by simp [children]) hn)⟩
  | div l r ihl ihr | power l r ihl ihr =>
    exact ⟨ihl (hf.child (by simp [children])) h.1 fun n hn => hs n (.step (by simp [children]) hn),
      ihr (hf.child (by simp [children])) h.2.1 fun n hn => hs n (.step (by simp [children]) hn),
      h.2.2⟩
  | sum n ih =>
    exact ⟨ih (hf.child (by simp [children])) h fun n hn => hs n (.step (by simp [children]) hn),
      hs n (.refl _)⟩
  | un op n ih =>
    exact ih (hf.child (by simp [children])) h fun n hn => hs n (.step (by simp [children]) hn)

omit [CommRing F] [Div F] [ScalarFns F] in
/-- Bases of powers in an adjoint are bases of powers in the expression. -/
theorem adjoint_power {e e' l r : Node F} {t : Id} (h : e.adjoint t = some e')
    (hs : SubExpr (.power l r) e') : ∃ r', SubExpr (.power l r') e := by
  cases adjoint_sub h hs with
  | old h => exact ⟨_, h⟩
  | power h => exact ⟨_, h⟩

end Aegir
