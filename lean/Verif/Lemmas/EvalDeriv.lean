import Verif.Lemmas.CalculusEval
/-!
# Evaluating an adjoint gives the derivative of what the expression evaluates to
-/

namespace Aegir

open Spec

section
variable {F : Type} {Γ : Id → BTy}

/-- The adjoint of an operator contains the adjoints of its operands. -/
theorem adjoint_child {e e' : Node F} {t : Id} (h : e.adjoint t = some e') {n : Node F}
    (hn : n ∈ children e) : ∃ n', n.adjoint t = some n' ∧ SubExpr n' e' := by
  cases e with
  | var | varAdj | const | constSpec => simp [children] at hn
  | constAdj => cases h
  | cached m i =>
    simp only [children, List.mem_singleton] at hn
    subst hn
    simp only [Node.adjoint] at h
    split at h
    · exact ⟨e', h, .refl _⟩
    · cases h
  | sum m =>
    simp only [children, List.mem_singleton] at hn
    subst hn
    exact ⟨e', h, .refl _⟩
  | un op m =>
    simp only [children, List.mem_singleton] at hn
    subst hn
    cases op <;> simp only [Node.adjoint, Option.map_eq_some_iff, reduceCtorEq] at h
    all_goals first
      | exact ⟨_, h, .refl _⟩
      | (obtain ⟨n', hn, rfl⟩ := h
         exact ⟨n', hn, by simp [SubExpr.refl]⟩)
  | add l r | sub l r | mul l r | div l r | power l r | contract k l r =>
    simp only [children, List.mem_cons, List.not_mem_nil, or_false] at hn
    simp only [Node.adjoint, Option.bind_eq_some_iff, Option.map_eq_some_iff] at h
    obtain ⟨l', hl, r', hr, rfl⟩ := h
    rcases hn with rfl | rfl
    · exact ⟨l', hl, by simp [SubExpr.refl]⟩
    · exact ⟨r', hr, by simp [SubExpr.refl]⟩

theorem adjoint_subExpr {e e' : Node F} {t : Id} (h : e.adjoint t = some e') {n : Node F}
    (hn : SubExpr n e) : ∃ n', n.adjoint t = some n' ∧ SubExpr n' e' := by
  induction hn generalizing e' with
  | refl => exact ⟨e', h, .refl _⟩
  | @step e₁ e₂ hc _ ih =>
    obtain ⟨m', hm, hs⟩ := adjoint_child h hc
    obtain ⟨n', hn, hs'⟩ := ih hm
    exact ⟨n', hn, hs'.trans hs⟩

theorem FnImpl.child {e n : Node F} {τ : BTy} (d : FnImpl Γ e τ) (hn : n ∈ children e) :
    ∃ σ, Nonempty (FnImpl Γ n σ) := by
  cases d with
  | var | varAdj | const | constSpec => simp [children] at hn
  | constAdj d t k =>
    simp only [children, List.mem_singleton] at hn; subst hn; exact ⟨_, ⟨d⟩⟩
  | cached i d => simp only [children, List.mem_singleton] at hn; subst hn; exact ⟨_, ⟨d⟩⟩
  | sum d => simp only [children, List.mem_singleton] at hn; subst hn; exact ⟨_, ⟨d⟩⟩
  | un op d => simp only [children, List.mem_singleton] at hn; subst hn; exact ⟨_, ⟨d⟩⟩
  | add dl dr _ | sub dl dr _ | mul dl dr _ | div dl dr _ | power dl dr | contract dl dr _ =>
    simp only [children, List.mem_cons, List.not_mem_nil, or_false] at hn
    rcases hn with rfl | rfl
    · exact ⟨_, ⟨dl⟩⟩
    · exact ⟨_, ⟨dr⟩⟩

theorem FnImpl.subExpr {e n : Node F} {τ : BTy} (d : FnImpl Γ e τ) (hn : SubExpr n e) :
    ∃ σ, Nonempty (FnImpl Γ n σ) := by
  induction hn generalizing τ with
  | refl => exact ⟨_, ⟨d⟩⟩
  | @step e₁ e₂ hc _ ih =>
    obtain ⟨σ, ⟨d'⟩⟩ := d.child hc
    exact ih d'

theorem ConcatImpl.ne_vec {a b c : BTy} (k : ConcatImpl a b c) : a ≠ .vec ∧ b ≠ .vec := by
  cases k <;> simp

/-- An expression whose adjoint implements `Function` has no `Vec` in it. -/
theorem fixedSize_of_adjoint {e e' : Node F} {t : Id} (h : e.adjoint t = some e') (hf : CacheFree e)
    {τ σ : BTy} (d : FnImpl Γ e τ) (da : FnImpl Γ e' σ) : FixedSize Γ e ∧ Γ t ≠ .vec := by
  have hva : ∀ i j, SubExpr (.varAdj i j) e → Γ i ≠ .vec ∧ Γ j ≠ .vec := by
    intro i j hs
    obtain ⟨σ, ⟨d'⟩⟩ := d.subExpr hs
    cases d' with | varAdj _ _ k _ => exact k.ne_vec
  have hvar : ∀ i, SubExpr (.var i) e → Γ i ≠ .vec ∧ Γ t ≠ .vec := by
    intro i hs
    obtain ⟨n', hn, hs'⟩ := adjoint_subExpr h hs
    cases hn
    obtain ⟨σ, ⟨d'⟩⟩ := da.subExpr hs'
    cases d' with | varAdj _ _ k _ => exact k.ne_vec
  have hconst : ∀ τ b, SubExpr (.const τ b) e → τ ≠ .vec ∧ Γ t ≠ .vec := by
    intro τ b hs
    obtain ⟨n', hn, hs'⟩ := adjoint_subExpr h hs
    cases hn
    obtain ⟨σ, ⟨d'⟩⟩ := da.subExpr hs'
    cases d' with
    | constAdj d' _ k =>
      cases d'
      exact k.ne_vec
  refine ⟨⟨fun i hi => ?_, fun τ b hs => (hconst τ b hs).1, fun τ b hs => ?_⟩, ?_⟩
  · rcases needs_of_contains hf hi with hs | ⟨j, hs⟩ | ⟨j, hs⟩ | ⟨n, hs⟩
    · exact (hvar i hs).1
    · exact (hva _ _ hs).1
    · exact (hva _ _ hs).2
    · obtain ⟨n', hn, -⟩ := adjoint_subExpr h hs
      cases hn
  · obtain ⟨n', hn, -⟩ := adjoint_subExpr h hs
    cases hn
  · have leaf : ∀ {m : Node F}, SubExpr m e → Γ t ≠ .vec := by
      intro m
      induction m with
      | var i => exact fun hs => (hvar i hs).2
      | varAdj i j =>
        intro hs
        obtain ⟨n', hn, hs'⟩ := adjoint_subExpr h hs
        cases hn
        obtain ⟨σ, ⟨d'⟩⟩ := da.subExpr hs'
        cases d' with | constAdj _ _ k => exact k.ne_vec.2
      | const τ b => exact fun hs => (hconst τ b hs).2
      | constSpec | constAdj =>
        intro hs
        obtain ⟨n', hn, -⟩ := adjoint_subExpr h hs
        cases hn
      | cached n i ih | sum n ih | un op n ih =>
        exact fun hs => ih (SubExpr.trans (.step (by simp [children]) (.refl _)) hs)
      | add l r ih _ | sub l r ih _ | mul l r ih _ | div l r ih _ | power l r ih _
      | contract k l r ih _ =>
        exact fun hs => ih (SubExpr.trans (.step (by simp [children]) (.refl _)) hs)
    exact leaf (.refl e)

/-! ## Scalar expressions -/

theorem Spec.AllScalar.child {e n : Node F} (h : AllScalar Γ e) (hn : n ∈ children e) :
    AllScalar Γ n := by
  refine ⟨fun i hi => h.1 i ?_, fun τ b hs => h.2.1 τ b (hs.trans (.step hn (.refl _))),
    fun τ b hs => h.2.2 τ b (hs.trans (.step hn (.refl _)))⟩
  cases e <;> simp only [children, List.mem_cons, List.not_mem_nil, or_false] at hn
  case constAdj | cached | sum | un => subst hn; simp [Node.contains, hi]
  all_goals rcases hn with rfl | rfl <;> simp [Node.contains, hi]

theorem Spec.AllScalar.regular [CommRing F] {e : Node F} (h : AllScalar Γ e) {τ : BTy}
    (d : FnImpl Γ e τ) : τ = .scalar ∧ FnImpl.Regular d := by
  induction d with
  | var i => exact ⟨h.1 i (by simp [Node.contains]), trivial⟩
  | varAdj i t k _ =>
    have h1 := h.1 i (by simp [Node.contains])
    have h2 := h.1 t (by simp [Node.contains])
    rw [h1, h2] at k
    exact ⟨k.scalar_right, trivial⟩
  | const τ b => exact ⟨h.2.1 τ b (.refl _), trivial⟩
  | constSpec τ b => exact ⟨h.2.2 τ b (.refl _), trivial⟩
  | constAdj d t k ih =>
    obtain ⟨rfl, hr⟩ := ih (h.child (by simp [children]))
    have h2 := h.1 t (by simp [Node.contains])
    rw [h2] at k
    exact ⟨k.scalar_right, hr⟩
  | cached i d ih =>
    obtain ⟨hi, hr⟩ := ih (h.child (by simp [children]))
    exact ⟨hi, hr⟩
  | add dl dr z ihl ihr | mul dl dr z ihl ihr =>
    obtain ⟨rfl, hl⟩ := ihl (h.child (by simp [children]))
    obtain ⟨rfl, hr⟩ := ihr (h.child (by simp [children]))
    exact ⟨z.self_out, hl, hr⟩
  | sub dl dr z ihl ihr | div dl dr z ihl ihr =>
    obtain ⟨rfl, hl⟩ := ihl (h.child (by simp [children]))
    obtain ⟨rfl, hr⟩ := ihr (h.child (by simp [children]))
    refine ⟨z.self_out, hl, hr, ?_⟩
    rintro ⟨_, ds, hd, _⟩
    cases hd
  | power dl dr ihl ihr =>
    obtain ⟨-, hl⟩ := ihl (h.child (by simp [children]))
    obtain ⟨-, hr⟩ := ihr (h.child (by simp [children]))
    exact ⟨rfl, hl, hr⟩
  | contract dl dr z ihl ihr =>
    obtain ⟨rfl, hl⟩ := ihl (h.child (by simp [children]))
    obtain ⟨rfl, hr⟩ := ihr (h.child (by simp [children]))
    refine ⟨by cases z <;> rfl, hl, hr, ?_, ?_⟩ <;> intro n m _ h1 <;> cases h1
  | sum d ih => exact ⟨rfl, (ih (h.child (by simp [children]))).2⟩
  | un op d ih => exact ih (h.child (by simp [children]))

theorem Spec.AllScalar.adjoint {e e' : Node F} {t : Id} (h : e.adjoint t = some e')
    (hf : CacheFree e) (hs : AllScalar Γ e) (ht : Γ t = .scalar) : AllScalar Γ e' := by
  refine ⟨fun i hi => ?_, fun τ b hsub => ?_, fun τ b hsub => ?_⟩
  · rcases adjoint_needs h (needs_of_contains (adjoint_cacheFree h hf) hi) with h | rfl
    · exact hs.1 i (contains_of_needs h)
    · exact ht
  · cases adjoint_sub h hsub with | old h => exact hs.2.1 τ b h
  · cases adjoint_sub h hsub with | old h => exact hs.2.2 τ b h

theorem scalar_impl {e : Node F} (h : AllScalar Γ e)
    (hk : ∀ k l r, SubExpr (.contract k l r) e → k = 0 ∨ k = 1) :
    Nonempty (FnImpl Γ e .scalar) := by
  have up : ∀ {n e : Node F}, n ∈ children e →
      (∀ k l r, SubExpr (.contract k l r) e → k = 0 ∨ k = 1) →
      ∀ k l r, SubExpr (.contract k l r) n → k = 0 ∨ k = 1 :=
    fun hn hk k l r hs => hk k l r (.step hn hs)
  induction e with
  | var i =>
    have := h.1 i (by simp [Node.contains])
    exact this ▸ ⟨FnImpl.var (Γ := Γ) i⟩
  | varAdj i t =>
    have h1 := h.1 i (by simp [Node.contains])
    have h2 := h.1 t (by simp [Node.contains])
    exact ⟨.varAdj i t (by rw [h1, h2]; exact .ss) (by rw [h1]; exact Nat.zero_le _)⟩
  | const τ b => obtain rfl := h.2.1 τ b (.refl _); exact ⟨.const _ b⟩
  | constSpec τ b => obtain rfl := h.2.2 τ b (.refl _); exact ⟨.constSpec _ b⟩
  | constAdj n t ih =>
    obtain ⟨d⟩ := ih (h.child (by simp [children])) (up (by simp [children]) hk)
    have h2 := h.1 t (by simp [Node.contains])
    exact ⟨.constAdj d t (by rw [h2]; exact .ss)⟩
  | cached n i ih =>
    obtain ⟨d⟩ := ih (h.child (by simp [children])) (up (by simp [children]) hk)
    have h2 := h.1 i (by simp [Node.contains])
    rw [← h2] at d
    have d' := FnImpl.cached i d
    rw [h2] at d'
    exact ⟨d'⟩
  | sum n ih =>
    obtain ⟨d⟩ := ih (h.child (by simp [children])) (up (by simp [children]) hk)
    exact ⟨.sum d⟩
  | un op n ih =>
    obtain ⟨d⟩ := ih (h.child (by simp [children])) (up (by simp [children]) hk)
    exact ⟨.un op d⟩
  | add l r ihl ihr =>
    obtain ⟨dl⟩ := ihl (h.child (by simp [children])) (up (by simp [children]) hk)
    obtain ⟨dr⟩ := ihr (h.child (by simp [children])) (up (by simp [children]) hk)
    exact ⟨.add dl dr .ss⟩
  | sub l r ihl ihr =>
    obtain ⟨dl⟩ := ihl (h.child (by simp [children])) (up (by simp [children]) hk)
    obtain ⟨dr⟩ := ihr (h.child (by simp [children])) (up (by simp [children]) hk)
    exact ⟨.sub dl dr .ss⟩
  | mul l r ihl ihr =>
    obtain ⟨dl⟩ := ihl (h.child (by simp [children])) (up (by simp [children]) hk)
    obtain ⟨dr⟩ := ihr (h.child (by simp [children])) (up (by simp [children]) hk)
    exact ⟨.mul dl dr .ss⟩
  | div l r ihl ihr =>
    obtain ⟨dl⟩ := ihl (h.child (by simp [children])) (up (by simp [children]) hk)
    obtain ⟨dr⟩ := ihr (h.child (by simp [children])) (up (by simp [children]) hk)
    exact ⟨.div dl dr .ss⟩
  | power l r ihl ihr =>
    obtain ⟨dl⟩ := ihl (h.child (by simp [children])) (up (by simp [children]) hk)
    obtain ⟨dr⟩ := ihr (h.child (by simp [children])) (up (by simp [children]) hk)
    exact ⟨.power dl dr⟩
  | contract k l r ihl ihr =>
    obtain ⟨dl⟩ := ihl (h.child (by simp [children])) (up (by simp [children]) hk)
    obtain ⟨dr⟩ := ihr (h.child (by simp [children])) (up (by simp [children]) hk)
    rcases hk k l r (.refl _) with rfl | rfl
    · exact ⟨.contract dl dr .ss0⟩
    · exact ⟨.contract dl dr .ss1⟩

/-- Scalar expressions always have an evaluable adjoint. -/
theorem scalar_adjoint_impl {e e' : Node F} {t : Id} (h : e.adjoint t = some e')
    (hf : CacheFree e) (hs : AllScalar Γ e) (ht : Γ t = .scalar) {τ : BTy} (d : FnImpl Γ e τ) :
    Nonempty (FnImpl Γ e' .scalar) := by
  have hk : ∀ k l r, SubExpr (.contract k l r) e → k = 0 ∨ k = 1 := by
    intro k l r hsub
    obtain ⟨σ, ⟨d'⟩⟩ := d.subExpr hsub
    cases d' with | contract _ _ z => cases z <;> simp
  refine scalar_impl (AllScalar.adjoint h hf hs ht) fun k l r hsub => ?_
  cases adjoint_sub h hsub with
  | old h => exact hk k l r h
  | contract h _ _ => exact hk _ _ _ h

/-! ## Gradients with respect to vectors -/

theorem Spec.VectorModel.child {n : Nat} {e m : Node F} (h : VectorModel Γ n e)
    (hm : m ∈ children e) : VectorModel Γ n m := by
  have up : ∀ {s : Node F}, SubExpr s m → SubExpr s e := fun hs => .step hm hs
  exact ⟨fun i hs => h.1 i (up hs), fun τ b hs => h.2.1 τ b (up hs),
    fun i j hs => h.2.2 i j (up hs)⟩

set_option linter.unnecessarySeqFocus false in
/-- The expression is a scalar and its adjoint a vector, or the expression is a vector and its
adjoint a square matrix. -/
theorem adjoint_regular_vec [CommRing F] {e e' : Node F} {t : Id} {n : Nat}
    (h : e.adjoint t = some e') (ht : Γ t = .array [n]) (hf : CacheFree e) (hs : SumFree e)
    (hv : VectorModel Γ n e) {τ σ : BTy} (d : FnImpl Γ e τ) (da : FnImpl Γ e' σ) :
    (τ = .scalar ∧ σ = .array [n] ∨ τ = .array [n] ∧ σ = .array [n, n]) ∧ FnImpl.Regular d ∧
      FnImpl.Regular da := by
  induction e generalizing e' τ σ with
  | var i =>
    cases h
    cases d with | var =>
    cases da with | varAdj _ _ k _ =>
    refine ⟨?_, trivial, trivial⟩
    rw [ht] at k
    rcases hv.1 i (.refl _) with hi | hi <;> rw [hi] at k ⊢ <;> cases k <;> simp
  | varAdj i j => exact absurd (.refl _) (hv.2.2 i j)
  | const σ b =>
    cases h
    cases d with | const =>
    cases da with
    | constAdj d' _ k =>
      cases d' with | const =>
      refine ⟨?_, trivial, trivial⟩
      rw [ht] at k
      rcases hv.2.1 _ b (.refl _) with hi | hi <;> subst hi <;> cases k <;> simp
  | constSpec | constAdj => cases h
  | cached m i ih => exact absurd (.refl _) (hf m i)
  | sum m ih => exact absurd (.refl _) (hs m)
  | add l r ihl ihr =>
    simp only [Node.adjoint, Option.bind_eq_some_iff, Option.map_eq_some_iff] at h
    obtain ⟨l', hl, r', hr', rfl⟩ := h
    cases d with | add dl dr z =>
    cases da with | add dl' dr' z' =>
    obtain ⟨p1, q1, r1⟩ := ihl hl (hf.child (by simp [children])) (hs.child (by simp [children]))
      (hv.child (by simp [children])) dl dl'
    obtain ⟨p2, q2, r2⟩ := ihr hr' (hf.child (by simp [children])) (hs.child (by simp [children]))
      (hv.child (by simp [children])) dr dr'
    rcases p1 with ⟨rfl, rfl⟩ | ⟨rfl, rfl⟩ <;> rcases p2 with ⟨rfl, rfl⟩ | ⟨rfl, rfl⟩ <;>
      cases z <;> cases z' <;>
      simp only [Aegir.Spec.FnImpl.Regular, q1, q2, r1, r2] <;> simp
  | sub l r ihl ihr =>
    simp only [Node.adjoint, Option.bind_eq_some_iff, Option.map_eq_some_iff] at h
    obtain ⟨l', hl, r', hr', rfl⟩ := h
    cases d with | sub dl dr z =>
    cases da with | sub dl' dr' z' =>
    obtain ⟨p1, q1, r1⟩ := ihl hl (hf.child (by simp [children])) (hs.child (by simp [children]))
      (hv.child (by simp [children])) dl dl'
    obtain ⟨p2, q2, r2⟩ := ihr hr' (hf.child (by simp [children])) (hs.child (by simp [children]))
      (hv.child (by simp [children])) dr dr'
    rcases p1 with ⟨rfl, rfl⟩ | ⟨rfl, rfl⟩ <;> rcases p2 with ⟨rfl, rfl⟩ | ⟨rfl, rfl⟩ <;>
      cases z <;> cases z' <;>
      simp only [Aegir.Spec.FnImpl.Regular, q1, q2, r1, r2] <;> simp
  | mul l r ihl ihr =>
    simp only [Node.adjoint, Option.bind_eq_some_iff, Option.map_eq_some_iff] at h
    obtain ⟨l', hl, r', hr', rfl⟩ := h
    cases d with | mul dl dr z =>
    cases da with | add d1 d2 z' =>
    cases d1 with | mul d3 d4 z1 =>
    cases d2 with | mul d5 d6 z2 =>
    obtain rfl := dl.type_unique d6
    obtain rfl := dr.type_unique d4
    obtain ⟨p1, q1, r1⟩ := ihl hl (hf.child (by simp [children])) (hs.child (by simp [children]))
      (hv.child (by simp [children])) dl d3
    obtain ⟨p2, q2, r2⟩ := ihr hr' (hf.child (by simp [children])) (hs.child (by simp [children]))
      (hv.child (by simp [children])) dr d5
    refine ⟨?_, ⟨q1, q2⟩, ⟨r1, q2.transfer _⟩, r2, q1.transfer _⟩
    rcases p1 with ⟨rfl, rfl⟩ | ⟨rfl, rfl⟩ <;> rcases p2 with ⟨rfl, rfl⟩ | ⟨rfl, rfl⟩ <;>
      cases z <;> cases z1 <;> cases z2 <;> cases z' <;> simp
  | div l r ihl ihr =>
    simp only [Node.adjoint, Option.bind_eq_some_iff, Option.map_eq_some_iff] at h
    obtain ⟨l', hl, r', hr', rfl⟩ := h
    cases d with | div dl dr z =>
    cases da with | div d1 d2 z' =>
    cases d2 with | un _ d7 =>
    cases d1 with | sub d1 d2 z'' =>
    cases d1 with | mul d3 d4 z1 =>
    cases d2 with | mul d5 d6 z2 =>
    obtain rfl := dl.type_unique d5
    obtain rfl := dr.type_unique d3
    obtain rfl := dr.type_unique d7
    obtain ⟨p1, q1, r1⟩ := ihl hl (hf.child (by simp [children])) (hs.child (by simp [children]))
      (hv.child (by simp [children])) dl d4
    obtain ⟨p2, q2, r2⟩ := ihr hr' (hf.child (by simp [children])) (hs.child (by simp [children]))
      (hv.child (by simp [children])) dr d6
    have q3 := q2.transfer d7
    have q4 := q2.transfer d3
    have q5 := q1.transfer d5
    rcases p1 with ⟨rfl, rfl⟩ | ⟨rfl, rfl⟩ <;> rcases p2 with ⟨rfl, rfl⟩ | ⟨rfl, rfl⟩ <;>
      cases z <;> cases z1 <;> cases z2 <;> cases z'' <;> cases z' <;>
      simp only [Aegir.Spec.FnImpl.Regular, q1, q2, r1, r2, q3, q4, q5] <;> simp
  | power l r ihl ihr =>
    simp only [Node.adjoint, Option.bind_eq_some_iff, Option.map_eq_some_iff] at h
    obtain ⟨l', hl, r', hr', rfl⟩ := h
    cases d with | power dl dr =>
    cases da with | mul d1 d2 z =>
    cases d1 with | power d3 d4 =>
    cases d4 with | un _ d4 =>
    cases d2 with | add d5 d6 z1 =>
    cases d5 with | mul d7 d8 z2 =>
    cases d6 with | mul d9 d10 z3 =>
    cases d9 with | un _ d9 =>
    obtain rfl := dl.type_unique d9
    obtain rfl := dr.type_unique d7
    obtain ⟨p1, q1, r1⟩ := ihl hl (hf.child (by simp [children])) (hs.child (by simp [children]))
      (hv.child (by simp [children])) dl d8
    obtain ⟨p2, q2, r2⟩ := ihr hr' (hf.child (by simp [children])) (hs.child (by simp [children]))
      (hv.child (by simp [children])) dr d10
    refine ⟨?_, ⟨q1, q2⟩, ⟨q1.transfer _, q2.transfer _⟩, ⟨q2.transfer _, r1⟩,
      q1.transfer _, r2⟩
    rcases p1 with ⟨-, rfl⟩ | ⟨h1, -⟩
    · rcases p2 with ⟨-, rfl⟩ | ⟨h2, -⟩
      · cases z2; cases z3; cases z1; cases z; simp
      · cases h2
    · cases h1
  | contract k l r ihl ihr =>
    simp only [Node.adjoint, Option.bind_eq_some_iff, Option.map_eq_some_iff] at h
    obtain ⟨l', hl, r', hr', rfl⟩ := h
    cases d with | contract dl dr z =>
    cases da with | add d1 d2 z' =>
    cases d1 with | contract d3 d4 z1 =>
    cases d2 with | contract d5 d6 z2 =>
    obtain rfl := dl.type_unique d3
    obtain rfl := dr.type_unique d6
    obtain ⟨p1, q1, r1⟩ := ihl hl (hf.child (by simp [children])) (hs.child (by simp [children]))
      (hv.child (by simp [children])) dl d5
    obtain ⟨p2, q2, r2⟩ := ihr hr' (hf.child (by simp [children])) (hs.child (by simp [children]))
      (hv.child (by simp [children])) dr d4
    have q3 := q1.transfer d3
    have q4 := q2.transfer d6
    rcases p1 with ⟨rfl, rfl⟩ | ⟨rfl, rfl⟩ <;> rcases p2 with ⟨rfl, rfl⟩ | ⟨rfl, rfl⟩ <;>
      cases z <;> cases z1 <;> cases z2 <;> cases z' <;>
      simp only [Aegir.Spec.FnImpl.Regular, q1, q2, r1, r2, q3, q4] <;> simp
  | un op m ih =>
    cases d with | un _ d =>
    have ih := fun {n'} {σ} hn (da : FnImpl Γ n' σ) =>
      ih (e' := n') (σ := σ) hn (hf.child (by simp [children])) (hs.child (by simp [children]))
        (hv.child (by simp [children])) d da
    cases op <;> simp only [Node.adjoint, Option.map_eq_some_iff, reduceCtorEq] at h
    case subOne | addOne => exact ih h da
    case oneSub | negate | double =>
      obtain ⟨n', hn, rfl⟩ := h
      cases da with | un _ da => exact ih hn da
    case square | sign | abs | exp =>
      obtain ⟨n', hn, rfl⟩ := h
      cases da with | mul d1 d2 z =>
      cases d1 with | un _ d1 =>
      obtain ⟨p1, q1, r1⟩ := ih hn d2
      obtain rfl := d.type_unique d1
      refine ⟨?_, q1, q1.transfer d1, r1⟩
      rcases p1 with ⟨rfl, rfl⟩ | ⟨rfl, rfl⟩ <;> cases z <;> simp
    case rabbit =>
      obtain ⟨n', hn, rfl⟩ := h
      cases da with | mul d1 d2 z =>
      cases d1 with | un _ d1 =>
      cases d1 with | un _ d1 =>
      obtain ⟨p1, q1, r1⟩ := ih hn d2
      obtain rfl := d.type_unique d1
      refine ⟨?_, q1, q1.transfer d1, r1⟩
      rcases p1 with ⟨rfl, rfl⟩ | ⟨rfl, rfl⟩ <;> cases z <;> simp
    case logGamma | sin =>
      obtain ⟨n', hn, rfl⟩ := h
      cases da with | mul d1 d2 z =>
      cases d2 with | un _ d2 =>
      obtain ⟨p1, q1, r1⟩ := ih hn d1
      obtain rfl := d.type_unique d2
      refine ⟨?_, q1, r1, q1.transfer d2⟩
      rcases p1 with ⟨rfl, rfl⟩ | ⟨rfl, rfl⟩ <;> cases z <;> simp
    case xlnx | sigmoid =>
      obtain ⟨n', hn, rfl⟩ := h
      cases da with | mul d1 d2 z =>
      cases d2 with | un _ d2 =>
      cases d2 with | un _ d2 =>
      obtain ⟨p1, q1, r1⟩ := ih hn d1
      obtain rfl := d.type_unique d2
      refine ⟨?_, q1, r1, q1.transfer d2⟩
      rcases p1 with ⟨rfl, rfl⟩ | ⟨rfl, rfl⟩ <;> cases z <;> simp
    case ln =>
      obtain ⟨n', hn, rfl⟩ := h
      cases da with | div d1 d2 z =>
      obtain ⟨p1, q1, r1⟩ := ih hn d1
      obtain rfl := d.type_unique d2
      have q2 := q1.transfer d2
      rcases p1 with ⟨rfl, rfl⟩ | ⟨rfl, rfl⟩ <;> cases z <;>
        simp only [Aegir.Spec.FnImpl.Regular, q1, q2, r1] <;> simp
    case gamma =>
      obtain ⟨n', hn, rfl⟩ := h
      cases da with | mul d1 d2 z =>
      cases d2 with | un _ d2 =>
      cases d1 with | mul d3 d4 z' =>
      cases d4 with | un _ d4 =>
      obtain ⟨p1, q1, r1⟩ := ih hn d3
      obtain rfl := d.type_unique d2
      obtain rfl := d.type_unique d4
      refine ⟨?_, q1, ⟨r1, q1.transfer d4⟩, q1.transfer d2⟩
      rcases p1 with ⟨rfl, rfl⟩ | ⟨rfl, rfl⟩ <;> cases z' <;> cases z <;> simp
    case cos =>
      obtain ⟨n', hn, rfl⟩ := h
      cases da with | un _ d1 =>
      cases d1 with | mul d3 d4 z' =>
      cases d4 with | un _ d4 =>
      obtain ⟨p1, q1, r1⟩ := ih hn d3
      obtain rfl := d.type_unique d4
      refine ⟨?_, q1, r1, q1.transfer d4⟩
      rcases p1 with ⟨rfl, rfl⟩ | ⟨rfl, rfl⟩ <;> cases z' <;> simp

/-! ## Third adjoints -/

theorem no_constAdj {e e' : Node F} {t : Id} (h : e.adjoint t = some e') {n : Node F} {i : Id} :
    ¬ SubExpr (.constAdj n i) e := by
  intro hs
  obtain ⟨n', hn, -⟩ := adjoint_subExpr h hs
  cases hn

/-- Some leaf of a differentiable expression is a variable, a variable's adjoint or a constant. -/
theorem exists_leaf {e e' : Node F} {t : Id} (h : e.adjoint t = some e') :
    (∃ i, SubExpr (.var i) e) ∨ (∃ i j, SubExpr (.varAdj i j) e) ∨ ∃ τ b, SubExpr (.const τ b) e := by
  have up : ∀ {n e : Node F}, n ∈ children e →
      ((∃ i, SubExpr (.var i) n) ∨ (∃ i j, SubExpr (.varAdj i j) n) ∨
        ∃ τ b, SubExpr (.const τ b) n) →
      ((∃ i, SubExpr (.var i) e) ∨ (∃ i j, SubExpr (.varAdj i j) e) ∨
        ∃ τ b, SubExpr (.const τ b) e) := by
    rintro n e hn (⟨i, h⟩ | ⟨i, j, h⟩ | ⟨τ, b, h⟩)
    · exact .inl ⟨i, .step hn h⟩
    · exact .inr (.inl ⟨i, j, .step hn h⟩)
    · exact .inr (.inr ⟨τ, b, .step hn h⟩)
  induction e generalizing e' with
  | var i => exact .inl ⟨i, .refl _⟩
  | varAdj i j => exact .inr (.inl ⟨i, j, .refl _⟩)
  | const τ b => exact .inr (.inr ⟨τ, b, .refl _⟩)
  | constSpec | constAdj => cases h
  | cached n i ih | sum n ih | un op n ih =>
    obtain ⟨n', hn, -⟩ := adjoint_child h (n := n) (by simp [children])
    exact up (by simp [children]) (ih hn)
  | add l r ih _ | sub l r ih _ | mul l r ih _ | div l r ih _ | power l r ih _
  | contract k l r ih _ =>
    obtain ⟨n', hn, -⟩ := adjoint_child h (n := l) (by simp [children])
    exact up (by simp [children]) (ih hn)

/-- Nothing can be differentiated three times. -/
theorem no_third_adjoint {e e₁ e₂ : Node F} {t u w : Id} (h₁ : e.adjoint t = some e₁)
    (h₂ : e₁.adjoint u = some e₂) : e₂.adjoint w = none := by
  have key : ∀ {n : Node F} {i : Id}, SubExpr (.constAdj n i) e₂ → e₂.adjoint w = none := by
    intro n i hs
    cases h₃ : e₂.adjoint w with
    | none => rfl
    | some e₃ => exact absurd hs (no_constAdj h₃)
  rcases exists_leaf h₂ with ⟨i, hs⟩ | ⟨i, j, hs⟩ | ⟨τ, b, hs⟩
  · rcases exists_leaf h₁ with ⟨i, hs⟩ | ⟨i, j, hs⟩ | ⟨τ, b, hs⟩
    · obtain ⟨n, hn, hs⟩ := adjoint_subExpr h₁ hs
      cases hn
      obtain ⟨n, hn, hs⟩ := adjoint_subExpr h₂ hs
      cases hn
      exact key hs
    · obtain ⟨n, hn, hs⟩ := adjoint_subExpr h₁ hs
      cases hn
      exact absurd hs (no_constAdj h₂)
    · obtain ⟨n, hn, hs⟩ := adjoint_subExpr h₁ hs
      cases hn
      exact absurd hs (no_constAdj h₂)
  · obtain ⟨n, hn, hs⟩ := adjoint_subExpr h₂ hs
    cases hn
    exact key hs
  · obtain ⟨n, hn, hs⟩ := adjoint_subExpr h₂ hs
    cases hn
    exact key hs

/-! ## Changing one entry of a variable -/

section
variable [CommRing F]

theorem shape_setEntry {τ : BTy} (b : Buf F τ) (k : Idx) (s : F) :
    Buf.shape τ (setEntry b k s) = Buf.shape τ b := Buf.shape_build _ _ _

theorem dims_setEntry {τ : BTy} (b : Buf F τ) (k : Idx) (s : F) :
    Buf.dims τ (setEntry b k s) = Buf.dims τ b := Buf.dims_build _ _ _

theorem getU_setEntry {τ : BTy} (b : Buf F τ) (k : Idx) (s : F) {ix : Idx}
    (h : InBounds (Buf.dims τ b) ix) : Buf.getU τ (setEntry b k s) ix =
      some (if ix = k then s else (Buf.getU τ b ix).getD 0) :=
  Buf.getU_build τ (Buf.shape τ b) _ ix h

theorem setEntry_self {τ : BTy} (b : Buf F τ) (k : Idx) :
    setEntry b k ((Buf.getU τ b k).getD 0) = b := by
  refine Buf.ext τ _ _ (shape_setEntry b k _) fun ix h => ?_
  have h : InBounds (Buf.dims τ b) ix := by rwa [← dims_setEntry b k] 
  rw [getU_setEntry b k _ h]
  obtain ⟨v, hv⟩ := Buf.getU_some τ b ix h
  split
  · subst_vars; rw [hv]; rfl
  · rw [hv]; rfl

theorem setEntry_setEntry {τ : BTy} (b : Buf F τ) (k : Idx) (s s' : F) :
    setEntry (setEntry b k s) k s' = setEntry b k s' := by
  refine Buf.ext τ _ _ (by rw [shape_setEntry, shape_setEntry, shape_setEntry]) fun ix h => ?_
  rw [dims_setEntry] at h
  rw [getU_setEntry _ k _ h]
  rw [dims_setEntry] at h
  rw [getU_setEntry _ k _ h, getU_setEntry _ k _ h]
  by_cases hk : ix = k <;> simp [hk]

omit [CommRing F] in
theorem Ctx.write_write (c : Ctx F Γ) (i : Id) (v w : Buf F (Γ i)) :
    (c.write i v).write i w = c.write i w := by
  funext j
  unfold Ctx.write
  split <;> rfl

omit [CommRing F] in
theorem Ctx.write_self (c : Ctx F Γ) (i : Id) (v : Buf F (Γ i)) : (c.write i v) i = some v := by
  simp [Ctx.write]

/-- Changing an entry in the context changes that entry of the tensors of the context. -/
theorem envOf_write (c : Ctx F Γ) {t : Id} {b : Buf F (Γ t)} (hb : c t = some b) {k : Idx}
    (hk : InBounds (Buf.dims _ b) k) (s : F) :
    envOf (c.write t (setEntry b k s)) = perturb (envOf c) t k s := by
  funext i
  unfold perturb
  split
  · subst i
    have h1 : envOf (c.write t (setEntry b k s)) t = .ofBuf (setEntry b k s) := by
      simp only [envOf, Ctx.write_self]
    have h2 : envOf c t = .ofBuf b := by simp only [envOf, hb]
    rw [h1, h2]
    unfold Tensor.ofBuf
    rw [dims_setEntry]
    congr 1
    funext ix
    by_cases hix : InBounds (Buf.dims _ b) ix
    · rw [getU_setEntry b k s hix]; rfl
    · have hne : ix ≠ k := fun h => hix (h ▸ hk)
      have h3 : Buf.getU _ b ix = none := by
        by_contra h
        exact hix ((Buf.getU_isSome_iff _ _ _).1 (Option.isSome_iff_ne_none.2 h))
      have h4 : Buf.getU _ (setEntry b k s) ix = none := by
        by_contra h
        have := (Buf.getU_isSome_iff _ _ _).1 (Option.isSome_iff_ne_none.2 h)
        rw [dims_setEntry] at this
        exact hix this
      rw [if_neg hne, h4]
      simp only [h3]
  · rename_i hne
    simp only [envOf, Ctx.write]
    rw [dif_neg (by simpa using hne)]

end

end

/-! ## The derivative of an evaluation -/

section
variable {Γ : Id → BTy} {e e' : Node ℝ} {t : Id} {τ σ : BTy}

theorem dims_scalar (ht : τ = .scalar) (b : Buf ℝ τ) : Buf.dims τ b = [] := by subst ht; rfl

theorem dims_array {ds : Dims} (ht : τ = .array ds) (b : Buf ℝ τ) : Buf.dims τ b = ds := by
  subst ht; rfl

theorem real_fromUsize (n : ℕ) : (ScalarFns.fromUsize n : Option ℝ) ≠ none := by
  simp [ScalarFns.fromUsize]

/-- An expression with an evaluable adjoint evaluates, and so does the adjoint. -/
theorem eval_total (h : e.adjoint t = some e') (hf : CacheFree e) (d : FnImpl Γ e τ)
    (da : FnImpl Γ e' σ) (hr : FnImpl.Regular d) (hra : FnImpl.Regular da) (c : Ctx ℝ Γ)
    (hc : ∀ i, NeedsId e i → c i ≠ none) (ht : c t ≠ none) :
    (∃ v, (d.evaluate c).1 = .ok v) ∧ ∃ a, (da.evaluate c).1 = .ok a := by
  obtain ⟨hfs, htv⟩ := fixedSize_of_adjoint h hf d da
  obtain ⟨v, c', hv⟩ := (d.total real_fromUsize hfs hr.inRange (P := NeedsId e)
    (fun _ hi => hi)).1 c hc
  obtain ⟨a, c'', ha⟩ := (da.total real_fromUsize (adjoint_fixedSize h hf hfs htv) hra.inRange
    (P := fun i => NeedsId e i ∨ i = t) (fun _ hi => adjoint_needs h hi)).1 c (by
      rintro i (hi | rfl)
      · exact hc i hi
      · exact ht)
  exact ⟨⟨v, congrArg Prod.fst hv⟩, a, congrArg Prod.fst ha⟩

theorem compat_of_eval {c : Ctx ℝ Γ} (hf : CacheFree e) (d : FnImpl Γ e τ)
    (hr : FnImpl.Regular d) {v : Buf ℝ τ} (hv : (d.evaluate c).1 = .ok v) :
    Compat (envOf c) e := by
  have he : d.evaluate = d.fn.evaluateSpec.map BSpec.unwrap := d.evaluate_eq
  rw [he] at hv
  obtain ⟨s, hs, rfl⟩ := (Res.map_ok_iff _ _ _).1 hv
  exact (((d.compat_spec hf hr).1 c (describes_envOf c)).2 s hs).2

theorem den_of_eval {c : Ctx ℝ Γ} (hf : CacheFree e) (d : FnImpl Γ e τ)
    (hr : FnImpl.Regular d) (hp : PowSafe (envOf c) e) {v : Buf ℝ τ}
    (hv : (d.evaluate c).1 = .ok v) : IsTensor v (den (envOf c) e) := by
  have he : d.evaluate = d.fn.evaluateSpec.map BSpec.unwrap := d.evaluate_eq
  rw [he] at hv
  obtain ⟨s, hs, rfl⟩ := (Res.map_ok_iff _ _ _).1 hv
  exact ((d.den_spec (fun n i hs => absurd hs (hf n i)) hp hr).1 c (describes_envOf c)).2 s hs

theorem ctx_write_needs {c : Ctx ℝ Γ} (hc : ∀ i, NeedsId e i → c i ≠ none) (b : Buf ℝ (Γ t)) :
    ∀ i, NeedsId e i → (c.write t b) i ≠ none := by
  intro i hi
  by_cases hit : i = t
  · subst hit; simp [Ctx.write_self]
  · simp only [Ctx.write]
    rw [dif_neg (by simpa using hit)]
    exact hc i hi

theorem along_eq_den (h : e.adjoint t = some e') (hf : CacheFree e) (d : FnImpl Γ e τ)
    (da : FnImpl Γ e' σ) (hr : FnImpl.Regular d) (hra : FnImpl.Regular da) (c : Ctx ℝ Γ)
    (hc : ∀ i, NeedsId e i → c i ≠ none) {b : Buf ℝ (Γ t)} (hb : c t = some b) {K : Idx}
    (hK : InBounds (Buf.dims _ b) K) {s : ℝ} (hp : PowSafe (perturb (envOf c) t K s) e) {ix : Idx}
    (hix : InBounds (den (envOf c) e).dims ix) :
    along d c t b K ix s = (den (perturb (envOf c) t K s) e).val ix := by
  rw [← envOf_write c hb hK s] at hp ⊢
  obtain ⟨⟨v', hv'⟩, -⟩ := eval_total h hf d da hr hra (c.write t (setEntry b K s))
    (ctx_write_needs hc _) (by simp [Ctx.write_self])
  have ht' := den_of_eval hf d hr hp hv'
  have hi' : InBounds (den (envOf (c.write t (setEntry b K s))) e).dims ix := by
    rw [envOf_write c hb hK s, den_perturb_dims]; exact hix
  simp only [along, hv']
  rw [ht'.2 ix hi']
  rfl

open Topology Filter in
theorem eval_deriv (h : e.adjoint t = some e') (hf : CacheFree e) (d : FnImpl Γ e τ)
    (da : FnImpl Γ e' σ) (hr : FnImpl.Regular d) (hra : FnImpl.Regular da) (c : Ctx ℝ Γ)
    (hc : ∀ i, NeedsId e i → c i ≠ none) {b : Buf ℝ (Γ t)} (hb : c t = some b)
    (hs : Smooth (envOf c) t e) {v : Buf ℝ τ} {a : Buf ℝ σ} (hv : (d.evaluate c).1 = .ok v)
    (ha : (da.evaluate c).1 = .ok a) {K : Idx} (hK : InBounds (Buf.dims _ b) K) :
    Buf.dims σ a = Buf.dims τ v ++ Buf.dims _ b ∧ ∀ ix, InBounds (Buf.dims τ v) ix →
      ∃ g x, Buf.getU σ a (ix ++ K) = some g ∧ Buf.getU _ b K = some x ∧
        HasDerivAt (along d c t b K ix) g x := by
  have hcv := compat_of_eval hf d hr hv
  have hca := compat_of_eval (adjoint_cacheFree h hf) da hra ha
  have hdv := den_of_eval hf d hr (powSafe_of_smooth hs) hv
  have hda := den_of_eval (adjoint_cacheFree h hf) da hra (powSafe_adjoint h hs) ha
  have hbt : envOf c t = .ofBuf b := by simp only [envOf, hb]
  have hbd : (envOf c t).dims = Buf.dims _ b := by rw [hbt]; rfl
  have hK' : InBounds (envOf c t).dims K := by rw [hbd]; exact hK
  obtain ⟨h1, h2⟩ := den_deriv h hcv hca hs hK'
  refine ⟨by rw [hda.1, h1, hdv.1, hbd], fun ix hix => ?_⟩
  have hix' : InBounds (den (envOf c) e).dims ix := by rw [← hdv.1]; exact hix
  obtain ⟨x, hx⟩ := Buf.getU_some _ b K hK
  have hxv : (envOf c t).val K = x := by rw [hbt]; simp only [Tensor.ofBuf, hx]; rfl
  refine ⟨(den (envOf c) e').val (ix ++ K), x, hda.2 _ ?_, hx, ?_⟩
  · rw [h1]; exact inBounds_append.2 ⟨_, _, hix', hK', rfl⟩
  · have hd := h2 ix hix'
    rw [hxv] at hd
    refine hd.congr_of_eventuallyEq ?_
    have hev := smooth_eventually h hcv hca hs hK'
    rw [hxv] at hev
    filter_upwards [hev] with s hs'
    exact along_eq_den h hf d da hr hra c hc hb hK (powSafe_of_smooth hs') hix'

open Topology Filter in
/-- The adjoint of the adjoint evaluates to second derivatives. -/
theorem eval_deriv2 {e₁ e₂ : Node ℝ} {σ₁ σ₂ : BTy} (h₁ : e.adjoint t = some e₁)
    (h₂ : e₁.adjoint t = some e₂) (hf : CacheFree e) (d : FnImpl Γ e τ) (d₁ : FnImpl Γ e₁ σ₁)
    (d₂ : FnImpl Γ e₂ σ₂) (hr : FnImpl.Regular d) (hr₁ : FnImpl.Regular d₁)
    (hr₂ : FnImpl.Regular d₂) (c : Ctx ℝ Γ) (hc : ∀ i, NeedsId e i → c i ≠ none)
    {b : Buf ℝ (Γ t)} (hb : c t = some b) (hs : Smooth (envOf c) t e)
    (hs₁ : Smooth (envOf c) t e₁) {v : Buf ℝ τ} {a : Buf ℝ σ₂} (hv : (d.evaluate c).1 = .ok v)
    (ha : (d₂.evaluate c).1 = .ok a) {K₁ K₂ : Idx} (hK₁ : InBounds (Buf.dims _ b) K₁)
    (hK₂ : InBounds (Buf.dims _ b) K₂) :
    Buf.dims σ₂ a = Buf.dims τ v ++ Buf.dims _ b ++ Buf.dims _ b ∧
      ∀ ix, InBounds (Buf.dims τ v) ix →
        ∃ g x, Buf.getU σ₂ a (ix ++ K₁ ++ K₂) = some g ∧ Buf.getU _ b K₂ = some x ∧
          HasDerivAt (fun s => deriv (along d (c.write t (setEntry b K₂ s)) t (setEntry b K₂ s) K₁ ix)
            ((Buf.getU _ (setEntry b K₂ s) K₁).getD 0)) g x := by
  have hf₁ := adjoint_cacheFree h₁ hf
  have hc₁ : ∀ {c : Ctx ℝ Γ}, (∀ i, NeedsId e i → c i ≠ none) → c t ≠ none →
      ∀ i, NeedsId e₁ i → c i ≠ none := by
    intro c hc ht i hi
    rcases adjoint_needs h₁ hi with h | rfl
    · exact hc i h
    · exact ht
  have htn : c t ≠ none := by simp [hb]
  obtain ⟨-, v₁, hv₁⟩ := eval_total h₁ hf d d₁ hr hr₁ c hc htn
  obtain ⟨hd₁, -⟩ := eval_deriv h₁ hf d d₁ hr hr₁ c hc hb hs hv hv₁ hK₁
  obtain ⟨hd₂, hder⟩ := eval_deriv h₂ hf₁ d₁ d₂ hr₁ hr₂ c (hc₁ hc htn) hb hs₁ hv₁ ha hK₂
  refine ⟨by rw [hd₂, hd₁], fun ix hix => ?_⟩
  obtain ⟨g, x, hg, hx, hdx⟩ := hder (ix ++ K₁) (by
    rw [hd₁]; exact inBounds_append.2 ⟨_, _, hix, hK₁, rfl⟩)
  refine ⟨g, x, hg, hx, hdx.congr_of_eventuallyEq ?_⟩
  have hbt : envOf c t = .ofBuf b := by simp only [envOf, hb]
  have hK' : InBounds (envOf c t).dims K₂ := by rw [hbt]; exact hK₂
  have hev := smooth_eventually h₁ (compat_of_eval hf d hr hv) (compat_of_eval hf₁ d₁ hr₁ hv₁) hs hK'
  have hxv : (envOf c t).val K₂ = x := by rw [hbt]; simp only [Tensor.ofBuf, hx]; rfl
  rw [hxv] at hev
  have hvd := (den_of_eval hf d hr (powSafe_of_smooth hs) hv).1
  filter_upwards [hev] with s hs'
  rw [← envOf_write c hb hK₂ s] at hs'
  have hc' := ctx_write_needs hc (setEntry b K₂ s)
  have ht' : (c.write t (setEntry b K₂ s)) t = some (setEntry b K₂ s) := Ctx.write_self _ _ _
  obtain ⟨⟨v', hv'⟩, a', ha'⟩ := eval_total h₁ hf d d₁ hr hr₁ (c.write t (setEntry b K₂ s)) hc'
    (by rw [ht']; simp)
  have hvd' := (den_of_eval hf d hr (powSafe_of_smooth hs') hv').1
  rw [envOf_write c hb hK₂ s, den_perturb_dims, ← hvd] at hvd'
  obtain ⟨-, hder'⟩ := eval_deriv h₁ hf d d₁ hr hr₁ (c.write t (setEntry b K₂ s)) hc' ht' hs' hv' ha'
    (K := K₁) (by rw [dims_setEntry]; exact hK₁)
  obtain ⟨g', x', hg', hx', hdx'⟩ := hder' ix (by rw [hvd']; exact hix)
  rw [hx']
  simp only [Option.getD_some]
  rw [hdx'.deriv]
  simp only [along, ha', hg', Option.getD_some]

end

end Aegir
