import Verif.Lemmas.Stable
import Verif.Spec.Occurs
import Verif.Spec.Instances
/-!
# C23-C25, C27: what evaluation reads and writes

No arithmetic law is used. C26 is in `C26_Caching.lean`.
-/

namespace Aegir

open Spec

variable {F : Type} {Γ : Id → BTy}

section
variable [Zero F] [One F] [Add F] [Sub F] [Mul F] [Div F] [Neg F] [ScalarFns F]

/-! ## C23: evaluation only writes caches -/

/-- An entry that is not the identifier of a `Cached` node of the expression is unchanged by all
three methods, whatever the outcome. -/
theorem C23_only_caches {e : Node F} {τ : BTy} (d : FnImpl Γ e τ) (c : Ctx F Γ) (j : Id)
    (h : ¬ ∃ n, SubExpr (.cached n j) e) :
    (d.evaluate c).2 j = c j ∧ (d.evaluateSpec c).2 j = c j ∧ (d.evaluateShape c).2 j = c j := by
  have hf := d.frame (P := CacheId e) (fun _ hi => hi)
  exact ⟨(hf.1 c j).resolve_right fun h' => h h'.2, (hf.2.1 c j).resolve_right fun h' => h h'.2,
    (hf.2.2 c j).resolve_right fun h' => h h'.2⟩

/-- A defined entry is never overwritten. -/
theorem C23_no_overwrite {e : Node F} {τ : BTy} (d : FnImpl Γ e τ) (c : Ctx F Γ) (j : Id)
    (b : Buf F (Γ j)) (h : c j = some b) :
    (d.evaluate c).2 j = some b ∧ (d.evaluateSpec c).2 j = some b ∧
      (d.evaluateShape c).2 j = some b := by
  have hf := d.frame (P := CacheId e) (fun _ hi => hi)
  have key : ∀ c' : Ctx F Γ, (c' j = c j ∨ (c j = none ∧ CacheId e j)) → c' j = some b := by
    rintro c' (h1 | h1)
    · exact h1.trans h
    · rw [h] at h1; cases h1.1
  exact ⟨key _ (hf.1 c j), key _ (hf.2.1 c j), key _ (hf.2.2 c j)⟩

/-- Without `Cached` nodes the context is unchanged. -/
theorem C23_no_caches {e : Node F} {τ : BTy} (d : FnImpl Γ e τ) (c : Ctx F Γ)
    (h : ∀ n i, ¬ SubExpr (.cached n i) e) :
    (d.evaluate c).2 = c ∧ (d.evaluateSpec c).2 = c ∧ (d.evaluateShape c).2 = c := d.ctx_eq h c

/-! ## C24: evaluation depends only on contained identifiers -/

/-- Contexts that agree on the contained identifiers give the same outcome in all three methods. -/
theorem C24_local {e : Node F} {τ : BTy} (d : FnImpl Γ e τ) (c1 c2 : Ctx F Γ)
    (h : ∀ i, e.contains i = true → c1 i = c2 i) :
    (d.evaluate c1).1 = (d.evaluate c2).1 ∧ (d.evaluateSpec c1).1 = (d.evaluateSpec c2).1 ∧
      (d.evaluateShape c1).1 = (d.evaluateShape c2).1 := by
  have hl := d.local (P := fun i => e.contains i = true) (fun _ hi => hi)
  exact ⟨(hl.1 c1 c2 h).1, (hl.2.1 c1 c2 h).1, (hl.2.2 c1 c2 h).1⟩

/-- The contained identifiers also have the same entries afterwards. -/
theorem C24_local_ctx {e : Node F} {τ : BTy} (d : FnImpl Γ e τ) (c1 c2 : Ctx F Γ)
    (h : ∀ i, e.contains i = true → c1 i = c2 i) (i : Id) (hi : e.contains i = true) :
    (d.evaluate c1).2 i = (d.evaluate c2).2 i ∧ (d.evaluateSpec c1).2 i = (d.evaluateSpec c2).2 i ∧
      (d.evaluateShape c1).2 i = (d.evaluateShape c2).2 i := by
  have hl := d.local (P := fun i => e.contains i = true) (fun _ hi => hi)
  exact ⟨(hl.1 c1 c2 h).2 i hi, (hl.2.1 c1 c2 h).2 i hi, (hl.2.2 c1 c2 h).2 i hi⟩

end

/-- `cached(x0, 5) + x1`, all scalars. -/
def exCtx : FnImpl (F := ℤ) (fun _ => .scalar) (.add (.cached (.var 0) 5) (.var 1)) .scalar :=
  .add (.cached 5 (.var 0)) (.var 1) .ss

/-- Entries 0 and 1 defined. -/
def exCtx01 (a b : ℤ) : Ctx ℤ (fun _ => .scalar) :=
  fun i => if i = 0 then some a else if i = 1 then some b else none

-- entry 5 is filled, the others are unchanged; entry 7 is irrelevant
example : (exCtx.evaluate (exCtx01 3 4)).1 = .ok 7 := rfl
example : (exCtx.evaluate (exCtx01 3 4)).2 5 = some 3 := rfl
example : (exCtx.evaluate (exCtx01 3 4)).2 1 = some 4 := rfl
example : (exCtx.evaluate ((exCtx01 3 4).write 7 9)).1 = (exCtx.evaluate (exCtx01 3 4)).1 :=
  (C24_local exCtx _ _ (by
    intro i hi
    have : i ≠ 7 := by rintro rfl; cases hi
    simp [Ctx.write, this])).1

/-! ## C25: contains is occurrence -/

/-- `contains` decides occurrence. -/
theorem C25_contains_iff (e : Node F) (x : Id) : e.contains x = true ↔ Occurs e x := by
  constructor
  · intro h
    have two : ∀ {e l r : Node F}, children e = [l, r] →
        (l.contains x = true → Occurs l x) → (r.contains x = true → Occurs r x) →
        (l.contains x || r.contains x) = true → Occurs e x := by
      intro e l r hc hl hr h
      rcases Bool.or_eq_true_iff.1 h with h | h
      · exact .child (by rw [hc]; simp) (hl h)
      · exact .child (by rw [hc]; simp) (hr h)
    induction e with
    | var i => rw [Node.contains, beq_iff_eq] at h; subst h; exact .var _
    | varAdj i t =>
      simp only [Node.contains, Bool.or_eq_true, beq_iff_eq] at h
      rcases h with rfl | rfl
      · exact .varAdjValue _ _
      · exact .varAdjTarget _ _
    | const τ b => cases h
    | constSpec τ s => cases h
    | constAdj n t ih =>
      simp only [Node.contains, Bool.or_eq_true, beq_iff_eq] at h
      rcases h with h | rfl
      · exact .child (by simp [children]) (ih h)
      · exact .constAdjTarget _ _
    | cached n i ih =>
      simp only [Node.contains, Bool.or_eq_true, beq_iff_eq] at h
      rcases h with rfl | h
      · exact .cacheId _ _
      · exact .child (by simp [children]) (ih h)
    | add l r ihl ihr => exact two rfl ihl ihr h
    | sub l r ihl ihr => exact two rfl ihl ihr h
    | mul l r ihl ihr => exact two rfl ihl ihr h
    | div l r ihl ihr => exact two rfl ihl ihr h
    | power l r ihl ihr => exact two rfl ihl ihr h
    | contract a l r ihl ihr => exact two rfl ihl ihr h
    | sum n ih => exact .child (by simp [children]) (ih h)
    | un op n ih => exact .child (by simp [children]) (ih h)
  · intro h
    induction h with
    | var i => simp [Node.contains]
    | varAdjValue => simp [Node.contains]
    | varAdjTarget => simp [Node.contains]
    | constAdjTarget => simp [Node.contains]
    | cacheId => simp [Node.contains]
    | @child e e' x hc h ih =>
      cases e <;> simp only [children, List.mem_cons, List.not_mem_nil, or_false] at hc
      case constAdj => subst hc; simp [Node.contains, ih]
      case cached => subst hc; simp [Node.contains, ih]
      case sum => subst hc; simp [Node.contains, ih]
      case un => subst hc; simp [Node.contains, ih]
      all_goals rcases hc with rfl | rfl <;> simp [Node.contains, ih]

/-- The identifiers of an adjoint are those of the expression and the target. -/
theorem C25_adjoint (e e' : Node F) (t x : Id) (h : e.adjoint t = some e') :
    e'.contains x = true ↔ e.contains x = true ∨ x = t := by
  induction e generalizing e' with
  | var i =>
    cases h
    simp only [Node.contains, Bool.or_eq_true, beq_iff_eq]
    rw [eq_comm (a := t)]
  | varAdj i j =>
    cases h
    simp only [Node.contains, Bool.or_eq_true, beq_iff_eq]
    rw [eq_comm (a := t)]
  | const τ b =>
    cases h
    simp only [Node.contains, Bool.or_eq_true, beq_iff_eq]
    rw [eq_comm (a := t)]
  | constSpec τ s => cases h
  | constAdj n j ih => cases h
  | cached n i ih =>
    simp only [Node.adjoint] at h
    split at h
    · next hti =>
      subst hti
      rw [ih e' h]
      simp only [Node.contains, Bool.or_eq_true, beq_iff_eq]
      tauto
    · cases h
  | add l r ihl ihr | sub l r ihl ihr | mul l r ihl ihr | div l r ihl ihr | power l r ihl ihr
    | contract a l r ihl ihr =>
    simp only [Node.adjoint, Option.bind_eq_some_iff, Option.map_eq_some_iff] at h
    obtain ⟨l', hl, r', hr, rfl⟩ := h
    simp only [Node.contains, Bool.or_eq_true, ihl l' hl, ihr r' hr]
    tauto
  | sum n ih => exact ih e' h
  | un op n ih =>
    cases op <;> simp only [Node.adjoint, Option.map_eq_some_iff, reduceCtorEq] at h
    case subOne => exact ih e' h
    case addOne => exact ih e' h
    all_goals
      obtain ⟨n', hn, rfl⟩ := h
      simp only [Node.contains, Bool.or_eq_true, ih n' hn]
      try tauto

/-- In particular the target always occurs, and nothing else is invented or lost. -/
theorem C25_adjoint_occurs (e e' : Node F) (t : Id) (h : e.adjoint t = some e') :
    Occurs e' t ∧ ∀ x, x ≠ t → (Occurs e' x ↔ Occurs e x) := by
  refine ⟨(C25_contains_iff e' t).1 ((C25_adjoint e e' t t h).2 (.inr rfl)), fun x hx => ?_⟩
  rw [← C25_contains_iff, ← C25_contains_iff, C25_adjoint e e' t x h]
  exact or_iff_left hx

example : (Node.mul (.var 1) (.un .exp (.var 2)) : Node ℤ).adjoint 1 =
    some (.add (.mul (.varAdj 1 1) (.un .exp (.var 2)))
      (.mul (.mul (.un .exp (.var 2)) (.varAdj 2 1)) (.var 1))) := rfl
example : (Node.mul (.var 1) (.un .exp (.var 2)) : Node ℤ).contains 2 = true := rfl

/-! ## C27: Cached memoises -/

section
variable [Zero F] [One F] [Add F] [Sub F] [Mul F] [Div F] [Neg F] [ScalarFns F]

/-- A filled entry is returned as it is, by all three methods; the inner node `d` and the rest of
the context are irrelevant. -/
theorem C27_hit {n : Node F} (i : Id) (d : FnImpl Γ n (Γ i)) (c : Ctx F Γ) (v : Buf F (Γ i))
    (h : c i = some v) :
    (FnImpl.cached i d).evaluate c = (.ok v, c) ∧
    (∃ s, (FnImpl.cached i d).evaluateSpec c = (.ok s, c) ∧ s.unwrap = v) ∧
    (FnImpl.cached i d).evaluateShape c = (.ok (Buf.shape _ v), c) := by
  have h1 : (FnImpl.cached i d).evaluate c = (.ok v, c) := by
    simp [FnImpl.evaluate, FnImpl.fn, h]
  exact ⟨h1, ⟨.raw v, (EvalM.map_ok_iff (FnImpl.cached i d).fn.evaluate _ _ _ _).2 ⟨v, h1, rfl⟩, rfl⟩,
    (EvalM.map_ok_iff (FnImpl.cached i d).fn.evaluate _ _ _ _).2 ⟨v, h1, rfl⟩⟩

/-- On an empty entry the inner node is evaluated once; a value is stored in the entry and nowhere
else. -/
theorem C27_miss {n : Node F} (i : Id) (d : FnImpl Γ n (Γ i)) (c c' : Ctx F Γ) (v : Buf F (Γ i))
    (h : c i = none) (hd : d.evaluate c = (.ok v, c')) :
    ∃ c'', (FnImpl.cached i d).evaluate c = (.ok v, c'') ∧ c'' i = some v ∧
      ∀ j, j ≠ i → c'' j = c' j := by
  have hd : d.fn.evaluate c = (.ok v, c') := hd
  refine ⟨c'.write i v, ?_, by simp [Ctx.write], fun j hj => by simp [Ctx.write, hj]⟩
  simp [FnImpl.evaluate, FnImpl.fn, h, hd]

/-- A failure of the inner node is passed on and stores nothing beyond what the inner node itself
stored. -/
theorem C27_failure {n : Node F} (i : Id) (d : FnImpl Γ n (Γ i)) (c c' : Ctx F Γ) (h : c i = none) :
    (∀ g, d.evaluate c = (.err g, c') → (FnImpl.cached i d).evaluate c = (.err g, c')) ∧
    (d.evaluate c = (.panic, c') → (FnImpl.cached i d).evaluate c = (.panic, c')) := by
  constructor
  · intro g hd
    have hd : d.fn.evaluate c = (.err g, c') := hd
    simp [FnImpl.evaluate, FnImpl.fn, h, hd]
  · intro hd
    have hd : d.fn.evaluate c = (.panic, c') := hd
    simp [FnImpl.evaluate, FnImpl.fn, h, hd]

/-- In particular the entry stays empty after a failure, unless the inner node has a cache of the
same name. -/
theorem C27_failure_entry {n : Node F} (i : Id) (d : FnImpl Γ n (Γ i)) (c : Ctx F Γ)
    (h : c i = none) (hn : ¬ ∃ m, SubExpr (.cached m i) n)
    (hf : ∀ v c', (FnImpl.cached i d).evaluate c ≠ (.ok v, c')) :
    ((FnImpl.cached i d).evaluate c).2 i = none := by
  match hd : d.evaluate c with
  | (.ok v, c') =>
    obtain ⟨c'', h1, _⟩ := C27_miss i d c c' v h hd
    exact absurd h1 (hf _ _)
  | (.err g, c') =>
    rw [(C27_failure i d c c' h).1 g hd]
    have := (C23_only_caches d c i hn).1
    rw [hd] at this
    exact this.trans h
  | (.panic, c') =>
    rw [(C27_failure i d c c' h).2 hd]
    have := (C23_only_caches d c i hn).1
    rw [hd] at this
    exact this.trans h

/-- A step that does not assign entry `i` keeps a defined entry `i`. -/
theorem C27_step_keeps {W : Id → Prop} {c c' : Ctx F Γ} (h : Step W c c') (i : Id) (hW : ¬ W i)
    (v : Buf F (Γ i)) (hi : c i = some v) : c' i = some v := by
  cases h with
  | evaluate d => exact (C23_no_overwrite d c i v hi).1
  | evaluateSpec d => exact (C23_no_overwrite d c i v hi).2.1
  | evaluateShape d => exact (C23_no_overwrite d c i v hi).2.2
  | assign j hj hk =>
    have : i ≠ j := by rintro rfl; exact hW hj
    exact (hk i this).trans hi

/-- After a success of a `Cached` node every later evaluation of it returns that value, after any
history of evaluations of arbitrary expressions and of writes to (or clearing of) other entries -
in particular of the inputs of the inner node. -/
theorem C27_first_value_wins {n : Node F} (i : Id) (d : FnImpl Γ n (Γ i)) (c c' c'' : Ctx F Γ)
    (v : Buf F (Γ i)) (h : (FnImpl.cached i d).evaluate c = (.ok v, c'))
    (hs : Steps (fun j => j ≠ i) c' c'') :
    (FnImpl.cached i d).evaluate c'' = (.ok v, c'') := by
  have h1 : c' i = some v := by
    match hc : c i with
    | some w =>
      have h2 := (C27_hit i d c w hc).1
      rw [h] at h2; cases h2; exact hc
    | none =>
      match hd : d.evaluate c with
      | (.ok w, c1) =>
        obtain ⟨c2, h2, h3, _⟩ := C27_miss i d c c1 w hc hd
        rw [h] at h2; cases h2; exact h3
      | (.err g, c1) => have h2 := (C27_failure i d c c1 hc).1 g hd; rw [h] at h2; cases h2
      | (.panic, c1) => have h2 := (C27_failure i d c c1 hc).2 hd; rw [h] at h2; cases h2
  have h2 : c'' i = some v := by
    induction hs with
    | refl => exact h1
    | tail _ hst ih => exact C27_step_keeps hst i (fun h => h rfl) v ih
  exact (C27_hit i d c'' v h2).1

/-- Re-evaluating any expression in the context it left behind returns the same value and changes
nothing, for all three methods. -/
theorem C27_idempotent {e : Node F} {τ : BTy} (d : FnImpl Γ e τ) (c c' : Ctx F Γ) :
    (∀ v, d.evaluate c = (.ok v, c') → d.evaluate c' = (.ok v, c')) ∧
    (∀ s, d.evaluateSpec c = (.ok s, c') → d.evaluateSpec c' = (.ok s, c')) ∧
    (∀ s, d.evaluateShape c = (.ok s, c') → d.evaluateShape c' = (.ok s, c')) :=
  ⟨fun _ h => d.stable.1 _ _ _ h _ (.refl _), fun _ h => d.stable.2.1 _ _ _ h _ (.refl _),
    fun _ h => d.stable.2.2 _ _ _ h _ (.refl _)⟩

/-- Later evaluations of *other* expressions do not disturb it either. -/
theorem C27_repeatable {e : Node F} {τ : BTy} (d : FnImpl Γ e τ) (c c' c'' : Ctx F Γ) (v : Buf F τ)
    (h : d.evaluate c = (.ok v, c')) (hs : Steps (fun _ => False) c' c'') :
    d.evaluate c'' = (.ok v, c'') := by
  refine d.stable.1 c v c' h c'' (fun j hj => ?_)
  obtain ⟨b, hb⟩ := Option.ne_none_iff_exists'.1 hj
  rw [hb]
  clear h hj
  induction hs with
  | refl => exact hb
  | tail _ hst ih => exact C27_step_keeps hst j (fun h => h) b ih

end

-- the cached value 3 survives a change of its input
example : ((FnImpl.cached (F := ℤ) (Γ := fun _ => .scalar) 5 (.var 0)).evaluate
    (((FnImpl.cached (F := ℤ) (Γ := fun _ => .scalar) 5 (.var 0)).evaluate (exCtx01 3 4)).2.write 0
      (100 : ℤ))).1 = .ok 3 := rfl
example : Steps (F := ℤ) (Γ := fun _ => .scalar) (fun j => j ≠ 5) (exCtx01 3 4)
    ((exCtx01 3 4).write 0 (100 : ℤ)) :=
  .single (.assign 0 (by decide) (fun k hk => by simp [Ctx.write, hk]))

end Aegir
