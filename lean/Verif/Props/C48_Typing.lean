import Verif.Spec.Typing
import Verif.Spec.Instances
import Verif.Lemmas.Types
import Verif.Lemmas.Resolve
/-!
# C48: types of expressions
-/

namespace Aegir

open Spec

private theorem zip_iff (a b c : BTy) : Nonempty (ZipImpl a b c) ↔ zipTy a b = some c := by
  constructor
  · rintro ⟨z⟩
    cases z <;> simp [zipTy]
  · intro h
    unfold zipTy at h
    split_ifs at h with h1 h2 h3
    · cases h
      subst h1
      cases a
      exacts [⟨.ss⟩, ⟨.aa _⟩, ⟨.tt⟩, ⟨.vv⟩]
    · obtain ⟨rfl, h2⟩ := h2
      cases h
      cases b
      exacts [⟨.ss⟩, ⟨.sa _⟩, (h2 rfl).elim, ⟨.sv⟩]
    · obtain ⟨rfl, h3⟩ := h3
      cases h
      cases a
      exacts [⟨.ss⟩, ⟨.as _⟩, (h3 rfl).elim, ⟨.vs⟩]

private theorem contract_iff (k : Nat) (a b c : BTy) :
    Nonempty (ContractImpl k a b c) ↔ contractTy k a b = some c := by
  constructor
  · rintro ⟨z⟩
    cases z <;> simp [contractTy]
  · intro h
    unfold contractTy at h
    split at h
    · split_ifs at h with hk
      cases h
      obtain rfl | rfl : k = 0 ∨ k = 1 := by omega
      exacts [⟨.ss0⟩, ⟨.ss1⟩]
    · rename_i ds
      split_ifs at h with hk
      cases h
      obtain ⟨rfl, h1, h2⟩ := hk
      match ds, h1, h2 with
      | [n], _, _ => exact ⟨.vs0 n⟩
      | [n, m], _, _ => exact ⟨.ms0 n m⟩
      | _ :: _ :: _ :: _, _, h2 => simp at h2
    · rename_i ds
      split_ifs at h with hk
      cases h
      obtain ⟨rfl, h1, h2⟩ := hk
      match ds, h1, h2 with
      | [n], _, _ => exact ⟨.sv0 n⟩
      | [n, m], _, _ => exact ⟨.sm0 n m⟩
      | _ :: _ :: _ :: _, _, h2 => simp at h2
    · cases h; exact ⟨.vv0 _ _⟩
    all_goals
      first
        | (split_ifs at h with he; cases h; subst he
           first | exact ⟨.dot _⟩ | exact ⟨.mv _ _⟩ | exact ⟨.mm _ _ _⟩ | exact ⟨.vm _ _⟩)
        | cases h

private theorem concat_iff (a b c : BTy) : Nonempty (ConcatImpl a b c) ↔ derivTy a b = some c := by
  constructor
  · rintro ⟨z⟩
    cases z <;> simp_all [derivTy]
  · intro h
    cases a <;> cases b <;> simp only [derivTy] at h <;> (try split_ifs at h with hl) <;>
      (try cases h)
    exacts [⟨.ss⟩, ⟨.sa _⟩, ⟨.st⟩, ⟨.as _⟩, ⟨.aa _ _ hl⟩, ⟨.at _ hl⟩, ⟨.ts⟩, ⟨.ta _ hl⟩]

private theorem small_iff (a : BTy) : a.rank ≤ 3 ↔ smallTy a = true := by
  cases a <;> simp [BTy.rank, smallTy]

variable {F : Type} {Γ : Id → BTy}

/-- An expression can be evaluated exactly if it has a type by the rules of `typeOf`, and its values
have that type. -/
theorem C48_type (e : Node F) (τ : BTy) : Nonempty (FnImpl Γ e τ) ↔ typeOf Γ e = some τ := by
  induction e generalizing τ with
  | var i =>
    constructor
    · rintro ⟨d⟩; cases d; rfl
    · intro h; cases h; exact ⟨.var i⟩
  | varAdj i t =>
    rw [typeOf]
    constructor
    · rintro ⟨d⟩
      cases d with
      | varAdj _ _ k h => rw [if_pos ((small_iff _).1 h)]; exact (concat_iff _ _ _).1 ⟨k⟩
    · intro h
      split_ifs at h with hs
      obtain ⟨k⟩ := (concat_iff _ _ _).2 h
      exact ⟨.varAdj i t k ((small_iff _).2 hs)⟩
  | const σ b =>
    constructor
    · rintro ⟨d⟩; cases d; rfl
    · intro h; cases h; exact ⟨.const σ b⟩
  | constSpec σ s =>
    constructor
    · rintro ⟨d⟩; cases d; rfl
    · intro h; cases h; exact ⟨.constSpec σ s⟩
  | constAdj n t ih =>
    rw [typeOf, Option.bind_eq_some_iff]
    constructor
    · rintro ⟨d⟩
      cases d with
      | constAdj d _ k => exact ⟨_, (ih _).1 ⟨d⟩, (concat_iff _ _ _).1 ⟨k⟩⟩
    · rintro ⟨a, ha, hk⟩
      obtain ⟨d⟩ := (ih a).2 ha
      obtain ⟨k⟩ := (concat_iff _ _ _).2 hk
      exact ⟨.constAdj d t k⟩
  | cached n i ih =>
    rw [typeOf]
    constructor
    · rintro ⟨d⟩
      cases d with
      | cached _ d => rw [if_pos ((ih _).1 ⟨d⟩)]
    · intro h
      split_ifs at h with hi
      cases h
      obtain ⟨d⟩ := (ih _).2 hi
      exact ⟨.cached i d⟩
  | add l r ihl ihr | sub l r ihl ihr | mul l r ihl ihr | div l r ihl ihr =>
    simp only [typeOf, Option.bind_eq_some_iff]
    constructor
    · rintro ⟨d⟩
      cases d
      rename_i dl dr z
      exact ⟨_, (ihl _).1 ⟨dl⟩, _, (ihr _).1 ⟨dr⟩, (zip_iff _ _ _).1 ⟨z⟩⟩
    · rintro ⟨a, ha, b, hb, hz⟩
      obtain ⟨dl⟩ := (ihl a).2 ha
      obtain ⟨dr⟩ := (ihr b).2 hb
      obtain ⟨z⟩ := (zip_iff _ _ _).2 hz
      exact ⟨by constructor <;> assumption⟩
  | power l r ihl ihr =>
    rw [typeOf]
    constructor
    · rintro ⟨d⟩
      cases d with
      | power dl dr => rw [if_pos ⟨(ihl _).1 ⟨dl⟩, (ihr _).1 ⟨dr⟩⟩]
    · intro h
      split_ifs at h with hi
      cases h
      obtain ⟨dl⟩ := (ihl _).2 hi.1
      obtain ⟨dr⟩ := (ihr _).2 hi.2
      exact ⟨.power dl dr⟩
  | contract k l r ihl ihr =>
    simp only [typeOf, Option.bind_eq_some_iff]
    constructor
    · rintro ⟨d⟩
      cases d
      rename_i dl dr z
      exact ⟨_, (ihl _).1 ⟨dl⟩, _, (ihr _).1 ⟨dr⟩, (contract_iff _ _ _ _).1 ⟨z⟩⟩
    · rintro ⟨a, ha, b, hb, hz⟩
      obtain ⟨dl⟩ := (ihl a).2 ha
      obtain ⟨dr⟩ := (ihr b).2 hb
      obtain ⟨z⟩ := (contract_iff _ _ _ _).2 hz
      exact ⟨.contract dl dr z⟩
  | sum n ih =>
    rw [typeOf, Option.map_eq_some_iff]
    constructor
    · rintro ⟨d⟩
      cases d with
      | sum d => exact ⟨_, (ih _).1 ⟨d⟩, rfl⟩
    · rintro ⟨a, ha, rfl⟩
      obtain ⟨d⟩ := (ih a).2 ha
      exact ⟨.sum d⟩
  | un op n ih =>
    rw [typeOf, ← ih]
    constructor
    · rintro ⟨d⟩
      cases d with
      | un _ d => exact ⟨d⟩
    · rintro ⟨d⟩
      exact ⟨.un op d⟩

private theorem zip_sub {a b c : BTy} (z z' : ZipImpl a b c) : z = z' := by
  cases z <;> cases z' <;> rfl

private theorem contract_sub {k : Nat} {a b c : BTy} (z z' : ContractImpl k a b c) : z = z' := by
  cases z <;> cases z' <;> rfl

private theorem concat_sub {a b c : BTy} (z z' : ConcatImpl a b c) : z = z' := by
  cases z <;> cases z' <;> rfl

/-- The impls that evaluation uses are determined by the expression. -/
theorem C48_unique {e : Node F} {τ : BTy} (d d' : FnImpl Γ e τ) : d = d' := by
  induction d with
  | var i => cases d'; rfl
  | varAdj i t k _ => cases d' with | varAdj _ _ k' _ => rw [concat_sub k k']
  | const τ b => cases d'; rfl
  | constSpec τ s => cases d'; rfl
  | constAdj d t k ih =>
    cases d' with
    | constAdj d2 _ k' =>
      obtain rfl := d.type_unique d2
      rw [ih d2, concat_sub k k']
  | cached i d ih => cases d' with | cached _ d2 => rw [ih d2]
  | add dl dr z ihl ihr | sub dl dr z ihl ihr | mul dl dr z ihl ihr | div dl dr z ihl ihr =>
    cases d'
    rename_i dl' dr' z'
    obtain rfl := dl.type_unique dl'
    obtain rfl := dr.type_unique dr'
    rw [ihl dl', ihr dr', zip_sub z z']
  | power dl dr ihl ihr => cases d' with | power dl' dr' => rw [ihl dl', ihr dr']
  | contract dl dr z ihl ihr =>
    cases d'
    rename_i dl' dr' z'
    obtain rfl := dl.type_unique dl'
    obtain rfl := dr.type_unique dr'
    rw [ihl dl', ihr dr', contract_sub z z']
  | sum d ih =>
    cases d'
    rename_i d'
    obtain rfl := d.type_unique d'
    rw [ih d']
  | un op d ih => cases d' with | un _ d' => rw [ih d']

variable [Zero F] [One F] [Add F] [Sub F] [Mul F] [Div F] [Neg F] [ScalarFns F]

/-- Hence values depend on the expression and the context only: two derivations, possibly with
different value types, have the same type and the same behaviour. -/
theorem C48_coherent {e : Node F} {τ σ : BTy} (d : FnImpl Γ e τ) (d' : FnImpl Γ e σ) :
    ∃ h : τ = σ, h ▸ d = d' ∧ (h ▸ d).evaluate = d'.evaluate := by
  obtain rfl := d.type_unique d'
  obtain rfl := C48_unique d d'
  exact ⟨rfl, rfl, rfl⟩

omit [Zero F] [One F] [Add F] [Sub F] [Mul F] [Div F] [Neg F] [ScalarFns F] in
/-- Looking up impls from the operands upwards finds the impl of every expression that has one, with
the type of the rules. -/
theorem C48_resolve (e : Node F) (τ : BTy) :
    (∃ d, resolve Γ e = some ⟨τ, d⟩) ↔ typeOf Γ e = some τ := by
  rw [← C48_type]
  exact ⟨fun ⟨d, _⟩ => ⟨d⟩, fun ⟨d⟩ => ⟨d, d.resolve_eq⟩⟩

/-- Hence running an expression fails to compile exactly if it has no type, and otherwise gives the
value by any of its derivations. -/
theorem C48_run (e : Node F) (c : Ctx F Γ) : (run e c = none ↔ typeOf Γ e = none) ∧
      ∀ {τ : BTy} (d : FnImpl Γ e τ), run e c = some ⟨τ, (d.evaluate c).1⟩ := by
  refine ⟨⟨fun h => ?_, fun h => ?_⟩, fun d => by simp [run, d.resolve_eq]⟩
  · rcases ht : typeOf Γ e with _ | τ
    · rfl
    · obtain ⟨d, hd⟩ := (C48_resolve e τ).2 ht
      simp [run, hd] at h
  · rcases hr : resolve Γ e with _ | ⟨τ, d⟩
    · simp [run, hr]
    · rw [(C48_resolve e τ).1 ⟨d, hr⟩] at h
      cases h

/-- The same for `evaluate_spec`, `evaluate_adjoint` and `evaluate_dual`: the last two compile exactly
if the adjoint exists and the expressions evaluated have a type. -/
theorem C48_runs (e : Node F) (c : Ctx F Γ) (t : Id) :
    (∀ {τ : BTy} (d : FnImpl Γ e τ), runSpec e c = some ⟨τ, (d.evaluateSpec c).1⟩) ∧
    (∀ {e' : Node F} {σ : BTy} (da : FnImpl Γ e' σ), e.adjoint t = some e' →
      runAdjoint e t c = some ⟨σ, (da.evaluate c).1⟩) ∧
    (∀ {e' : Node F} {τ σ : BTy} (d : FnImpl Γ e τ) (da : FnImpl Γ e' σ), e.adjoint t = some e' →
      runDual e t c = some ⟨τ, σ, (evaluateDual d da c).1⟩) ∧
    (runSpec e c = none ↔ typeOf Γ e = none) ∧
    (runAdjoint e t c = none ↔ ∀ e', e.adjoint t = some e' → typeOf Γ e' = none) ∧
    (runDual e t c = none ↔
      ∀ e', e.adjoint t = some e' → typeOf Γ e = none ∨ typeOf Γ e' = none) := by
  have hres : ∀ n : Node F, resolve Γ n = none ↔ typeOf Γ n = none := fun n => by
    rw [← not_iff_not, ← ne_eq, ← ne_eq, Option.ne_none_iff_exists', Option.ne_none_iff_exists']
    constructor
    · rintro ⟨⟨τ, d⟩, h⟩
      exact ⟨τ, (C48_resolve n τ).1 ⟨d, h⟩⟩
    · rintro ⟨τ, h⟩
      obtain ⟨d, hd⟩ := (C48_resolve n τ).2 h
      exact ⟨_, hd⟩
  refine ⟨fun d => by simp [runSpec, d.resolve_eq],
    fun da h => by simp [runAdjoint, run, h, da.resolve_eq],
    fun d da h => by simp [runDual, h, d.resolve_eq, da.resolve_eq], ?_, ?_, ?_⟩
  · rw [← hres]
    simp [runSpec]
  · simp only [runAdjoint, Option.bind_eq_none_iff]
    exact forall_congr' fun e' => imp_congr_right fun _ => (C48_run e' c).1
  · simp only [runDual, Option.bind_eq_none_iff]
    refine forall_congr' fun e' => imp_congr_right fun _ => ?_
    rw [← hres, ← hres]
    cases resolve Γ e <;> simp

/-- A vector times a matrix plus a scalar is a vector; a tuple plus a scalar has no type. -/
example : typeOf (F := ℤ) (fun | 0 => .array [2] | 1 => .array [2, 3] | 2 => .tuple | _ => .scalar)
      (.add (.contract 1 (.var 0) (.var 1)) (.var 3)) = some (.array [3]) ∧
    typeOf (F := ℤ) (fun | 0 => .array [2] | 1 => .array [2, 3] | 2 => .tuple | _ => .scalar)
      (.add (.var 2) (.var 3)) = none := by
  decide

/-- `x·x` at `3` for one scalar variable: the value, and its derivative `3 + 3`. -/
example : runAdjoint (Γ := fun _ => .scalar) (.mul (.var 0) (.var 0) : Node ℤ) 0 (fun _ => some (3 : ℤ))
      = some ⟨.scalar, .ok (6 : ℤ)⟩ ∧
    runDual (Γ := fun _ => .scalar) (.mul (.var 0) (.var 0) : Node ℤ) 0 (fun _ => some (3 : ℤ))
      = some ⟨.scalar, .scalar, .ok ((9 : ℤ), (6 : ℤ))⟩ := ⟨rfl, rfl⟩

end Aegir
