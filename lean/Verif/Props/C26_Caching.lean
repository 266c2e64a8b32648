import Verif.Lemmas.Caching
import Verif.Spec.Instances
import Mathlib.Logic.Relation
/-!
# C26: caching is transparent when the cache is coherent

`K` names, for each cache identifier, the expression whose value it stores. The claim holds for
successful evaluation of expressions in which no operator distinguishes compressed from explicit
operands (`CacheSafe`); `C26_violation_*` show that the code breaks it for each of the excluded
operators, and `C26_violation_error` that failures may differ.
-/

namespace Aegir.Props

open Aegir Aegir.Spec

section
variable {F : Type} [CommRing F] [Div F] [ScalarFns F] [LawfulScalar F] [LawfulPow F]
variable {Γ : Id → BTy}

/-- With coherent caches `evaluate` returns `v` exactly if the expression without `Cached` wrappers
does, and the caches are coherent afterwards (whether or not evaluation succeeded). Missing from the
full statement: expressions that are not `CacheSafe`, and equality of the failures (both are false,
see below). -/
theorem C26_transparent_partial {K : Caches F Γ} (hK : K.Consistent) {e : Node F} {τ : BTy}
    (d : FnImpl Γ e τ) (hu : FnImpl.Uses K d) (hs : FnImpl.CacheSafe d) (c : Ctx F Γ)
    (hc : K.Coherent c) :
    (∀ v, (d.evaluate c).1 = .ok v ↔ (FnImpl.strip d).evaluate c = (.ok v, c)) ∧
      K.Coherent (d.evaluate c).2 := by
  have h := FnImpl.sem hK d hu hs
  have hc' := (coherent_iff hK c).1 hc
  have he : d.evaluate = d.fn.evaluateSpec.map BSpec.unwrap := d.evaluate_eq
  rw [he]
  exact ⟨fun v => (h.1 c hc' v).trans (strip_evaluate d hs c v).symm,
    (coherent_iff hK _).2 (h.2.1 c hc').1⟩

/-- The same for `evaluate_spec` and, as to coherence, for `evaluate_shape`. -/
theorem C26_transparent_spec_partial {K : Caches F Γ} (hK : K.Consistent) {e : Node F} {τ : BTy}
    (d : FnImpl Γ e τ) (hu : FnImpl.Uses K d) (hs : FnImpl.CacheSafe d) (c : Ctx F Γ)
    (hc : K.Coherent c) :
    (∀ v, (∃ s, (d.evaluateSpec c).1 = .ok s ∧ s.unwrap = v) ↔
        (FnImpl.strip d).evaluate c = (.ok v, c)) ∧
      K.Coherent (d.evaluateSpec c).2 ∧ K.Coherent (d.evaluateShape c).2 := by
  have h := FnImpl.sem hK d hu hs
  have hc' := (coherent_iff hK c).1 hc
  refine ⟨fun v => ?_, (coherent_iff hK _).2 (h.2.1 c hc').1, (coherent_iff hK _).2 (h.2.2 c hc').1⟩
  rw [strip_evaluate d hs c v, ← h.1 c hc' v]
  exact (Res.map_ok_iff BSpec.unwrap (d.fn.evaluateSpec c).1 v).symm

/-- Coherence persists along every history of evaluations (successful or not, by any of the three
methods) and of assignments to variables that clear the caches depending on the variable; so caching
stays transparent throughout. -/
theorem C26_history_partial {K : Caches F Γ} (hK : K.Consistent) {c c' : Ctx F Γ}
    (hc : K.Coherent c) (hh : Relation.ReflTransGen (CacheStep K) c c') :
    K.Coherent c' ∧ ∀ {e : Node F} {τ : BTy} (d : FnImpl Γ e τ), FnImpl.Uses K d →
      FnImpl.CacheSafe d → ∀ v,
        (d.evaluate c').1 = .ok v ↔ (FnImpl.strip d).evaluate c' = (.ok v, c') := by
  have h : K.Coherent c' := by
    induction hh with
    | refl => exact hc
    | tail _ hstep ih => exact (coherent_iff hK _).2 (coh_step hK ((coherent_iff hK _).1 ih) hstep)
  exact ⟨h, fun d hu hs => (C26_transparent_partial hK d hu hs c' h).1⟩

omit [LawfulScalar F] [LawfulPow F] in
/-- A context with all caches empty is coherent. -/
theorem C26_empty {K : Caches F Γ} (c : Ctx F Γ) (h : ∀ i, K i ≠ none → c i = none) :
    K.Coherent c := by
  intro i n d v hi hv
  rw [h i (by rw [hi]; simp)] at hv
  cases hv

end

/-! ### A concrete program: `y = x * x` is cached under identifier `1`, `z = y + 1` under `2` -/

/-- All identifiers are scalars. -/
def c26Ty : Id → BTy := fun _ => .scalar

/-- `x * x` -/
def c26Sq : FnImpl (F := ℤ) c26Ty (.mul (.var 0) (.var 0)) .scalar :=
  .mul (.var (Γ := c26Ty) 0) (.var (Γ := c26Ty) 0) .ss

/-- `Cached(x * x, 1) + 1` -/
def c26Z : FnImpl (F := ℤ) c26Ty (.un .addOne (.cached (.mul (.var 0) (.var 0)) 1)) .scalar :=
  .un .addOne (.cached (Γ := c26Ty) 1 c26Sq)

/-- The two caches. -/
def c26K : Caches ℤ c26Ty
  | 1 => some ⟨_, c26Sq⟩
  | 2 => some ⟨_, c26Z⟩
  | _ => none

/-- `Cached(z, 2) - Cached(y, 1)` -/
def c26E : FnImpl (F := ℤ) c26Ty (.sub (.cached (.un .addOne (.cached (.mul (.var 0) (.var 0)) 1)) 2)
    (.cached (.mul (.var 0) (.var 0)) 1)) .scalar :=
  .sub (.cached (Γ := c26Ty) 2 c26Z) (.cached (Γ := c26Ty) 1 c26Sq) .ss

/-- `x = 3`, caches empty. -/
def c26Ctx : Ctx ℤ c26Ty
  | 0 => some (3 : ℤ)
  | _ => none

/-- `x = 3` and `y = 9`, `z` empty: the state after evaluating `y`. -/
def c26Ctx9 : Ctx ℤ c26Ty
  | 0 => some (3 : ℤ)
  | 1 => some (9 : ℤ)
  | _ => none

theorem c26_uses : FnImpl.Uses c26K c26E :=
  ⟨⟨⟨⟨rfl, rfl⟩, rfl⟩, rfl⟩, ⟨rfl, rfl⟩, rfl⟩

theorem c26_safe : FnImpl.CacheSafe c26E :=
  ⟨⟨trivial, trivial⟩, ⟨trivial, trivial⟩, by simp [c26Ty]⟩

theorem c26_consistent : c26K.Consistent := by
  intro i n d h
  unfold c26K at h
  split at h
  · cases h; exact ⟨⟨rfl, rfl⟩, trivial, trivial⟩
  · cases h; exact ⟨⟨⟨rfl, rfl⟩, rfl⟩, trivial, trivial⟩
  · cases h

theorem c26_coherent : c26K.Coherent c26Ctx9 := by
  intro i n d v h hv
  unfold c26K at h
  split at h
  · cases h; cases hv; rfl
  · cases hv
  · cases h

example : (c26E.evaluate c26Ctx9).1 = .ok (1 : ℤ) := rfl

example : (FnImpl.strip c26E).evaluate c26Ctx9 = (.ok (1 : ℤ), c26Ctx9) :=
  ((C26_transparent_partial c26_consistent c26E c26_uses c26_safe c26Ctx9 c26_coherent).1 _).1 rfl

example : c26K.Coherent (c26E.evaluateSpec c26Ctx9).2 :=
  (C26_transparent_spec_partial c26_consistent c26E c26_uses c26_safe c26Ctx9 c26_coherent).2.1

/-- After evaluating, assigning `x = 5` and clearing both caches: the value is recomputed. -/
def c26Ctx5 : Ctx ℤ c26Ty
  | 0 => some (5 : ℤ)
  | _ => none

theorem c26_hist : Relation.ReflTransGen (CacheStep c26K) c26Ctx c26Ctx5 := by
  refine .tail (.single (.evaluate c26E c26_uses c26_safe)) (.assign 0 rfl ?_ ?_)
  · intro i hi h
    match i, hi, h with
    | 1, _, h => exact absurd (h _ _ rfl) (by decide)
    | 2, _, h => exact absurd (h _ _ rfl) (by decide)
    | _ + 3, _, _ => rfl
  · intro i n d h _
    unfold c26K at h
    split at h
    · rfl
    · rfl
    · cases h

example : c26K.Coherent c26Ctx5 ∧ (c26E.evaluate c26Ctx5).1 = .ok (1 : ℤ) := by
  have h0 : c26K.Coherent c26Ctx := C26_empty c26Ctx (fun i hi => by
    match i with
    | 0 => exact absurd rfl hi
    | _ + 1 => rfl)
  have h := C26_history_partial c26_consistent h0 c26_hist
  exact ⟨h.1, (h.2 c26E c26_uses c26_safe _).2 rfl⟩

/-! ### Where the code breaks the claim -/

/-- `Power` (`binary.rs` L113-118): `Cached(0)^y` at `y = 0` is `1`, but `0^y` with the constant
stored as a compressed `Full` zero is `0`. -/
theorem C26_violation_power :
    ∃ (K : Caches ℤ c26Ty) (e : Node ℤ) (d : FnImpl c26Ty e .scalar) (c : Ctx ℤ c26Ty),
      K.Consistent ∧ FnImpl.Uses K d ∧ K.Coherent c ∧
      (d.evaluate c).1 = .ok (1 : ℤ) ∧ ((FnImpl.strip d).evaluate c).1 = .ok (0 : ℤ) := by
  let z : FnImpl (F := ℤ) c26Ty (.constSpec .scalar (.full () 0)) .scalar :=
    .constSpec .scalar (.full () 0)
  let K : Caches ℤ c26Ty := fun i => if i = 1 then some ⟨_, z⟩ else none
  refine ⟨K, _, .power (.cached (Γ := c26Ty) 1 z) (.var (Γ := c26Ty) 0),
    fun i => if i = 0 then some (0 : ℤ) else none, ?_, ⟨⟨trivial, rfl⟩, rfl⟩, ?_, rfl, rfl⟩
  · intro i n d h
    by_cases hi : i = 1
    · subst hi; cases h; exact ⟨trivial, trivial⟩
    · simp [K, hi] at h
  · intro i n d v h hv
    by_cases hi : i = 1
    · subst hi; cases hv
    · simp [K, hi] at h

/-- `Sub` of a scalar and a matrix (C11): `Cached(1) - M` evaluates to `M - 1`, while `1 - M` on
compressed operands is `1 - M`. -/
theorem C26_violation_sub :
    ∃ (K : Caches ℤ c26Ty) (e : Node ℤ) (d : FnImpl c26Ty e (.array [2, 2]))
      (c : Ctx ℤ c26Ty),
      K.Consistent ∧ FnImpl.Uses K d ∧ K.Coherent c ∧
      (d.evaluate c).1 = .ok (Buf.full (.array [2, 2]) () (4 : ℤ)) ∧
      ((FnImpl.strip d).evaluate c).1 = .ok (Buf.full (.array [2, 2]) () (-4 : ℤ)) := by
  let z : FnImpl (F := ℤ) c26Ty (.constSpec .scalar (.full () 1)) .scalar :=
    .constSpec .scalar (.full () 1)
  let K : Caches ℤ c26Ty := fun i => if i = 1 then some ⟨_, z⟩ else none
  refine ⟨K, _, .sub (.cached (Γ := c26Ty) 1 z)
    (.constSpec (.array [2, 2]) (.full () 5)) (.sa [2, 2]),
    fun _ => none, ?_, ?_, ?_, ?_, rfl⟩
  · intro i n d h
    by_cases hi : i = 1
    · subst hi; cases h; exact ⟨trivial, trivial⟩
    · simp [K, hi] at h
  · simp only [FnImpl.Uses, and_true]; exact ⟨trivial, rfl⟩
  · intro i n d v h hv
    cases hv
  · rfl

/-- Vectors of run-time length. -/
def c26VecTy : Id → BTy := fun _ => .vec

/-- Failures differ: a compressed zero of length 2 times a vector of length 3 is an `Output` error,
with the zero cached the same product panics. -/
theorem C26_violation_error :
    ∃ (K : Caches ℤ c26VecTy) (e : Node ℤ) (d : FnImpl c26VecTy e .vec) (c : Ctx ℤ c26VecTy),
      K.Consistent ∧ FnImpl.Uses K d ∧ FnImpl.CacheSafe d ∧ K.Coherent c ∧
      (d.evaluate c).1 = .panic ∧ ∃ err, ((FnImpl.strip d).evaluate c).1 = .err (.output err) := by
  let z : FnImpl (F := ℤ) c26VecTy (.constSpec .vec (.full 2 0)) .vec := .constSpec .vec (.full 2 0)
  let K : Caches ℤ c26VecTy := fun i => if i = 1 then some ⟨_, z⟩ else none
  refine ⟨K, _, .mul (.cached (Γ := c26VecTy) 1 z) (.var (Γ := c26VecTy) 0) .vv,
    fun i => if i = 0 then some ([1, 2, 3] : List ℤ) else none, ?_, ⟨⟨trivial, rfl⟩, rfl⟩,
    ⟨trivial, trivial⟩, ?_, rfl, ⟨_, rfl⟩⟩
  · intro i n d h
    by_cases hi : i = 1
    · subst hi; cases h; exact ⟨trivial, trivial⟩
    · simp [K, hi] at h
  · intro i n d v h hv
    by_cases hi : i = 1
    · subst hi; cases hv
    · simp [K, hi] at h

end Aegir.Props
