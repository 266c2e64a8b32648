import Verif.Lemmas.LogisticOp
import Verif.Props.C58_Benches
import Verif.Props.C77_Range
/-!
# C82: the linear benchmark (`aegir/benches/linear.rs`) in floating-point arithmetic

C58 compares its three programs over the reals. Here they are compared in any arithmetic in which products
commute and one is neutral, such as IEEE arithmetic: they take different steps, but arrive at the very same
numbers.
-/

namespace Aegir.Benches
open Aegir.Examples Aegir.Spec

variable {F : Type} [Zero F] [One F] [Add F] [Sub F] [Mul F] [Div F] [Neg F] [ScalarFns F] {N : Nat}

omit [Zero F] [One F] [Add F] [Sub F] [Mul F] [Div F] [Neg F] [ScalarFns F] in
theorem elemExt {a b : NArr F [N]} (h : ∀ k, a.elem k = b.elem k) : a = b :=
  NArr.ext_rows (ds := []) fun k => h k

omit [Zero F] [One F] [Add F] [Sub F] [Mul F] [Div F] [Neg F] [ScalarFns F] in
theorem zipL_elem (e : F) (x : NArr F [N]) (f : F → F → F) (k : Fin N) :
    (NArr.zipMapFieldL [N] e x f).elem k = f e (x.elem k) :=
  NArr.row_mkRows (ds := []) _ k

/-- The error of the prediction, doubled, as all three programs compute it. -/
def residual (s : Data F N) : F := (1 + 1) * (label s.x s.w - s.y)

theorem residual_op (s : Data F N) : (FnImpl.un (F := F) (Γ := types N) .double (.sub (.contract
      (.var (Γ := types N) X) (.var (Γ := types N) W) (.dot N)) (.var (Γ := types N) Y) .ss)).fn.evaluateSpec s.ctx =
    (.ok (.raw (τ := .scalar) (residual s)), s.ctx) := by
  have hX : (FnImpl.var (F := F) (Γ := types N) X).fn.evaluateSpec s.ctx = (.ok (.raw s.x), s.ctx) := rfl
  have hW : (FnImpl.var (F := F) (Γ := types N) W).fn.evaluateSpec s.ctx = (.ok (.raw s.w), s.ctx) := rfl
  have hY : (FnImpl.var (F := F) (Γ := types N) Y).fn.evaluateSpec s.ctx = (.ok (.raw s.y), s.ctx) := rfl
  have hdot : (FnImpl.contract (.var (F := F) (Γ := types N) X) (.var (Γ := types N) W) (.dot N)).fn.evaluateSpec
      s.ctx = (.ok (.raw (τ := .scalar) (label s.x s.w)), s.ctx) :=
    binM_eval hX hW (congrArg (Res.map (BSpec.raw (τ := .scalar))) (dot_label s.x s.w))
  exact evalMap_ok _ (binM_eval (k := subSpec .ss) hdot hY rfl)

/-- What the library's gradient computes, operation by operation. -/
theorem sse_op (h0 : ScalarFns.isZero (0 : F) = true) (s : Data F N) : ∃ g : NArr F [N],
    ((sseImpl N).evaluate s.ctx).1 = .ok g ∧ ∀ k, g.elem k = residual s * (s.x.elem k * 1) := by
  have hX : (FnImpl.var (F := F) (Γ := types N) X).fn.evaluateSpec s.ctx = (.ok (.raw s.x), s.ctx) := rfl
  have hW : (FnImpl.var (F := F) (Γ := types N) W).fn.evaluateSpec s.ctx = (.ok (.raw s.w), s.ctx) := rfl
  have hWW : (FnImpl.varAdj (F := F) (Γ := types N) W W (.aa [N] [N] (by simp))
      (by simp [types, BTy.rank])).fn.evaluateSpec s.ctx =
      (.ok (.diagonal (τ := .array [N, N]) () 1), s.ctx) := rfl
  have hXW : (FnImpl.varAdj (F := F) (Γ := types N) X W (.aa [N] [N] (by simp))
      (by simp [types, BTy.rank])).fn.evaluateSpec s.ctx =
      (.ok (.full (τ := .array [N, N]) () 0), s.ctx) := rfl
  have hYW : (FnImpl.varAdj (F := F) (Γ := types N) Y W (.sa [N])
      (by simp [types, BTy.rank])).fn.evaluateSpec s.ctx =
      (.ok (.full (τ := .array [N]) () 0), s.ctx) := rfl
  have h1 : (FnImpl.contract (.var (F := F) (Γ := types N) X)
        (.varAdj W W (.aa [N] [N] (by simp)) (by simp [types, BTy.rank])) (.vm N N)).fn.evaluateSpec s.ctx =
      (.ok (.raw (τ := .array [N]) (NArr.map [N] s.x fun a => a * 1)), s.ctx) :=
    binM_eval hX hWW (by
      simp only [BSpec.contract, dite_true]
      exact congrArg (fun r => Res.ok (BSpec.raw (τ := .array [N]) r)) (NArr.mutate_eq_map s.x _))
  have h2 : (FnImpl.contract
        (.varAdj X W (.aa [N] [N] (by simp)) (by simp [types, BTy.rank]))
        (.var (F := F) (Γ := types N) W) (.mv N N)).fn.evaluateSpec s.ctx =
      (.ok (.full (τ := .array [N]) () 0), s.ctx) :=
    binM_eval hXW hW (by simp only [BSpec.contract]; rw [if_pos h0]; rfl)
  have h3 := binM_eval (k := addSpec (.aa [N])) h1 h2 (r := .raw (τ := .array [N]) (NArr.map [N] s.x fun a => a * 1))
    (by simp only [addSpec]; rw [if_pos h0]; rfl)
  have h4 := binM_eval (k := subSpec (.aa [N])) h3 hYW (r := .raw (τ := .array [N]) (NArr.map [N] s.x fun a => a * 1))
    (by simp only [subSpec]; rw [if_pos h0]; rfl)
  have h5 : (sseImpl N).fn.evaluateSpec s.ctx = (.ok (.raw (τ := .array [N])
      (NArr.zipMapFieldL [N] (residual s) (NArr.map [N] s.x fun a => a * 1) (· * ·))), s.ctx) :=
    binM_eval (k := mulSpec (.sa [N])) (residual_op s) h4 rfl
  refine ⟨_, congrArg Prod.fst (evalMap_ok BSpec.unwrap h5), fun k => ?_⟩
  refine (zipL_elem _ _ _ k).trans (congrArg (residual s * ·) ?_)
  exact NArr.row_mkRows (ds := []) _ k

/-- What the gradient written with the library's operators computes. -/
theorem manual_op (s : Data F N) : ∃ g : NArr F [N],
    ((linearManualImpl N).evaluate s.ctx).1 = .ok g ∧ ∀ k, g.elem k = residual s * s.x.elem k := by
  have hX : (FnImpl.var (F := F) (Γ := types N) X).fn.evaluateSpec s.ctx = (.ok (.raw s.x), s.ctx) := rfl
  have h5 : (linearManualImpl N).fn.evaluateSpec s.ctx = (.ok (.raw (τ := .array [N])
      (NArr.zipMapFieldL [N] (residual s) s.x (· * ·))), s.ctx) :=
    binM_eval (k := mulSpec (.sa [N])) (residual_op s) hX rfl
  exact ⟨_, congrArg Prod.fst (evalMap_ok BSpec.unwrap h5), fun k => zipL_elem _ _ _ k⟩

/-- The three gradients of `linear.rs` are the same in every state, to the last bit, and none of them
panics. -/
theorem C82_gradient (h0 : ScalarFns.isZero (0 : F) = true) (hc : ∀ a b : F, a * b = b * a)
    (h1 : ∀ a : F, a * 1 = a) (s : Data F N) : ∃ g : NArr F [N],
    ((sseImpl N).evaluate s.ctx).1 = .ok g ∧ ((linearManualImpl N).evaluate s.ctx).1 = .ok g ∧
      rawAdjoint s.ctx = .ok g ∧
      ∀ k, g.elem k = s.x.elem k * ((1 + 1) *
        ((List.finRange N).foldl (fun p i => p + s.x.elem i * s.w.elem i) 0 - s.y)) := by
  obtain ⟨g, hg, h⟩ := sse_op h0 s
  obtain ⟨g', hg', h'⟩ := manual_op s
  have hgg : g' = g := by
    refine elemExt fun k => ?_
    rw [h, h', h1]
  subst hgg
  have hk : ∀ k, g'.elem k = s.x.elem k * ((1 + 1) *
        ((List.finRange N).foldl (fun p i => p + s.x.elem i * s.w.elem i) 0 - s.y)) := fun k => by
    rw [h', hc]; rfl
  refine ⟨g', hg, hg', ?_, hk⟩
  simp only [rawAdjoint, Data.ctx]
  refine congrArg _ (elemExt fun k => ?_)
  have he : ∀ f : Fin N → F, (NArr.ofElems f).elem k = f k := fun f => NArr.row_mkRows (ds := []) f k
  rw [he, hk]

/-- The three runs of `linear.rs` end in the same state, to the last bit, for any number of samples and any
learning rate, and do not panic. -/
theorem C82_linear (h0 : ScalarFns.isZero (0 : F) = true) (hc : ∀ a b : F, a * b = b * a)
    (h1 : ∀ a : F, a * 1 = a) (η : F) (tw : List F) (xs : List (NArr F [N])) (s : Data F N) :
    ∃ s', linearAuto η tw s xs = .ok s' ∧ linearByHand η tw s xs = .ok s' ∧
      linearRaw η tw s xs = .ok s' := by
  induction xs generalizing s with
  | nil => exact ⟨s, rfl, rfl, rfl⟩
  | cons x xs ih =>
    obtain ⟨g, e1, e2, e3, -⟩ := C82_gradient h0 hc h1 (⟨x, benchLabel x tw, s.w⟩ : Data F N)
    obtain ⟨s', i1, i2, i3⟩ := ih ⟨x, benchLabel x tw, update (fun w g => w - η * g) s.w g⟩
    refine ⟨s', ?_, ?_, ?_⟩
    · rw [linearAuto, linearSolve, e1]; exact i1
    · rw [linearByHand, linearSolve, e2]; exact i2
    · rw [linearRaw, linearSolve, e3]; exact i3

omit [One F] [Sub F] [Div F] [Neg F] [ScalarFns F] in
/-- The label is computed as in the example program. -/
theorem benchLabel_label (x : NArr F [N]) (tw : List F) (h : N ≤ tw.length) :
    benchLabel x tw = label x (NArr.ofElems fun k => tw[k]) := by
  have hz : (List.ofFn x.elem).zip (tw.take N) =
      List.ofFn fun k : Fin N => (x.elem k, tw[k]) := by
    apply List.ext_getElem
    · simp [h]
    · intro i h1 h2
      simp
  have he : ∀ k : Fin N, (NArr.ofElems fun k : Fin N => tw[k]).elem k = tw[k] :=
    fun k => NArr.row_mkRows (ds := []) _ k
  rw [benchLabel, hz, label, List.ofFn_eq_map, List.foldl_map]
  simp only [he]

/-- And so the benchmark does what the example does (`C78`), if the table of true weights is long enough. -/
theorem C82_example (η : F) (tw : List F) (h : N ≤ tw.length) (xs : List (NArr F [N])) (s : Data F N) :
    linearAuto η tw s xs = linearRun η (NArr.ofElems fun k => tw[k]) s xs := by
  induction xs generalizing s with
  | nil => rfl
  | cons x xs ih =>
    rw [linearAuto, linearSolve, linearRun, linearStep, benchLabel_label x tw h]
    cases ((sseImpl N).evaluate (Data.ctx ⟨x, label x (NArr.ofElems fun k => tw[k]), s.w⟩)).1.unwrap with
    | ok g => exact ih _
    | err e => rfl
    | panic => rfl

/-! ### IEEE arithmetic -/

theorem fp_mul_comm {p q E : ℕ} (a b : Fp p q E) : a * b = b * a := by
  cases a with
  | num x _ =>
    cases b with
    | num y _ => exact congrArg Fp.round (mul_comm x y)
    | inf t => rfl
    | nan => rfl
  | inf s =>
    cases b with
    | num y _ => rfl
    | inf t => exact congrArg Fp.inf (Bool.xor_comm s t)
    | nan => rfl
  | nan => cases b <;> rfl

theorem fp_mul_one {p q E : ℕ} (a : Fp p q E) : a * 1 = a := by
  cases a with
  | num x h =>
    have e : (Fp.num x h * 1 : Fp p q E) = Fp.round (x * 1) := rfl
    rw [e, mul_one]
    have hx : |fround p q x| ≤ largest p E := by rw [h.1]; exact h.2
    rw [Fp.round, dif_pos hx]
    congr 1
    exact h.1
  | inf s =>
    have e : (Fp.inf s * 1 : Fp p q E) = if (1 : ℝ) = 0 then .nan else .inf (s ^^ decide ((1 : ℝ) < 0)) := rfl
    rw [e, if_neg one_ne_zero, decide_eq_false (by norm_num), Bool.xor_false]
  | nan => rfl

theorem fp_isZero {p q E : ℕ} : ScalarFns.isZero (0 : Fp p q E) = true := decide_eq_true rfl

/-- In every IEEE format, for any learning rate, table of true weights, samples and initial state, infinite
and NaN included, the three benchmarks end in the same state. -/
theorem C82_ieee {p q E : ℕ} (η : Fp p q E) (tw : List (Fp p q E)) (xs : List (NArr (Fp p q E) [N]))
    (s : Data (Fp p q E) N) :
    ∃ s', linearAuto η tw s xs = .ok s' ∧ linearByHand η tw s xs = .ok s' ∧ linearRaw η tw s xs = .ok s' :=
  C82_linear fp_isZero fp_mul_comm fp_mul_one η tw xs s

/-- A large sample overflows: all three end with the same infinity (or NaN), none panics. -/
example (b : Fp 52 1074 971) : ∃ s', linearAuto b [b, 1] (init 2) [NArr.ofElems fun _ => b, NArr.ofElems fun _ => 1] = .ok s' ∧
    linearRaw b [b, 1] (init 2) [NArr.ofElems fun _ => b, NArr.ofElems fun _ => 1] = .ok s' := by
  obtain ⟨s', h, -, h'⟩ := C82_ieee (p := 52) (q := 1074) (E := 971) b [b, 1]
    [NArr.ofElems fun _ => b, NArr.ofElems fun _ => 1] (init 2)
  exact ⟨s', h, h'⟩

end Aegir.Benches
