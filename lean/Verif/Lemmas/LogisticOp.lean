import Verif.Lemmas.LearningRounded
/-!
# What the gradient of the logistic regression example computes, operation by operation
-/

namespace Aegir.Examples
open Aegir.Spec

variable {F : Type} [Zero F] [One F] [Add F] [Sub F] [Mul F] [Div F] [Neg F] [ScalarFns F] {N : Nat}

omit [One F] [Sub F] [Div F] [Neg F] [ScalarFns F] in
/-- The inner product of the expression takes the same steps as the loop for the labels. -/
theorem dot_label (x w : NArr F [N]) :
    Buf.zipFold (.aa [N]) x w 0 (fun acc p => acc + p.1 * p.2) = .ok (label x w) := by
  have key : ∀ (l : List (Fin N)) (acc : F),
      (l.map fun i => [i.val]).foldlM (fun acc ix => (NArr.getU [N] x ix).bind fun a =>
        (NArr.getU [N] w ix).map fun b => acc + a * b) acc =
      some (l.foldl (fun acc i => acc + x.elem i * w.elem i) acc) := fun l => by
    induction l with
    | nil => intro acc; rfl
    | cons i l ih =>
      intro acc
      simp only [List.map_cons, List.foldlM_cons, List.foldl_cons]
      rw [NArr.getU_elem x i i.2, NArr.getU_elem w i i.2]
      exact ih _
  have h := key (List.finRange N) 0
  have e : (List.finRange N).map (fun i => [i.val]) = Shape.indices [N] := by
    rw [indices_one, ← List.map_coe_finRange_eq_range, List.map_map]
    rfl
  rw [e] at h
  change Res.ofOption (NArr.zipFoldSelf [N] x w 0 _) = _
  unfold NArr.zipFoldSelf
  rw [h]
  rfl

omit [Zero F] [One F] [Add F] [Sub F] [Mul F] [Div F] [Neg F] [ScalarFns F] in
theorem binM_eval {Γ : Id → BTy} {α β γ : Type} {m : EvalM F Γ α} {n : EvalM F Γ β}
    {k : α → β → Res IncShapes γ} {c : Ctx F Γ} {a : α} {b : β} {r : γ} (hm : m c = (.ok a, c))
    (hn : n c = (.ok b, c)) (hk : k a b = .ok r) : binM m n k c = (.ok r, c) := by
  simp [Aegir.binM, EvalM.bind, EvalM.mapErr, hm, hn, hk, Res.mapErr, EvalM.lift]

omit [Zero F] [One F] [Add F] [Sub F] [Mul F] [Div F] [Neg F] [ScalarFns F] in
theorem evalMap_ok {Γ : Id → BTy} {α β : Type} {m : EvalM F Γ α} {c : Ctx F Γ} {a : α} (f : α → β)
    (hm : m c = (.ok a, c)) : m.map f c = (.ok (f a), c) := by
  simp [EvalM.map, hm, Res.map]

omit [Zero F] [One F] [Add F] [Sub F] [Mul F] [Div F] [Neg F] [ScalarFns F] in
theorem zipR_map (x : NArr F [N]) (f : F → F) (y : F) (g : F → F → F) :
    NArr.zipMutFieldR [N] (NArr.map [N] x f) y g = NArr.map [N] x fun a => g (f a) y := by
  rw [NArr.zipMutFieldR_eq]
  exact congrArg (NArr.mkRows (ds := [])) (funext fun i => congrArg (g · y) (NArr.row_mkRows (ds := []) (fun i => f (NArr.row (ds := []) x i)) i))

omit [Zero F] [One F] [Add F] [Sub F] [Mul F] [Div F] [Neg F] [ScalarFns F] in
theorem zipS_map (x : NArr F [N]) (f h : F → F) (g : F → F → F) :
    NArr.zipMutSelf [N] (NArr.map [N] x f) (NArr.map [N] x h) g = NArr.map [N] x fun a => g (f a) (h a) := by
  rw [NArr.zipMutSelf_eq]
  exact congrArg (NArr.mkRows (ds := [])) (funext fun i => congrArg₂ g (NArr.row_mkRows (ds := []) (fun i => f (NArr.row (ds := []) x i)) i)
    (NArr.row_mkRows (ds := []) (fun i => h (NArr.row (ds := []) x i)) i))

omit [Zero F] [One F] [Add F] [Sub F] [Mul F] [Div F] [Neg F] [ScalarFns F] in
theorem mutate_map (x : NArr F [N]) (f g : F → F) :
    NArr.mutate [N] (NArr.map [N] x f) g = NArr.map [N] x fun a => g (f a) := by
  rw [NArr.mutate_eq_map]
  exact congrArg (NArr.mkRows (ds := [])) (funext fun i => congrArg g (NArr.row_mkRows (ds := []) (fun i => f (NArr.row (ds := []) x i)) i))

/-- The entries of the gradient, as computed: `z` is the inner product, `p` the probability. -/
def gradEntry (z y x : F) : F :=
  let p := sigmoid z
  let a := x * 1 * (p * (1 - p))
  (a * y + -a * (1 - y)) / (p * y + (1 - p) * (1 - y))

theorem likelihood_op (h0 : ScalarFns.isZero (0 : F) = true) (h0' : ScalarFns.isZero (-0 : F) = true)
    (s : Data F N) : ∃ g : NArr F [N], ((likelihoodImpl N).evaluate s.ctx).1 = .ok g ∧
      ∀ k, g.elem k = gradEntry (label s.x s.w) s.y (s.x.elem k) := by
  have hX : (FnImpl.var (F := F) (Γ := types N) X).fn.evaluateSpec s.ctx = (.ok (.raw s.x), s.ctx) := rfl
  have hW : (FnImpl.var (F := F) (Γ := types N) W).fn.evaluateSpec s.ctx = (.ok (.raw s.w), s.ctx) := rfl
  have hY : (FnImpl.var (F := F) (Γ := types N) Y).fn.evaluateSpec s.ctx = (.ok (.raw s.y), s.ctx) := rfl
  have hWW : (FnImpl.varAdj (F := F) (Γ := types N) W W (.aa [N] [N] (by simp))
      (by simp [types, BTy.rank])).fn.evaluateSpec s.ctx =
      (.ok (.diagonal (τ := .array [N, N]) () 1), s.ctx) := rfl
  have hXW : (FnImpl.varAdj (F := F) (Γ := types N) X W (.aa [N] [N] (by simp))
      (by simp [types, BTy.rank])).fn.evaluateSpec s.ctx =
      (.ok (.full (τ := .array [N, N]) () 0), s.ctx) := rfl
  have hYW : (FnImpl.varAdj (F := F) (Γ := types N) Y W (.sa [N])
      (by simp [types, BTy.rank])).fn.evaluateSpec s.ctx =
      (.ok (.full (τ := .array [N]) () 0), s.ctx) := rfl
  set z := label s.x s.w with hz
  have hdot : (FnImpl.contract (.var (F := F) (Γ := types N) X) (.var (Γ := types N) W) (.dot N)).fn.evaluateSpec
      s.ctx = (.ok (.raw (τ := .scalar) z), s.ctx) :=
    binM_eval hX hW (congrArg (Res.map (BSpec.raw (τ := .scalar))) (dot_label s.x s.w))
  have hp : (probImpl (F := F) N).fn.evaluateSpec s.ctx = (.ok (.raw (τ := .scalar) (sigmoid z)), s.ctx) :=
    evalMap_ok _ hdot
  set p := sigmoid z with hpz
  have hr : (FnImpl.un .rabbit (probImpl (F := F) N)).fn.evaluateSpec s.ctx =
      (.ok (.raw (τ := .scalar) (p * (1 - p))), s.ctx) := evalMap_ok _ hp
  have ho : (FnImpl.un .oneSub (probImpl (F := F) N)).fn.evaluateSpec s.ctx =
      (.ok (.raw (τ := .scalar) (1 - p)), s.ctx) := evalMap_ok _ hp
  have hoY : (FnImpl.un .oneSub (.var (F := F) (Γ := types N) Y)).fn.evaluateSpec s.ctx =
      (.ok (.raw (τ := .scalar) (1 - s.y)), s.ctx) := evalMap_ok _ hY
  -- the adjoint of the inner product
  have h1 : (FnImpl.contract (.var (F := F) (Γ := types N) X)
        (.varAdj W W (.aa [N] [N] (by simp)) (by simp [types, BTy.rank])) (.vm N N)).fn.evaluateSpec s.ctx =
      (.ok (.raw (τ := .array [N]) (NArr.map [N] s.x fun a => a * 1)), s.ctx) :=
    binM_eval hX hWW (by
      simp only [BSpec.contract, dite_true]
      exact congrArg (fun r => Res.ok (BSpec.raw (τ := .array [N]) r)) (NArr.mutate_eq_map s.x _))
  have h2 : (FnImpl.contract
        (.varAdj X W (.aa [N] [N] (by simp)) (by simp [types, BTy.rank]))
        (.var (F := F) (Γ := types N) W) (.mv N N)).fn.evaluateSpec s.ctx =
      (.ok (.full (τ := .array [N]) () 0), s.ctx) :=
    binM_eval hXW hW (by simp only [BSpec.contract]; rw [if_pos h0]; rfl)
  have h3 := binM_eval (k := addSpec (.aa [N])) h1 h2 (r := .raw (τ := .array [N]) (NArr.map [N] s.x fun a => a * 1))
    (by simp only [addSpec]; rw [if_pos h0]; rfl)
  have hok : ∀ {a b : NArr F [N]}, a = b →
      Res.ok (ε := IncShapes) (BSpec.raw (τ := .array [N]) a) = .ok (.raw (τ := .array [N]) b) := fun h => h ▸ rfl
  have h4 : (probAdjImpl (F := F) N).fn.evaluateSpec s.ctx = (.ok (.raw (τ := .array [N])
      (NArr.map [N] s.x fun a => a * 1 * (p * (1 - p)))), s.ctx) :=
    binM_eval h3 hr (hok (zipR_map s.x _ (p * (1 - p)) (· * ·)))
  have h5 := binM_eval (k := mulSpec (.as [N])) h4 hY
    (hok (zipR_map s.x (fun a => a * 1 * (p * (1 - p))) s.y (· * ·)))
  have h6 := binM_eval (k := mulSpec (.as [N])) hYW hp (r := .full (τ := .array [N]) () 0)
    (by simp only [mulSpec]; rw [if_pos h0]; rfl)
  have h7 := binM_eval (k := addSpec (.aa [N])) h5 h6
    (r := .raw (τ := .array [N]) (NArr.map [N] s.x fun a => a * 1 * (p * (1 - p)) * s.y))
    (by simp only [addSpec]; rw [if_pos h0]; rfl)
  have h8 : (FnImpl.un .negate (probAdjImpl (F := F) N)).fn.evaluateSpec s.ctx =
      (.ok (.raw (τ := .array [N]) (NArr.map [N] s.x fun a => -(a * 1 * (p * (1 - p))))), s.ctx) :=
    (evalMap_ok (unSpec UnOp.negate.apply) h4).trans
      (congrArg (fun r => (Res.ok (BSpec.raw (τ := .array [N]) r), s.ctx)) (mutate_map s.x _ _))
  have h9 := binM_eval (k := mulSpec (.as [N])) h8 hoY
    (hok (zipR_map s.x (fun a => -(a * 1 * (p * (1 - p)))) (1 - s.y) (· * ·)))
  have h10 := binM_eval (k := mulSpec (.as [N]))
    (evalMap_ok (unSpec UnOp.negate.apply) hYW) ho (r := .full (τ := .array [N]) () 0)
    (by simp only [mulSpec, unSpec, UnOp.apply]; rw [if_pos h0']; rfl)
  have h11 := binM_eval (k := addSpec (.aa [N])) h9 h10
    (r := .raw (τ := .array [N]) (NArr.map [N] s.x fun a => -(a * 1 * (p * (1 - p))) * (1 - s.y)))
    (by simp only [addSpec]; rw [if_pos h0]; rfl)
  have h12 := binM_eval (k := addSpec (.aa [N])) h7 h11
    (hok (zipS_map s.x (fun a => a * 1 * (p * (1 - p)) * s.y)
      (fun a => -(a * 1 * (p * (1 - p))) * (1 - s.y)) (· + ·)))
  have h13 : (mixImpl (F := F) N).fn.evaluateSpec s.ctx =
      (.ok (.raw (τ := .scalar) (p * s.y + (1 - p) * (1 - s.y))), s.ctx) :=
    binM_eval (k := addSpec .ss) (binM_eval (k := mulSpec .ss) hp hY rfl)
      (binM_eval (k := mulSpec .ss) ho hoY rfl) rfl
  have h14 : (likelihoodImpl N).fn.evaluate s.ctx = (.ok (NArr.map [N] s.x fun a =>
      gradEntry z s.y a), s.ctx) :=
    binM_eval (evalMap_ok BSpec.unwrap h12) (evalMap_ok BSpec.unwrap h13)
      (congrArg (Res.ok (ε := IncShapes)) (zipR_map s.x (fun a => a * 1 * (p * (1 - p)) * s.y +
        -(a * 1 * (p * (1 - p))) * (1 - s.y)) (p * s.y + (1 - p) * (1 - s.y)) (· / ·)))
  refine ⟨_, congrArg Prod.fst h14, fun k => ?_⟩
  exact NArr.row_mkRows _ k

end Aegir.Examples
