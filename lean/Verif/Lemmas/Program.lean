import Verif.Spec.Program
import Verif.Props.C41_Compile
import Verif.Props.C48_Typing
import Verif.Props.C28_C32_Derivatives
import Verif.Lemmas.Node
/-!
# Scalar programs
-/

namespace Aegir

open Spec Compile Props

/-- Every identifier is a scalar. -/
abbrev scalars : Id → BTy := fun _ => .scalar

/-- The context that holds the point `v`. -/
def pointCtx (v : Point) : Ctx ℝ scalars := fun i => some (v i)

/-- Nodes of scalar programs. -/
def PlainNode : Node ℝ → Prop
  | .var _ => True
  | .const τ _ => τ = .scalar
  | .add l r | .sub l r | .mul l r | .div l r | .power l r => PlainNode l ∧ PlainNode r
  | .sum n => PlainNode n
  | .un op n => op ∈ [UnOp.abs, .negate, .ln, .square, .sigmoid] ∧ PlainNode n
  | _ => False

namespace PlainNode
variable {n : Node ℝ}

theorem explicit (h : PlainNode n) : EvalExplicit n := by
  induction n <;> simp_all [PlainNode, EvalExplicit]

theorem sub {s : Node ℝ} (h : PlainNode n) (hs : SubExpr s n) : PlainNode s := by
  induction hs with
  | refl => exact h
  | @step e' e hm _ ih =>
    refine ih ?_
    cases e <;> simp only [children, List.mem_cons, List.not_mem_nil, or_false] at hm <;>
      simp only [PlainNode] at h
    all_goals first
      | exact h.elim
      | (rcases hm with rfl | rfl; exacts [h.1, h.2])
      | (subst hm; first | exact h | exact h.2)

theorem cacheFree (h : PlainNode n) : CacheFree n := fun _ _ hs => h.sub hs

theorem allScalar (h : PlainNode n) : AllScalar scalars n :=
  ⟨fun _ _ => rfl, fun _ _ hs => h.sub hs, fun _ _ hs => (h.sub hs).elim⟩

theorem impl (h : PlainNode n) : Nonempty (FnImpl scalars n .scalar) :=
  scalar_impl h.allScalar fun _ _ _ hs => (h.sub hs).elim

theorem powSafe (h : PlainNode n) (ρ : Id → Tensor ℝ) : PowSafe ρ n :=
  fun _ _ hs => .inl (h.sub hs).1.explicit

theorem adjoint (h : PlainNode n) (t : Id) : ∃ n', n.adjoint t = some n' := by
  induction n with
  | var i => exact ⟨_, rfl⟩
  | const τ b => exact ⟨_, rfl⟩
  | add l r ihl ihr | sub l r ihl ihr | mul l r ihl ihr | div l r ihl ihr | power l r ihl ihr =>
    obtain ⟨l', hl⟩ := ihl h.1
    obtain ⟨r', hr⟩ := ihr h.2
    exact ⟨_, by simp only [Node.adjoint, hl, hr]; rfl⟩
  | sum n ih => exact ih h
  | un op n ih =>
    obtain ⟨n', hn⟩ := ih h.2
    have := h.1
    simp only [List.mem_cons, List.not_mem_nil, or_false] at this
    rcases this with rfl | rfl | rfl | rfl | rfl <;>
      exact ⟨_, by simp only [Node.adjoint, hn]; rfl⟩
  | varAdj | constSpec | constAdj | cached | contract => exact h.elim

end PlainNode

/-- The node `n` has the meaning `m`. -/
structure Represents (n : Node ℝ) (m : Meaning) : Prop where
  plain : PlainNode n
  den : ∀ v, (den (envOf (pointCtx v)) n).dims = [] ∧ (den (envOf (pointCtx v)) n).val [] = m.fn v
  smooth : ∀ v t, m.dom v → Smooth (envOf (pointCtx v)) t n

namespace Represents

theorem var (i : Id) : Represents (.var i) ⟨fun v => v i, fun _ => True⟩ :=
  ⟨trivial, fun _ => ⟨rfl, rfl⟩, fun _ _ _ => trivial⟩

theorem const (x : ℝ) : Represents (.const .scalar x) ⟨fun _ => x, fun _ => True⟩ :=
  ⟨rfl, fun _ => ⟨rfl, rfl⟩, fun _ _ _ => trivial⟩

theorem zip {l r : Tensor ℝ} (f : ℝ → ℝ → ℝ) {x y : ℝ} (hl : l.dims = [] ∧ l.val [] = x)
    (hr : r.dims = [] ∧ r.val [] = y) :
    (Tensor.zip f l r).dims = [] ∧ (Tensor.zip f l r).val [] = f x y := by
  simp [Tensor.zip, hl.1, hr.1, bIdx, hl.2, hr.2]

theorem add {l r : Node ℝ} {m k : Meaning} (hl : Represents l m) (hr : Represents r k) :
    Represents (.add l r) ⟨fun v => m.fn v + k.fn v, fun v => m.dom v ∧ k.dom v⟩ :=
  ⟨⟨hl.plain, hr.plain⟩, fun v => zip _ (hl.den v) (hr.den v),
    fun v t h => ⟨hl.smooth v t h.1, hr.smooth v t h.2⟩⟩

theorem sub {l r : Node ℝ} {m k : Meaning} (hl : Represents l m) (hr : Represents r k) :
    Represents (.sub l r) ⟨fun v => m.fn v - k.fn v, fun v => m.dom v ∧ k.dom v⟩ :=
  ⟨⟨hl.plain, hr.plain⟩, fun v => zip _ (hl.den v) (hr.den v),
    fun v t h => ⟨hl.smooth v t h.1, hr.smooth v t h.2⟩⟩

theorem mul {l r : Node ℝ} {m k : Meaning} (hl : Represents l m) (hr : Represents r k) :
    Represents (.mul l r) ⟨fun v => m.fn v * k.fn v, fun v => m.dom v ∧ k.dom v⟩ :=
  ⟨⟨hl.plain, hr.plain⟩, fun v => zip _ (hl.den v) (hr.den v),
    fun v t h => ⟨hl.smooth v t h.1, hr.smooth v t h.2⟩⟩

theorem div {l r : Node ℝ} {m k : Meaning} (hl : Represents l m) (hr : Represents r k) :
    Represents (.div l r) ⟨fun v => m.fn v / k.fn v, fun v => m.dom v ∧ k.dom v ∧ k.fn v ≠ 0⟩ := by
  refine ⟨⟨hl.plain, hr.plain⟩, fun v => zip _ (hl.den v) (hr.den v),
    fun v t h => ⟨hl.smooth v t h.1, hr.smooth v t h.2.1, fun ix hix => ?_⟩⟩
  rw [(hr.den v).1] at hix
  cases hix
  rw [(hr.den v).2]
  exact h.2.2

theorem power {l r : Node ℝ} {m k : Meaning} (hl : Represents l m) (hr : Represents r k) :
    Represents (.power l r)
      ⟨fun v => m.fn v ^ k.fn v, fun v => m.dom v ∧ k.dom v ∧ 0 < m.fn v⟩ := by
  refine ⟨⟨hl.plain, hr.plain⟩, fun v => ⟨rfl, ?_⟩,
    fun v t h => ⟨hl.smooth v t h.1, hr.smooth v t h.2.1, .inl ?_⟩⟩
  · show ScalarFns.pow _ _ = _
    rw [(hl.den v).2, (hr.den v).2]
    rfl
  · rw [(hl.den v).2]
    exact h.2.2

theorem natPower {l : Node ℝ} {m : Meaning} (hl : Represents l m) {x : ℝ} {n : ℕ} (hx : x = n)
    (hn : 1 ≤ n) : Represents (.power l (.const .scalar x)) ⟨fun v => m.fn v ^ n, m.dom⟩ := by
  refine ⟨⟨hl.plain, rfl⟩, fun v => ⟨rfl, ?_⟩, fun v t h => ⟨hl.smooth v t h, trivial, .inr
    ⟨?_, n, hn, hx, .inl hl.plain.explicit⟩⟩⟩
  · show ScalarFns.pow _ x = _
    rw [(hl.den v).2, hx]
    exact Real.rpow_natCast _ _
  · intro ho
    cases ho with
    | child hc _ => cases hc

theorem un {n : Node ℝ} {m : Meaning} (h : Represents n m) (op : UnOp)
    (ho : op ∈ [UnOp.abs, .negate, .ln, .square, .sigmoid]) (D : Point → Prop)
    (hD : ∀ v, D v → m.dom v ∧ UnOp.SmoothAt op (m.fn v)) :
    Represents (.un op n) ⟨fun v => op.apply (m.fn v), D⟩ := by
  refine ⟨⟨ho, h.plain⟩, fun v => ⟨(h.den v).1, congrArg op.apply (h.den v).2⟩,
    fun v t hd => ⟨h.smooth v t (hD v hd).1, fun ix hix => ?_⟩⟩
  rw [(h.den v).1] at hix
  cases hix
  rw [(h.den v).2]
  exact (hD v hd).2

theorem sum {n : Node ℝ} {m : Meaning} (h : Represents n m) : Represents (.sum n) m := by
  refine ⟨h.plain, fun v => ⟨rfl, ?_⟩, fun v t hd => ⟨h.smooth v t hd, (h.den v).1⟩⟩
  show sumOver _ _ = _
  rw [(h.den v).1]
  simpa [sumOver] using (h.den v).2

theorem congr {n : Node ℝ} {m : Meaning} (h : Represents n m) {f : Point → ℝ} {D : Point → Prop}
    (hf : ∀ v, m.fn v = f v) (hD : ∀ v, D v → m.dom v) : Represents n ⟨f, D⟩ :=
  ⟨h.plain, fun v => ⟨(h.den v).1, (h.den v).2.trans (hf v)⟩, fun v t hd => h.smooth v t (hD v hd)⟩

theorem square {n : Node ℝ} {m : Meaning} (h : Represents n m) :
    Represents (.un .square n) ⟨fun v => m.fn v ^ 2, m.dom⟩ := by
  refine (h.un .square (by simp) m.dom fun v hd => ⟨hd, trivial⟩).congr (fun v => ?_) fun _ hd => hd
  show ScalarFns.pow _ (1 + 1) = _
  rw [one_add_one_eq_two]
  exact Real.rpow_two _

/-- What the node computes. -/
theorem evaluates {n : Node ℝ} {m : Meaning} (h : Represents n m) (v : Point)
    (d : FnImpl scalars n .scalar) : (d.evaluate (pointCtx v)).1 = .ok (m.fn v) := by
  obtain ⟨n', hn⟩ := h.plain.adjoint 0
  obtain ⟨da⟩ := C28_evaluable_partial hn h.plain.cacheFree h.plain.allScalar rfl d
  have hr := (h.plain.allScalar.regular d).2
  have hra := ((AllScalar.adjoint hn h.plain.cacheFree h.plain.allScalar rfl).regular da).2
  obtain ⟨⟨x, hx⟩, -⟩ := eval_total hn h.plain.cacheFree d da hr hra (pointCtx v)
    (fun _ _ => Option.some_ne_none _) (Option.some_ne_none _)
  have := (den_of_eval h.plain.cacheFree d hr (h.plain.powSafe _) hx).2 []
    (by rw [(h.den v).1]; exact .nil)
  rw [(h.den v).2] at this
  rw [hx]
  exact congrArg Res.ok (Option.some.inj this)

theorem write_point (v : Point) (t : Id) (s : ℝ) :
    (pointCtx v).write t (setEntry (τ := .scalar) (v t) [] s) = pointCtx (Function.update v t s) := by
  funext i
  unfold Ctx.write pointCtx
  split
  · subst_vars
    simp only [Function.update_self]
    rfl
  · rename_i hi
    rw [Function.update_of_ne hi]

/-- What its adjoint computes. -/
theorem differentiates {n n' : Node ℝ} {m : Meaning} (h : Represents n m) (t : Id)
    (hn : n.adjoint t = some n') (v : Point) (hv : m.dom v) (da : FnImpl scalars n' .scalar) :
    ∃ a : ℝ, (da.evaluate (pointCtx v)).1 = .ok a ∧
      HasDerivAt (fun s => m.fn (Function.update v t s)) a (v t) := by
  obtain ⟨d⟩ := h.plain.impl
  obtain ⟨-, a, x, ha, hx, hd⟩ := C28_scalar_partial hn h.plain.cacheFree h.plain.allScalar rfl d da
    (pointCtx v) (fun _ _ => Option.some_ne_none _) (b := v t) rfl (h.smooth v t hv)
  refine ⟨a, ha, ?_⟩
  cases hx
  convert hd using 1
  funext s
  have := h.evaluates (Function.update v t s) d
  simp only [along, write_point, this]
  rfl

end Represents

theorem represents_of_computes {num : String → ℝ} (h2 : num "2.0" = 2)
    {ρ : String → Option Meaning} {env : String → Option (Node ℝ)}
    (hρ : ∀ p m, ρ p = some m → ∃ n, env p = some n ∧ Represents n m) {e : Compile.Expr} {m : Meaning}
    (h : Computes num ρ e m) : ∃ n, Stands env (floats num) e n ∧ Represents n m := by
  induction h with
  | path hp =>
    obtain ⟨n, hn, hr⟩ := hρ _ _ hp
    exact ⟨n, .path hn, hr⟩
  | float t => exact ⟨_, .float rfl, .const _⟩
  | paren _ ih =>
    obtain ⟨n, hn, hr⟩ := ih
    exact ⟨n, .paren hn, hr⟩
  | add _ _ ihl ihr =>
    obtain ⟨n, hn, hr⟩ := ihl
    obtain ⟨n', hn', hr'⟩ := ihr
    exact ⟨_, .add hn hn', hr.add hr'⟩
  | sub _ _ ihl ihr =>
    obtain ⟨n, hn, hr⟩ := ihl
    obtain ⟨n', hn', hr'⟩ := ihr
    exact ⟨_, .sub hn hn', hr.sub hr'⟩
  | mul _ _ ihl ihr =>
    obtain ⟨n, hn, hr⟩ := ihl
    obtain ⟨n', hn', hr'⟩ := ihr
    exact ⟨_, .mul hn hn', hr.mul hr'⟩
  | @pow l r m k hl hr0 ihl ihr =>
    obtain ⟨n, hn, hr⟩ := ihl
    obtain ⟨n', hn', hr'⟩ := ihr
    by_cases h : IsTwo r
    · refine ⟨_, .square hn h, hr.square.congr (fun v => ?_) fun v hd => hd.1⟩
      have : k.fn v = 2 := by
        rcases h with rfl | rfl <;> cases hr0
        exact h2
      rw [this]
      exact (Real.rpow_two _).symm
    · exact ⟨_, .power hn hn' h, hr.power hr'⟩
  | @natPow l m t n hl hx h1 ih =>
    obtain ⟨n', hn, hr⟩ := ih
    by_cases h : IsTwo (.lit (.float t))
    · refine ⟨_, .square hn h, hr.square.congr (fun v => ?_) fun v hd => hd⟩
      have : (n : ℝ) = (2 : ℕ) := by
        rw [← hx]
        simp only [IsTwo, reduceCtorEq, Expr.lit.injEq, Lit.float.injEq, false_or] at h
        rw [h, h2]
        norm_num
      rw [Nat.cast_injective this]
    · exact ⟨_, .power hn (.float rfl) h, hr.natPower hx h1⟩
  | square _ ht ih =>
    obtain ⟨n, hn, hr⟩ := ih
    exact ⟨_, .square hn ht, hr.square⟩
  | abs _ ih =>
    obtain ⟨n, hn, hr⟩ := ih
    exact ⟨_, .call0 (op := .abs) hn (by simp), (hr.un .abs (by simp) _ fun _ hd => hd)⟩
  | neg _ ih =>
    obtain ⟨n, hn, hr⟩ := ih
    exact ⟨_, .call0 (op := .negate) hn (by simp), (hr.un .negate (by simp) _ fun _ hd => ⟨hd, trivial⟩)⟩
  | ln _ ih =>
    obtain ⟨n, hn, hr⟩ := ih
    exact ⟨_, .call0 (op := .ln) hn (by simp), (hr.un .ln (by simp) _ fun _ hd => hd)⟩
  | squared _ ih =>
    obtain ⟨n, hn, hr⟩ := ih
    exact ⟨_, .call0 (op := .square) hn (by simp), hr.square⟩
  | sigmoid _ ih =>
    obtain ⟨n, hn, hr⟩ := ih
    exact ⟨_, .call0 (op := .sigmoid) hn (by simp), (hr.un .sigmoid (by simp) _ fun _ hd =>
      ⟨hd, trivial⟩).congr (fun v => sigmoid_eq _) fun _ hd => hd⟩
  | sum _ ih =>
    obtain ⟨n, hn, hr⟩ := ih
    exact ⟨_, .sum hn, hr.sum⟩
  | div _ _ ihl ihr =>
    obtain ⟨n, hn, hr⟩ := ihl
    obtain ⟨n', hn', hr'⟩ := ihr
    exact ⟨_, .div hn hn', hr.div hr'⟩

theorem constructs_unique {F : Type} {env : String → Option (Node F)} {num : String → String → Option F}
    {e : Compile.Expr} {n n' : Node F} (h : Constructs env num e n) (h' : Constructs env num e n') :
    n = n' := by
  obtain ⟨ts, e1, h1, ⟨N, h2⟩, h3⟩ := h
  obtain ⟨ts', e2, h1', ⟨M, h2'⟩, h3'⟩ := h'
  obtain rfl : ts = ts' := Option.some.inj (h1.symm.trans h1')
  have := (h2 (max N M) (by omega)).symm.trans (h2' (max N M) (by omega))
  obtain rfl : e1 = e2 := by simpa using this
  exact Option.some.inj (h3.symm.trans h3')

/-- Nodes for all meanings. -/
def EnvFor (ρ : String → Option Meaning) (env : String → Option (Node ℝ)) : Prop :=
  ∀ p m, ρ p = some m → ∃ n, env p = some n ∧ Represents n m

theorem EnvFor.update {ρ : String → Option Meaning} {env : String → Option (Node ℝ)}
    (h : EnvFor ρ env) (p : String) {m : Meaning} {n : Node ℝ} (hn : Represents n m) :
    EnvFor (fun q => if q = p then some m else ρ q) (fun q => if q = p then some n else env q) := by
  intro q k hq
  dsimp only at hq ⊢
  split at hq
  · cases hq
    exact ⟨n, if_pos (by assumption), hn⟩
  · rename_i hqp
    rw [if_neg hqp]
    exact h q k hq

theorem constructs_of_computes {num : String → ℝ} (h2 : num "2.0" = 2)
    {ρ : String → Option Meaning} {env : String → Option (Node ℝ)} (hρ : EnvFor ρ env)
    {e : Compile.Expr} {m : Meaning} (h : Computes num ρ e m) :
    ∃ n, Constructs env (floats num) e n ∧ Represents n m := by
  obtain ⟨n, hs, hr⟩ := represents_of_computes h2 hρ h
  exact ⟨n, C41_expansion env (floats num) e n hs, hr⟩

theorem compiles_of_binds {num : String → ℝ} (h2 : num "2.0" = 2)
    {ρ ρ' : String → Option Meaning} {bs : List (String × Compile.Expr)} (h : Binds num ρ bs ρ')
    {env : String → Option (Node ℝ)} (hρ : EnvFor ρ env) :
    ∃ env', Compiles (floats num) env bs env' ∧ EnvFor ρ' env' := by
  induction h generalizing env with
  | nil ρ => exact ⟨env, .nil _, hρ⟩
  | cons hc _ ih =>
    obtain ⟨n, hn, hr⟩ := constructs_of_computes h2 hρ hc
    obtain ⟨env', h1, h2⟩ := ih (hρ.update _ hr)
    exact ⟨env', .cons hn h1, h2⟩

theorem compiles_unique {F : Type} {num : String → String → Option F} {env env₁ env₂ : String → Option (Node F)}
    {bs : List (String × Compile.Expr)} (h : Compiles num env bs env₁) (h' : Compiles num env bs env₂) :
    env₁ = env₂ := by
  induction h with
  | nil => cases h'; rfl
  | cons hc _ ih =>
    cases h' with
    | cons hc' h' =>
      obtain rfl := constructs_unique hc hc'
      exact ih h'

end Aegir
