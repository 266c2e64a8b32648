import Verif.Model.Eval
/-!
# Trait resolution

The trait solver picks the impls of `Function<C>` for an expression from the buffer types of the
context. Here it is as a function, so that expressions can be run.
-/

namespace Aegir

/-- Lookup of the `Concat` impl of two shapes (`shapes/compiled.rs` L191-338; the impls do not
overlap). -/
def concatImpl? : (a b : BTy) → Option (Σ c, ConcatImpl a b c)
  | .scalar, .scalar => some ⟨_, .ss⟩
  | .scalar, .array es => some ⟨_, .sa es⟩
  | .array ds, .scalar => some ⟨_, .as ds⟩
  | .array ds, .array es => if h : ds.length + es.length ≤ 5 then some ⟨_, .aa ds es h⟩ else none
  | .scalar, .tuple => some ⟨_, .st⟩
  | .tuple, .scalar => some ⟨_, .ts⟩
  | .tuple, .array es => if h : es.length ≤ 4 then some ⟨_, .ta es h⟩ else none
  | .array ds, .tuple => if h : ds.length ≤ 4 then some ⟨_, .at ds h⟩ else none
  | _, _ => none

section
variable {F : Type} {Γ : Id → BTy}

/-- `d` as an impl with the value type `σ`, if that is its value type. -/
def FnImpl.as? {e : Node F} {τ : BTy} (d : FnImpl Γ e τ) (σ : BTy) : Option (FnImpl Γ e σ) :=
  if h : τ = σ then some (h ▸ d) else none

/-- The `Function<C>` impl of an expression, operands first. The bounds are those of the impls:
`meta/variable.rs` L47-60, L137-164, `meta/constant.rs` L48-62, L163-177, `meta/cached.rs` L24-38,
`binary.rs` L81-97, L205-222, L341-356, L477-498, L592-610, `ops/linalg/mod.rs` L38-52,
`unary.rs` L230-243, `ops/mod.rs` L12-21. -/
def resolve (Γ : Id → BTy) : (e : Node F) → Option (Σ τ, FnImpl Γ e τ)
  | .var i => some ⟨_, .var i⟩
  | .varAdj i t =>
      if h : (Γ i).rank ≤ 3 then (concatImpl? (Γ i) (Γ t)).map fun k => ⟨k.1, .varAdj i t k.2 h⟩
      else none
  | .const τ b => some ⟨τ, .const τ b⟩
  | .constSpec τ s => some ⟨τ, .constSpec τ s⟩
  | .constAdj n t =>
      (resolve Γ n).bind fun d => (concatImpl? d.1 (Γ t)).map fun k => ⟨k.1, .constAdj d.2 t k.2⟩
  | .cached n i => (resolve Γ n).bind fun d => (d.2.as? (Γ i)).map fun d => ⟨_, .cached i d⟩
  | .add l r => (resolve Γ l).bind fun dl => (resolve Γ r).bind fun dr =>
      (zipImpl? dl.1 dr.1).map fun z => ⟨z.1, .add dl.2 dr.2 z.2⟩
  | .sub l r => (resolve Γ l).bind fun dl => (resolve Γ r).bind fun dr =>
      (zipImpl? dl.1 dr.1).map fun z => ⟨z.1, .sub dl.2 dr.2 z.2⟩
  | .mul l r => (resolve Γ l).bind fun dl => (resolve Γ r).bind fun dr =>
      (zipImpl? dl.1 dr.1).map fun z => ⟨z.1, .mul dl.2 dr.2 z.2⟩
  | .div l r => (resolve Γ l).bind fun dl => (resolve Γ r).bind fun dr =>
      (zipImpl? dl.1 dr.1).map fun z => ⟨z.1, .div dl.2 dr.2 z.2⟩
  | .power l r => (resolve Γ l).bind fun dl => (resolve Γ r).bind fun dr =>
      (dl.2.as? .scalar).bind fun dl => (dr.2.as? .scalar).map fun dr => ⟨_, .power dl dr⟩
  | .contract k l r => (resolve Γ l).bind fun dl => (resolve Γ r).bind fun dr =>
      (contractImpl? k dl.1 dr.1).map fun z => ⟨z.1, .contract dl.2 dr.2 z.2⟩
  | .sum n => (resolve Γ n).map fun d => ⟨_, .sum d.2⟩
  | .un op n => (resolve Γ n).map fun d => ⟨_, .un op d.2⟩

variable [Zero F] [One F] [Add F] [Sub F] [Mul F] [Div F] [Neg F] [ScalarFns F]

/-- `e.evaluate(&mut ctx)`; `none` if it does not compile. -/
def run (e : Node F) (c : Ctx F Γ) : Option (Σ τ, Res EvalErr (Buf F τ)) :=
  (resolve Γ e).map fun d => ⟨d.1, (d.2.evaluate c).1⟩

/-- `e.evaluate_spec(&mut ctx)`. -/
def runSpec (e : Node F) (c : Ctx F Γ) : Option (Σ τ, Res EvalErr (BSpec F τ)) :=
  (resolve Γ e).map fun d => ⟨d.1, (d.2.evaluateSpec c).1⟩

/-- `e.evaluate_adjoint(t, &mut ctx)` (`lib.rs` L316-326). -/
def runAdjoint (e : Node F) (t : Id) (c : Ctx F Γ) : Option (Σ τ, Res EvalErr (Buf F τ)) :=
  (e.adjoint t).bind fun e' => run e' c

/-- `e.evaluate_dual(t, &mut ctx)` (`lib.rs` L330-346). -/
def runDual (e : Node F) (t : Id) (c : Ctx F Γ) :
    Option (Σ τ σ, Res EvalErr (Buf F τ × Buf F σ)) :=
  (e.adjoint t).bind fun e' => (resolve Γ e).bind fun d => (resolve Γ e').map fun da =>
    ⟨d.1, da.1, (evaluateDual d.2 da.2 c).1⟩

end

end Aegir
