import Verif.Lemmas.LogisticOp
import Verif.Lemmas.Calculus
import Verif.Model.Resolve
/-!
# The adjoints of single operators, run on scalars
-/

namespace Aegir.Props
open Aegir Aegir.Spec

section
variable {F : Type} [Zero F] [One F] [Add F] [Sub F] [Mul F] [Div F] [Neg F] [ScalarFns F]

/-- The context in which variable 0 is `x` and all others are `y`. -/
def xy (x y : F) : Ctx F (fun _ => .scalar) := fun i => some (if i = 0 then x else y)

/-- What `evaluate_adjoint` returns for an expression in the scalars `x` and `y`, if it does. -/
def adjointAt (e : Node F) (t : Id) (x y : F) : Option F :=
  match runAdjoint e t (xy x y) with
  | some ⟨.scalar, .ok g⟩ => some g
  | _ => none


/-- The adjoints of the unary operators at a variable, as formulas. -/
def slope : UnOp → F → F
  | .subOne, _ | .addOne, _ => 1
  | .oneSub, _ | .negate, _ => -1
  | .square, x => (1 + 1) * x * 1
  | .double, _ => (1 + 1) * 1
  | .sign, x => UnOp.apply .dirac x * 1
  | .abs, x => UnOp.apply .sign x * 1
  | .ln, x => 1 / x
  | .xlnx, x => 1 * (ScalarFns.ln x + 1)
  | .exp, x => ScalarFns.exp x * 1
  | .rabbit, x => (1 - (1 + 1) * x) * 1
  | .sigmoid, x => 1 * (sigmoid x * (1 - sigmoid x))
  | .gamma, x => 1 * ScalarFns.digamma x * ScalarFns.gamma x
  | .logGamma, x => 1 * ScalarFns.digamma x
  | .cos, x => -(1 * ScalarFns.sin x)
  | .sin, x => 1 * ScalarFns.cos x
  | _, _ => 0

theorem adjointAt_un (op : UnOp) (h : op.diffable = true) (x y : F) :
    adjointAt (.un op (.var 0)) 0 x y = some (slope op x) := by
  cases op <;> first | rfl | cases h

private abbrev S : Id → BTy := fun _ => .scalar

private theorem adjoint_of {e e' : Node F} {t : Id} {x y g : F} {d : FnImpl S e' .scalar} (ha : e.adjoint t = some e')
    (hr : resolve S e' = some ⟨_, d⟩) (h : (d.evaluate (xy x y)).1 = .ok g) : adjointAt e t x y = some g := by
  have hrun : runAdjoint e t (xy x y) = some ⟨.scalar, .ok g⟩ := by
    unfold runAdjoint
    rw [ha, Option.bind_some, run, hr, Option.map_some, h]
  unfold adjointAt
  rw [hrun]

omit [One F] [Add F] [Sub F] [Div F] [Neg F] in
private theorem mul_full (h0 : ScalarFns.isZero (0 : F) = true) (a : F) :
    mulSpec .ss (.raw a) (.full () 0 : BSpec F .scalar) = .ok (.full () 0 : BSpec F .scalar) := by
  show (if ScalarFns.isZero (0 : F) then _ else _) = _
  rw [if_pos h0]
  rfl

omit [One F] [Add F] [Sub F] [Div F] [Neg F] in
private theorem full_mul (h0 : ScalarFns.isZero (0 : F) = true) (a : F) :
    mulSpec .ss (.full () 0 : BSpec F .scalar) (.raw a) = .ok (.full () 0 : BSpec F .scalar) := by
  show (if ScalarFns.isZero (0 : F) then _ else _) = _
  rw [if_pos h0]
  rfl

omit [One F] [Sub F] [Mul F] [Div F] [Neg F] in
private theorem add_full (h0 : ScalarFns.isZero (0 : F) = true) (a : F) :
    addSpec .ss (.raw a) (.full () 0 : BSpec F .scalar) = .ok (.raw a : BSpec F .scalar) := by
  show (if ScalarFns.isZero (0 : F) then _ else _) = _
  rw [if_pos h0]
  rfl

omit [One F] [Sub F] [Mul F] [Div F] [Neg F] in
private theorem full_add (h0 : ScalarFns.isZero (0 : F) = true) (a : F) :
    addSpec .ss (.full () 0 : BSpec F .scalar) (.raw a) = .ok (.raw a : BSpec F .scalar) := by
  show (if ScalarFns.isZero (0 : F) then _ else _) = _
  rw [if_pos h0]
  rfl

omit [One F] [Add F] [Mul F] [Div F] [Neg F] in
private theorem sub_full (h0 : ScalarFns.isZero (0 : F) = true) (a : F) :
    subSpec .ss (.raw a) (.full () 0 : BSpec F .scalar) = .ok (.raw a : BSpec F .scalar) := by
  show (if ScalarFns.isZero (0 : F) then _ else _) = _
  rw [if_pos h0]
  rfl

private theorem ev_ofSpec {e : Node F} {d : FnImpl S e .scalar} {c : Ctx F S} {s : BSpec F .scalar}
    (hd : d.fn.evaluate = d.fn.evaluateSpec.map BSpec.unwrap) (h : d.evaluateSpec c = (.ok s, c)) :
    d.evaluate c = (.ok s.unwrap, c) := by
  show d.fn.evaluate c = _
  rw [hd]
  exact Examples.evalMap_ok _ h

private theorem run_ofSpec {e e' : Node F} {t : Id} {x y : F} (d : FnImpl S e' .scalar) {s : BSpec F .scalar}
    (ha : e.adjoint t = some e') (hr : resolve S e' = some ⟨_, d⟩)
    (hd : d.fn.evaluate = d.fn.evaluateSpec.map BSpec.unwrap) (h : d.evaluateSpec (xy x y) = (.ok s, xy x y)) :
    adjointAt e t x y = some s.unwrap :=
  adjoint_of ha hr (congrArg Prod.fst (ev_ofSpec hd h))

private abbrev v0 : FnImpl (F := F) S (.var 0) .scalar := .var 0
private abbrev v1 : FnImpl (F := F) S (.var 1) .scalar := .var 1
private abbrev a00 : FnImpl (F := F) S (.varAdj 0 0) .scalar := .varAdj 0 0 .ss (Nat.zero_le _)
private abbrev a01 : FnImpl (F := F) S (.varAdj 0 1) .scalar := .varAdj 0 1 .ss (Nat.zero_le _)
private abbrev a10 : FnImpl (F := F) S (.varAdj 1 0) .scalar := .varAdj 1 0 .ss (Nat.zero_le _)
private abbrev a11 : FnImpl (F := F) S (.varAdj 1 1) .scalar := .varAdj 1 1 .ss (Nat.zero_le _)

private theorem vx (x y : F) : (v0 (F := F)).evaluateSpec (xy x y) = (.ok (.raw x), xy x y) := rfl
private theorem vy (x y : F) : (v1 (F := F)).evaluateSpec (xy x y) = (.ok (.raw y), xy x y) := rfl
private theorem d00 (x y : F) : (a00 (F := F)).evaluateSpec (xy x y) = (.ok (.raw 1), xy x y) := rfl
private theorem d11 (x y : F) : (a11 (F := F)).evaluateSpec (xy x y) = (.ok (.raw 1), xy x y) := rfl
private theorem d01 (x y : F) : (a01 (F := F)).evaluateSpec (xy x y) = (.ok (.full () 0), xy x y) := rfl
private theorem d10 (x y : F) : (a10 (F := F)).evaluateSpec (xy x y) = (.ok (.full () 0), xy x y) := rfl

/-- `add`, differentiated with respect to its first argument. -/
theorem adjointAt_add0 (h0 : ScalarFns.isZero (0 : F) = true) (x y : F) :
    adjointAt (.add (.var 0) (.var 1)) 0 x y = some 1 := by
  exact run_ofSpec (.add a00 a10 .ss) rfl rfl rfl (Examples.binM_eval (d00 x y) (d10 x y) (add_full h0 1))

/-- `add`, differentiated with respect to its second argument. -/
theorem adjointAt_add1 (h0 : ScalarFns.isZero (0 : F) = true) (x y : F) :
    adjointAt (.add (.var 0) (.var 1)) 1 x y = some 1 := by
  exact run_ofSpec (.add a01 a11 .ss) rfl rfl rfl (Examples.binM_eval (d01 x y) (d11 x y) (full_add h0 1))

/-- `sub`, differentiated with respect to its first argument. -/
theorem adjointAt_sub0 (h0 : ScalarFns.isZero (0 : F) = true) (x y : F) :
    adjointAt (.sub (.var 0) (.var 1)) 0 x y = some 1 := by
  exact run_ofSpec (.sub a00 a10 .ss) rfl rfl rfl (Examples.binM_eval (d00 x y) (d10 x y) (sub_full h0 1))

/-- `sub`, differentiated with respect to its second argument. -/
theorem adjointAt_sub1 (x y : F) :
    adjointAt (.sub (.var 0) (.var 1)) 1 x y = some (0 - 1) := by
  exact run_ofSpec (.sub a01 a11 .ss) (s := .raw (0 - 1)) rfl rfl rfl (Examples.binM_eval (d01 x y) (d11 x y) rfl)

/-- `mul`, differentiated with respect to its first argument. -/
theorem adjointAt_mul0 (h0 : ScalarFns.isZero (0 : F) = true) (x y : F) :
    adjointAt (.mul (.var 0) (.var 1)) 0 x y = some (1 * y) := by
  have h1 : (FnImpl.mul a00 v1 .ss).evaluateSpec (xy x y) = (.ok (.raw (1 * y)), xy x y) :=
    Examples.binM_eval (d00 x y) (vy x y) rfl
  have h2 : (FnImpl.mul a10 v0 .ss).evaluateSpec (xy x y) = (.ok (.full () 0), xy x y) :=
    Examples.binM_eval (d10 x y) (vx x y) (full_mul h0 x)
  exact run_ofSpec (.add (.mul a00 v1 .ss) (.mul a10 v0 .ss) .ss) (e := .mul (.var 0) (.var 1)) (x := x) (y := y) rfl rfl rfl
    (Examples.binM_eval h1 h2 (add_full h0 _))

/-- `mul`, differentiated with respect to its second argument. -/
theorem adjointAt_mul1 (h0 : ScalarFns.isZero (0 : F) = true) (x y : F) :
    adjointAt (.mul (.var 0) (.var 1)) 1 x y = some (1 * x) := by
  have h1 : (FnImpl.mul a01 v1 .ss).evaluateSpec (xy x y) = (.ok (.full () 0), xy x y) :=
    Examples.binM_eval (d01 x y) (vy x y) (full_mul h0 y)
  have h2 : (FnImpl.mul a11 v0 .ss).evaluateSpec (xy x y) = (.ok (.raw (1 * x)), xy x y) :=
    Examples.binM_eval (d11 x y) (vx x y) rfl
  exact run_ofSpec (.add (.mul a01 v1 .ss) (.mul a11 v0 .ss) .ss) (e := .mul (.var 0) (.var 1)) (x := x) (y := y) rfl rfl rfl
    (Examples.binM_eval h1 h2 (full_add h0 _))

/-- `div`, differentiated with respect to its first argument. -/
theorem adjointAt_div0 (h0 : ScalarFns.isZero (0 : F) = true) (x y : F) :
    adjointAt (.div (.var 0) (.var 1)) 0 x y = some (y * 1 / ScalarFns.pow y (1 + 1)) := by
  have h1 : (FnImpl.mul v1 a00 .ss).evaluateSpec (xy x y) = (.ok (.raw (y * 1)), xy x y) :=
    Examples.binM_eval (vy x y) (d00 x y) rfl
  have h2 : (FnImpl.mul v0 a10 .ss).evaluateSpec (xy x y) = (.ok (.full () 0), xy x y) :=
    Examples.binM_eval (vx x y) (d10 x y) (mul_full h0 x)
  have hs : (FnImpl.sub (.mul v1 a00 .ss) (.mul v0 a10 .ss) .ss).evaluateSpec (xy x y) = (.ok (.raw (y * 1)), xy x y) :=
    Examples.binM_eval h1 h2 (sub_full h0 _)
  have h3 : (FnImpl.sub (.mul v1 a00 .ss) (.mul v0 a10 .ss) .ss).evaluate (xy x y) = (.ok (y * 1), xy x y) :=
    ev_ofSpec rfl hs
  have h4 : (FnImpl.un .square v1).evaluate (xy x y) = (.ok (ScalarFns.pow y (1 + 1)), xy x y) := rfl
  exact adjoint_of (e := .div (.var 0) (.var 1))
    (d := .div (.sub (.mul v1 a00 .ss) (.mul v0 a10 .ss) .ss) (.un .square v1) .ss) rfl rfl
    (congrArg Prod.fst (Examples.binM_eval h3 h4 rfl))

/-- `div`, differentiated with respect to its second argument. -/
theorem adjointAt_div1 (h0 : ScalarFns.isZero (0 : F) = true) (x y : F) :
    adjointAt (.div (.var 0) (.var 1)) 1 x y = some ((0 - x * 1) / ScalarFns.pow y (1 + 1)) := by
  have h1 : (FnImpl.mul v1 a01 .ss).evaluateSpec (xy x y) = (.ok (.full () 0), xy x y) :=
    Examples.binM_eval (vy x y) (d01 x y) (mul_full h0 y)
  have h2 : (FnImpl.mul v0 a11 .ss).evaluateSpec (xy x y) = (.ok (.raw (x * 1)), xy x y) :=
    Examples.binM_eval (vx x y) (d11 x y) rfl
  have h3 : (FnImpl.sub (.mul v1 a01 .ss) (.mul v0 a11 .ss) .ss).evaluateSpec (xy x y) =
    (.ok (.raw (0 - x * 1)), xy x y) := Examples.binM_eval h1 h2 rfl
  have h4 : (FnImpl.un .square v1).evaluate (xy x y) = (.ok (ScalarFns.pow y (1 + 1)), xy x y) := rfl
  exact adjoint_of (e := .div (.var 0) (.var 1))
    (d := .div (.sub (.mul v1 a01 .ss) (.mul v0 a11 .ss) .ss) (.un .square v1) .ss) rfl rfl
    (congrArg Prod.fst (Examples.binM_eval (ev_ofSpec rfl h3) h4 rfl))

/-- `power`, differentiated with respect to its first argument. -/
theorem adjointAt_power0 (h0 : ScalarFns.isZero (0 : F) = true) (x y : F) :
    adjointAt (.power (.var 0) (.var 1)) 0 x y = some (ScalarFns.pow x (y - 1) * (y * 1)) := by
  have h1 : (FnImpl.mul v1 a00 .ss).evaluateSpec (xy x y) = (.ok (.raw (y * 1)), xy x y) :=
    Examples.binM_eval (vy x y) (d00 x y) rfl
  have hx : (FnImpl.un .xlnx v0).evaluateSpec (xy x y) = (.ok (.raw (UnOp.apply .xlnx x)), xy x y) := rfl
  have h2 : (FnImpl.mul (.un .xlnx v0) a10 .ss).evaluateSpec (xy x y) = (.ok (.full () 0), xy x y) :=
    Examples.binM_eval hx (d10 x y) (mul_full h0 _)
  have h3 : (FnImpl.add (.mul v1 a00 .ss) (.mul (.un .xlnx v0) a10 .ss) .ss).evaluateSpec (xy x y) =
    (.ok (.raw (y * 1)), xy x y) := Examples.binM_eval h1 h2 (add_full h0 _)
  have h4 : (FnImpl.power v0 (.un .subOne v1)).evaluateSpec (xy x y) =
    (.ok (.raw (ScalarFns.pow x (y - 1))), xy x y) := rfl
  exact run_ofSpec (.mul (.power v0 (.un .subOne v1)) (.add (.mul v1 a00 .ss) (.mul (.un .xlnx v0) a10 .ss) .ss) .ss)
    (e := .power (.var 0) (.var 1)) (s := .raw _) rfl rfl rfl (Examples.binM_eval h4 h3 rfl)

/-- `power`, differentiated with respect to its second argument. -/
theorem adjointAt_power1 (h0 : ScalarFns.isZero (0 : F) = true) (x y : F) :
    adjointAt (.power (.var 0) (.var 1)) 1 x y = some (ScalarFns.pow x (y - 1) * (UnOp.apply .xlnx x * 1)) := by
  have h1 : (FnImpl.mul v1 a01 .ss).evaluateSpec (xy x y) = (.ok (.full () 0), xy x y) :=
    Examples.binM_eval (vy x y) (d01 x y) (mul_full h0 y)
  have hx : (FnImpl.un .xlnx v0).evaluateSpec (xy x y) = (.ok (.raw (UnOp.apply .xlnx x)), xy x y) := rfl
  have h2 : (FnImpl.mul (.un .xlnx v0) a11 .ss).evaluateSpec (xy x y) =
    (.ok (.raw (UnOp.apply .xlnx x * 1)), xy x y) := Examples.binM_eval hx (d11 x y) rfl
  have h3 : (FnImpl.add (.mul v1 a01 .ss) (.mul (.un .xlnx v0) a11 .ss) .ss).evaluateSpec (xy x y) =
    (.ok (.raw (UnOp.apply .xlnx x * 1)), xy x y) := Examples.binM_eval h1 h2 (full_add h0 _)
  have h4 : (FnImpl.power v0 (.un .subOne v1)).evaluateSpec (xy x y) =
    (.ok (.raw (ScalarFns.pow x (y - 1))), xy x y) := rfl
  exact run_ofSpec (.mul (.power v0 (.un .subOne v1)) (.add (.mul v1 a01 .ss) (.mul (.un .xlnx v0) a11 .ss) .ss) .ss)
    (e := .power (.var 0) (.var 1)) (s := .raw _) rfl rfl rfl (Examples.binM_eval h4 h3 rfl)

end

end Aegir.Props
