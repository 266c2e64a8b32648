import Verif.Model.Node
/-!
# Evaluation (`Function<C>`, `aegir/src/lib.rs` L233-285 and the impls in `ops/`, `meta/`)
-/

namespace Aegir

/-- A context: the buffer stored for each identifier, if any; `Γ` gives the buffer type
`<C as Read<I>>::Buffer` of each identifier (`lib.rs` L87-105).
Simplifications: every identifier has a type (in Rust a missing `Read<I>` impl is a compile error),
`read_spec` and `read_shape` are the default bodies (`lib.rs` L95-104), `write` replaces the entry
(C42 proves both for derived contexts). -/
abbrev Ctx (F : Type) (Γ : Id → BTy) := (i : Id) → Option (Buf F (Γ i))

/-- `Write::write` (`lib.rs` L107-108; derived contexts: `aegir_derive/src/ctx/derive.rs`
L242-260). -/
def Ctx.write {F : Type} {Γ : Id → BTy} (ctx : Ctx F Γ) (i : Id) (v : Buf F (Γ i)) : Ctx F Γ :=
  fun j => if h : j = i then some (h ▸ v) else ctx j

/-- Error values: `SourceError::Undefined` (`meta/mod.rs` L43-46) and the cases of `BinaryError`
(`errors.rs` L67-77). Simplification: one recursive type instead of one Rust type per node. -/
inductive EvalErr where
  | undefined (i : Id)
  | left (e : EvalErr)
  | right (e : EvalErr)
  | output (e : IncShapes)
deriving DecidableEq, Repr

/-- Computations with access to `&mut C`. -/
def EvalM (F : Type) (Γ : Id → BTy) (α : Type) := Ctx F Γ → Res EvalErr α × Ctx F Γ

namespace EvalM
variable {F : Type} {Γ : Id → BTy} {α β : Type}

/-- `Result::map` of the outcome. -/
def map (f : α → β) (m : EvalM F Γ α) : EvalM F Γ β := fun c => ((m c).1.map f, (m c).2)

/-- `Result::map_err` of the outcome. -/
def mapErr (f : EvalErr → EvalErr) (m : EvalM F Γ α) : EvalM F Γ α :=
  fun c => ((m c).1.mapErr f, (m c).2)

/-- Sequencing with `?`. -/
def bind (m : EvalM F Γ α) (f : α → EvalM F Γ β) : EvalM F Γ β := fun c =>
  match m c with
  | (.ok a, c') => f a c'
  | (.err e, c') => (.err e, c')
  | (.panic, c') => (.panic, c')

/-- An outcome that does not touch the context. -/
def lift (r : Res EvalErr α) : EvalM F Γ α := fun c => (r, c)

/-- `ctx.as_mut().read(i).ok_or(SourceError::Undefined(i))` (`meta/variable.rs` L60-64). -/
def read (i : Id) : EvalM F Γ (Buf F (Γ i)) := fun c =>
  match c i with
  | some b => (.ok b, c)
  | none => (.err (.undefined i), c)

end EvalM

/-- The three methods of `Function<C>` (`lib.rs` L233-285). -/
structure Fn (F : Type) (Γ : Id → BTy) (τ : BTy) where
  /-- `evaluate` -/
  evaluate : EvalM F Γ (Buf F τ)
  /-- `evaluate_spec` -/
  evaluateSpec : EvalM F Γ (BSpec F τ)
  /-- `evaluate_shape` -/
  evaluateShape : EvalM F Γ (Shp τ)

/-- `evaluate` as `self.evaluate_spec(ctx).map(|s| s.unwrap())` (e.g. `binary.rs` L223-225). -/
def Fn.ofSpec {F : Type} [Zero F] {Γ : Id → BTy} {τ : BTy} (spec : EvalM F Γ (BSpec F τ))
    (shape : EvalM F Γ (Shp τ)) : Fn F Γ τ := ⟨spec.map BSpec.unwrap, spec, shape⟩

/-- Types of adjoint buffers: the pairs of buffer types for which `Concat` of the shapes
(`shapes/compiled.rs` L191-338) and the class chosen by `Precedence` (`meta/mod.rs` L21-39) give an
implemented buffer type. Arrays have rank at most 5 (`arrays/buffer.rs` L73-189), tuples shape
`S1<2>`; no `Vec` pair qualifies because `SDynamic` only concatenates with `SDynamic`
(`shapes/runtime.rs` L73) and `Vecs` has no class for the result. -/
inductive ConcatImpl : BTy → BTy → BTy → Type
  | ss : ConcatImpl .scalar .scalar .scalar
  | sa (es : Dims) : ConcatImpl .scalar (.array es) (.array es)
  | as (ds : Dims) : ConcatImpl (.array ds) .scalar (.array ds)
  | aa (ds es : Dims) (h : ds.length + es.length ≤ 5) :
      ConcatImpl (.array ds) (.array es) (.array (ds ++ es))
  | st : ConcatImpl .scalar .tuple .tuple
  | ts : ConcatImpl .tuple .scalar .tuple
  | ta (es : Dims) (h : es.length ≤ 4) : ConcatImpl .tuple (.array es) (.array (2 :: es))
  | at (ds : Dims) (h : ds.length ≤ 4) : ConcatImpl (.array ds) .tuple (.array (ds ++ [2]))

/-- `Concat::concat` of the shapes (`shapes/compiled.rs` L191-338); all shapes involved are fixed. -/
def ConcatImpl.shape {a b c : BTy} : ConcatImpl a b c → Shp a → Shp b → Shp c
  | .ss, _, _ => ()
  | .sa _, _, _ => ()
  | .as _, _, _ => ()
  | .aa _ _ _, _, _ => ()
  | .st, _, _ => ()
  | .ts, _, _ => ()
  | .ta _ _, _, _ => ()
  | .at _ _, _, _ => ()

/-- `Shape::DIM` of the shape of a buffer type (`shapes/mod.rs` L100). -/
def BTy.rank : BTy → Nat
  | .scalar => 0
  | .array ds => ds.length
  | .tuple => 1
  | .vec => 1

/-- The `Function<C>` impls: `FnImpl Γ e τ` is the derivation that the node `e` implements
`Function<C>` with `Value = τ` (the `where` clauses of the impls: `meta/variable.rs` L53-59,
L135-157; `meta/constant.rs` L54-60, L138-164; `meta/cached.rs` L30-37; `binary.rs` L86-96,
L202-218, L338-352, L474-494, L593-608; `ops/linalg/mod.rs` L40-51; `unary.rs` L232-242;
`ops/mod.rs` L10-20). -/
inductive FnImpl {F : Type} (Γ : Id → BTy) : Node F → BTy → Type
  | var (i : Id) : FnImpl Γ (.var i) (Γ i)
  | varAdj (i t : Id) {c : BTy} (k : ConcatImpl (Γ i) (Γ t) c) (h : (Γ i).rank ≤ 3) :
      FnImpl Γ (.varAdj i t) c
  | const (τ : BTy) (b : Buf F τ) : FnImpl Γ (.const τ b) τ
  | constSpec (τ : BTy) (s : BSpec F τ) : FnImpl Γ (.constSpec τ s) τ
  | constAdj {n : Node F} {a c : BTy} (d : FnImpl Γ n a) (t : Id) (k : ConcatImpl a (Γ t) c) :
      FnImpl Γ (.constAdj n t) c
  | cached {n : Node F} (i : Id) (d : FnImpl Γ n (Γ i)) : FnImpl Γ (.cached n i) (Γ i)
  | add {l r : Node F} {a b c : BTy} (dl : FnImpl Γ l a) (dr : FnImpl Γ r b) (z : ZipImpl a b c) :
      FnImpl Γ (.add l r) c
  | sub {l r : Node F} {a b c : BTy} (dl : FnImpl Γ l a) (dr : FnImpl Γ r b) (z : ZipImpl a b c) :
      FnImpl Γ (.sub l r) c
  | mul {l r : Node F} {a b c : BTy} (dl : FnImpl Γ l a) (dr : FnImpl Γ r b) (z : ZipImpl a b c) :
      FnImpl Γ (.mul l r) c
  | div {l r : Node F} {a b c : BTy} (dl : FnImpl Γ l a) (dr : FnImpl Γ r b) (z : ZipImpl a b c) :
      FnImpl Γ (.div l r) c
  | power {l r : Node F} (dl : FnImpl Γ l .scalar) (dr : FnImpl Γ r .scalar) :
      FnImpl Γ (.power l r) .scalar
  | contract {axes : Nat} {l r : Node F} {a b c : BTy} (dl : FnImpl Γ l a) (dr : FnImpl Γ r b)
      (z : ContractImpl axes a b c) : FnImpl Γ (.contract axes l r) c
  | sum {n : Node F} {a : BTy} (d : FnImpl Γ n a) : FnImpl Γ (.sum n) .scalar
  | un {n : Node F} {a : BTy} (op : UnOp) (d : FnImpl Γ n a) : FnImpl Γ (.un op n) a

section
variable {F : Type} [Zero F] [One F] [Add F] [Sub F] [Mul F] [Div F] [Neg F] [ScalarFns F]
variable {Γ : Id → BTy}

/-- The last arm of `Add`, `Sub`, `Mul` (`binary.rs` L238-243, L370-375, L524-529): an
incompatibility is unwrapped, i.e. panics. -/
def zipGeneral {a b c : BTy} (z : ZipImpl a b c) (f : F → F → F) (x : BSpec F a) (y : BSpec F b) :
    Res IncShapes (BSpec F c) :=
  ((Res.ofExcept (Buf.zipMapId z x.unwrap y.unwrap f)).unwrap).map .raw

/-- The `match` of `Add::evaluate_spec` (`binary.rs` L230-244). -/
def addSpec {a b c : BTy} (z : ZipImpl a b c) (x : BSpec F a) (y : BSpec F b) :
    Res IncShapes (BSpec F c) :=
  match x, y with
  | .full sx fx, .full sy fy =>
      Res.ofExcept ((z.broadcast sx sy).map (fun sz => .full sz (fx + fy)))
  | .raw x, .full sy fy =>
      if ScalarFns.isZero fy then Res.ofExcept ((Buf.zipShape z x sy).map .raw)
      else zipGeneral z (· + ·) (.raw x) (.full sy fy)
  | .full sx fx, .raw y =>
      if ScalarFns.isZero fx then
        (Res.ofExcept ((Buf.zipShape z.symm y sx).map .raw)).mapErr IncShapes.reverse
      else zipGeneral z (· + ·) (.full sx fx) (.raw y)
  | x, y => zipGeneral z (· + ·) x y

/-- The `match` of `Sub::evaluate_spec` (`binary.rs` L365-376). -/
def subSpec {a b c : BTy} (z : ZipImpl a b c) (x : BSpec F a) (y : BSpec F b) :
    Res IncShapes (BSpec F c) :=
  match x, y with
  | .full sx fx, .full sy fy =>
      Res.ofExcept ((z.broadcast sx sy).map (fun sz => .full sz (fx - fy)))
  | .raw x, .full sy fy =>
      if ScalarFns.isZero fy then Res.ofExcept ((Buf.zipShape z x sy).map .raw)
      else zipGeneral z (· - ·) (.raw x) (.full sy fy)
  | x, y => zipGeneral z (· - ·) x y

/-- The `match` of `Mul::evaluate_spec` (`binary.rs` L504-530); the arms at L517-521 test `is_zero`
again and are unreachable. -/
def mulSpec {a b c : BTy} (z : ZipImpl a b c) (x : BSpec F a) (y : BSpec F b) :
    Res IncShapes (BSpec F c) :=
  match x, y with
  | .full sx fx, .full sy fy =>
      Res.ofExcept ((z.broadcast sx sy).map (fun sz => .full sz (fx * fy)))
  | .full sx fx, y =>
      if ScalarFns.isZero fx then
        Res.ofExcept ((z.broadcast sx y.shape).map (fun sz => BSpec.zeroes sz))
      else zipGeneral z (· * ·) (.full sx fx) y
  | x, .full sy fy =>
      if ScalarFns.isZero fy then
        Res.ofExcept ((z.broadcast x.shape sy).map (fun sz => BSpec.zeroes sz))
      else zipGeneral z (· * ·) x (.full sy fy)
  | x, y => zipGeneral z (· * ·) x y

/-- The `match` of `Power::evaluate_spec` (`binary.rs` L110-124). -/
def powSpec (b e : BSpec F .scalar) : BSpec F .scalar :=
  let general (b e : BSpec F .scalar) : BSpec F .scalar :=
    .raw (Buf.mutate .scalar b.unwrap (fun x => ScalarFns.pow x e.unwrap))
  let baseArms (b e : BSpec F .scalar) : BSpec F .scalar :=
    match b with
    | .full sx fx =>
        if ScalarFns.eqb fx 1 then .full sx fx
        else if ScalarFns.eqb fx 0 then .full sx fx
        else general b e
    | b => general b e
  match e with
  | .full se fx => if ScalarFns.eqb fx 0 then BSpec.ones b.shape else baseArms b (.full se fx)
  | e => baseArms b e

/-- The `match` of `evaluate_spec` in `impl_unary!` (`ops/mod.rs` L31-40). -/
def unSpec {τ : BTy} (f : F → F) (x : BSpec F τ) : BSpec F τ :=
  match x with
  | .full sh x => .full sh (f x)
  | spec => .raw (Buf.mutate τ spec.unwrap f)

/-- The `match` of `Sum::evaluate_spec` (`unary.rs` L251-255). -/
def sumSpec {τ : BTy} (x : BSpec F τ) : Res EvalErr (BSpec F .scalar) :=
  match x with
  | .full sh v =>
      (Res.ofOption (ScalarFns.fromUsize (Shape.cardinality (Shp.dims τ sh)))).map
        (fun k => .full () (k * v))
  | spec => .ok (.raw (Buf.sum τ spec.unwrap))

/-- Left operand, then right operand, then combine; errors tagged `Left`, `Right`, `Output` (e.g.
`binary.rs` L227-246, `ops/linalg/mod.rs` L57-69). -/
def binM {α β γ : Type} (l : EvalM F Γ α) (r : EvalM F Γ β) (k : α → β → Res IncShapes γ) :
    EvalM F Γ γ :=
  (l.mapErr .left).bind fun x => (r.mapErr .right).bind fun y =>
    EvalM.lift ((k x y).mapErr .output)

/-- `VariableAdjoint::evaluate_spec` after both shapes have been read (`meta/variable.rs`
L176-200). -/
def varAdjSpec (i t : Id) {a b c : BTy} (k : ConcatImpl a b c) (si : Shp a) (st : Shp b) :
    Res EvalErr (BSpec F c) :=
  let sa := k.shape si st
  if i = t then
    if a.rank + b.rank = 2 then .ok (BSpec.eye sa)
    else
      let ixs := ((Shape.indices (Shp.dims a si)).zip (Shape.indices (Shp.dims b st))).map
        (fun p => Shape.concatIndices p.1 p.2)
      (Res.ofOption (Buf.buildSubset c sa 0 ixs (fun _ => 1))).map .raw
  else .ok (BSpec.zeroes sa)

/-- The `Function<C>` methods of each node:
`Variable` `meta/variable.rs` L60-77, `VariableAdjoint` L161-216, `Constant` `meta/constant.rs`
L64-73, `ConstantAdjoint` L168-191, `Cached` `meta/cached.rs` L39-51, `Add`/`Sub`/`Mul`/`Div`/`Power`
`binary.rs` L223-254, L357-386, L499-540, L611-623, L98-129, `Contract` `ops/linalg/mod.rs` L53-69,
`Sum` `unary.rs` L244-260, unary operators `ops/mod.rs` L22-47. `Div` and `Cached` inherit the
default `evaluate_spec`, `Cached` the default `evaluate_shape` (`lib.rs` L265-284). -/
def FnImpl.fn : {e : Node F} → {τ : BTy} → FnImpl Γ e τ → Fn F Γ τ
  | _, _, .var i =>
      { evaluate := EvalM.read i
        evaluateSpec := (EvalM.read i).map .raw
        evaluateShape := (EvalM.read i).map (Buf.shape _) }
  | _, _, .varAdj i t k _ =>
      let shapes {α : Type} (f : Shp (Γ i) → Shp (Γ t) → Res EvalErr α) : EvalM F Γ α :=
        (((EvalM.read i).map (Buf.shape _)).mapErr .left).bind fun si =>
          (((EvalM.read t).map (Buf.shape _)).mapErr .right).bind fun st =>
            EvalM.lift (f si st)
      Fn.ofSpec (shapes (varAdjSpec i t k)) (shapes (fun si st => .ok (k.shape si st)))
  | _, _, .const τ b =>
      Fn.ofSpec (EvalM.lift (.ok (.raw b))) (EvalM.lift (.ok (Buf.shape τ b)))
  | _, _, .constSpec _ s => Fn.ofSpec (EvalM.lift (.ok s)) (EvalM.lift (.ok s.shape))
  | _, _, .constAdj d t k =>
      let shape := (d.fn.evaluateShape.mapErr .left).bind fun sn =>
        (((EvalM.read t).map (Buf.shape _)).mapErr .right).bind fun st =>
          EvalM.lift (.ok (k.shape sn st))
      Fn.ofSpec (shape.map fun s => .full s 0) shape
  | _, _, .cached i d =>
      let evaluate : EvalM F Γ (Buf F (Γ i)) := fun c =>
        match c i with
        | some v => (.ok v, c)
        | none =>
            match d.fn.evaluate c with
            | (.ok v, c') => (.ok v, c'.write i v)
            | (.err e, c') => (.err e, c')
            | (.panic, c') => (.panic, c')
      { evaluate := evaluate
        evaluateSpec := evaluate.map .raw
        evaluateShape := evaluate.map (Buf.shape _) }
  | _, _, .add dl dr z =>
      Fn.ofSpec (binM dl.fn.evaluateSpec dr.fn.evaluateSpec (addSpec z))
        (binM dl.fn.evaluateShape dr.fn.evaluateShape fun s t => Res.ofExcept (z.broadcast s t))
  | _, _, .sub dl dr z =>
      Fn.ofSpec (binM dl.fn.evaluateSpec dr.fn.evaluateSpec (subSpec z))
        (binM dl.fn.evaluateShape dr.fn.evaluateShape fun s t => Res.ofExcept (z.broadcast s t))
  | _, _, .mul dl dr z =>
      Fn.ofSpec (binM dl.fn.evaluateSpec dr.fn.evaluateSpec (mulSpec z))
        (binM dl.fn.evaluateShape dr.fn.evaluateShape fun s t => Res.ofExcept (z.broadcast s t))
  | _, _, .div dl dr z =>
      let evaluate := binM dl.fn.evaluate dr.fn.evaluate fun x y =>
        Res.ofExcept (Buf.zipMapId z x y (· / ·))
      { evaluate := evaluate
        evaluateSpec := evaluate.map .raw
        evaluateShape :=
          binM dl.fn.evaluateShape dr.fn.evaluateShape fun s t => Res.ofExcept (z.broadcast s t) }
  | _, _, .power dl dr =>
      Fn.ofSpec (binM dl.fn.evaluateSpec dr.fn.evaluateSpec fun b e => .ok (powSpec b e))
        (EvalM.lift (.ok ()))
  | _, _, .contract dl dr z =>
      Fn.ofSpec (binM dl.fn.evaluateSpec dr.fn.evaluateSpec (BSpec.contract z))
        (binM dl.fn.evaluateShape dr.fn.evaluateShape fun s t => Res.ofExcept (contractShape z s t))
  | _, _, .sum d =>
      { evaluate := d.fn.evaluate.map (Buf.sum _)
        evaluateSpec := d.fn.evaluateSpec.bind fun s => EvalM.lift (sumSpec s)
        evaluateShape := EvalM.lift (.ok ()) }
  | _, _, .un op d =>
      { evaluate := d.fn.evaluate.map fun b => Buf.mutate _ b op.apply
        evaluateSpec := d.fn.evaluateSpec.map (unSpec op.apply)
        evaluateShape := d.fn.evaluateShape }

/-- `Function::evaluate`. -/
def FnImpl.evaluate {e : Node F} {τ : BTy} (d : FnImpl Γ e τ) : EvalM F Γ (Buf F τ) :=
  d.fn.evaluate

/-- `Function::evaluate_spec`. -/
def FnImpl.evaluateSpec {e : Node F} {τ : BTy} (d : FnImpl Γ e τ) : EvalM F Γ (BSpec F τ) :=
  d.fn.evaluateSpec

/-- `Function::evaluate_shape`. -/
def FnImpl.evaluateShape {e : Node F} {τ : BTy} (d : FnImpl Γ e τ) : EvalM F Γ (Shp τ) :=
  d.fn.evaluateShape

/-- `Differentiable::evaluate_dual` (`lib.rs` L330-346): the value with errors tagged `Left`, then
`evaluate_adjoint` (L316-326, the evaluation `da` of the adjoint node) with errors tagged
`Right`. -/
def evaluateDual {e e' : Node F} {τ σ : BTy} (d : FnImpl Γ e τ) (da : FnImpl Γ e' σ) :
    EvalM F Γ (Buf F τ × Buf F σ) :=
  (d.evaluate.mapErr .left).bind fun v =>
    (da.evaluate.mapErr .right).bind fun a => EvalM.lift (.ok (v, a))

end

end Aegir
