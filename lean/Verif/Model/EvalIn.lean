import Verif.Model.Store
/-!
# Evaluation in any context type

`Function<C>` is generic over the context type `C`, which it only touches through `Read` and `Write`
(`aegir/src/lib.rs` L82-113). `Model/Eval` evaluates in one particular context, the map from
identifiers to values; here is the same code for any context type, with the method that each node
really calls.
-/

namespace Aegir

/-- The `Read` and `Write` impls of a context type `σ` (`aegir/src/lib.rs` L87-113), for all
identifiers at once; `write` returns the new context. -/
structure CtxImpl (F : Type) (Γ : Id → BTy) (σ : Type) where
  /-- `Read::read` -/
  read : σ → (i : Id) → Option (Buf F (Γ i))
  /-- `Read::read_spec` -/
  readSpec : σ → (i : Id) → Option (BSpec F (Γ i))
  /-- `Read::read_shape` -/
  readShape : σ → (i : Id) → Option (Shp (Γ i))
  /-- `Write::write` -/
  write : σ → (i : Id) → Buf F (Γ i) → σ

/-- The default `read_spec` and `read_shape` (`aegir/src/lib.rs` L95-104): a context type that only
implements `read` and `write`. -/
def CtxImpl.ofRead {F : Type} {Γ : Id → BTy} {σ : Type} (read : σ → (i : Id) → Option (Buf F (Γ i)))
    (write : σ → (i : Id) → Buf F (Γ i) → σ) : CtxImpl F Γ σ where
  read := read
  readSpec s i := (read s i).map .raw
  readShape s i := (read s i).map (Buf.shape _)
  write := write

/-- The impls generated by `#[derive(Context)]` (`aegir_derive/src/ctx/derive.rs` L203-333). -/
def CtxImpl.derived (F : Type) [Zero F] (S : Store.Struct) : CtxImpl F S.types (Store.State F S) where
  read s i := s.read i
  readSpec s i := s.readSpec i
  readShape s i := s.readShape i
  write s i v := s.write i v

/-- Computations with access to `&mut σ`. -/
def SM (σ α : Type) := σ → Res EvalErr α × σ

namespace SM
variable {σ α β : Type}

/-- `Result::map` of the outcome. -/
def map (f : α → β) (m : SM σ α) : SM σ β := fun s => ((m s).1.map f, (m s).2)

/-- `Result::map_err` of the outcome. -/
def mapErr (f : EvalErr → EvalErr) (m : SM σ α) : SM σ α := fun s => ((m s).1.mapErr f, (m s).2)

/-- Sequencing with `?`. -/
def bind (m : SM σ α) (f : α → SM σ β) : SM σ β := fun s =>
  match m s with
  | (.ok a, s') => f a s'
  | (.err e, s') => (.err e, s')
  | (.panic, s') => (.panic, s')

/-- An outcome that does not touch the context. -/
def lift (r : Res EvalErr α) : SM σ α := fun s => (r, s)

/-- `ok_or(SourceError::Undefined(i))` of something read from the context
(`meta/variable.rs` L61-77). -/
def get (i : Id) (r : σ → Option α) : SM σ α := fun s =>
  match r s with
  | some b => (.ok b, s)
  | none => (.err (.undefined i), s)

end SM

/-- The three methods of `Function<C>` (`lib.rs` L233-285). -/
structure FnIn (F : Type) (σ : Type) (τ : BTy) where
  /-- `evaluate` -/
  evaluate : SM σ (Buf F τ)
  /-- `evaluate_spec` -/
  evaluateSpec : SM σ (BSpec F τ)
  /-- `evaluate_shape` -/
  evaluateShape : SM σ (Shp τ)

/-- `evaluate` as `self.evaluate_spec(ctx).map(|s| s.unwrap())` (e.g. `binary.rs` L223-225). -/
def FnIn.ofSpec {F : Type} [Zero F] {σ : Type} {τ : BTy} (spec : SM σ (BSpec F τ))
    (shape : SM σ (Shp τ)) : FnIn F σ τ := ⟨spec.map BSpec.unwrap, spec, shape⟩

/-- Left operand, then right operand, then combine; errors tagged `Left`, `Right`, `Output` (e.g.
`binary.rs` L227-246, `ops/linalg/mod.rs` L57-69). -/
def binIn {σ α β γ : Type} (l : SM σ α) (r : SM σ β) (k : α → β → Res IncShapes γ) : SM σ γ :=
  (l.mapErr .left).bind fun x => (r.mapErr .right).bind fun y =>
    SM.lift ((k x y).mapErr .output)

section
variable {F : Type} [Zero F] [One F] [Add F] [Sub F] [Mul F] [Div F] [Neg F] [ScalarFns F]
variable {Γ : Id → BTy} {σ : Type}

/-- The `Function<C>` methods of each node, as in `FnImpl.fn`, for any context type:
`Variable` calls `read`, `read_spec`, `read_shape` (`meta/variable.rs` L61-77), `VariableAdjoint`
calls `read_shape` (L165-216), `ConstantAdjoint` calls `read` (`meta/constant.rs` L178-191),
`Cached` calls `read` and `write` (`meta/cached.rs` L39-51); the operators only pass the context on
(`binary.rs` L98-129, L223-254, L357-386, L499-540, L611-623, `ops/linalg/mod.rs` L53-69,
`unary.rs` L244-260, `ops/mod.rs` L22-47). -/
def FnImpl.fnIn (I : CtxImpl F Γ σ) : {e : Node F} → {τ : BTy} → FnImpl Γ e τ → FnIn F σ τ
  | _, _, .var i =>
      { evaluate := SM.get i (I.read · i)
        evaluateSpec := SM.get i (I.readSpec · i)
        evaluateShape := SM.get i (I.readShape · i) }
  | _, _, .varAdj i t k _ =>
      let shapes {α : Type} (f : Shp (Γ i) → Shp (Γ t) → Res EvalErr α) : SM σ α :=
        ((SM.get i (I.readShape · i)).mapErr .left).bind fun si =>
          ((SM.get t (I.readShape · t)).mapErr .right).bind fun st =>
            SM.lift (f si st)
      FnIn.ofSpec (shapes (varAdjSpec i t k)) (shapes (fun si st => .ok (k.shape si st)))
  | _, _, .const τ b =>
      FnIn.ofSpec (SM.lift (.ok (.raw b))) (SM.lift (.ok (Buf.shape τ b)))
  | _, _, .constSpec _ s => FnIn.ofSpec (SM.lift (.ok s)) (SM.lift (.ok s.shape))
  | _, _, .constAdj d t k =>
      let shape := ((d.fnIn I).evaluateShape.mapErr .left).bind fun sn =>
        ((SM.get t (fun s => (I.read s t).map (Buf.shape _))).mapErr .right).bind fun st =>
          SM.lift (.ok (k.shape sn st))
      FnIn.ofSpec (shape.map fun s => .full s 0) shape
  | _, _, .cached i d =>
      let evaluate : SM σ (Buf F (Γ i)) := fun s =>
        match I.read s i with
        | some v => (.ok v, s)
        | none =>
            match (d.fnIn I).evaluate s with
            | (.ok v, s') => (.ok v, I.write s' i v)
            | (.err e, s') => (.err e, s')
            | (.panic, s') => (.panic, s')
      { evaluate := evaluate
        evaluateSpec := evaluate.map .raw
        evaluateShape := evaluate.map (Buf.shape _) }
  | _, _, .add dl dr z =>
      FnIn.ofSpec (binIn (dl.fnIn I).evaluateSpec (dr.fnIn I).evaluateSpec (addSpec z))
        (binIn (dl.fnIn I).evaluateShape (dr.fnIn I).evaluateShape fun s t =>
          Res.ofExcept (z.broadcast s t))
  | _, _, .sub dl dr z =>
      FnIn.ofSpec (binIn (dl.fnIn I).evaluateSpec (dr.fnIn I).evaluateSpec (subSpec z))
        (binIn (dl.fnIn I).evaluateShape (dr.fnIn I).evaluateShape fun s t =>
          Res.ofExcept (z.broadcast s t))
  | _, _, .mul dl dr z =>
      FnIn.ofSpec (binIn (dl.fnIn I).evaluateSpec (dr.fnIn I).evaluateSpec (mulSpec z))
        (binIn (dl.fnIn I).evaluateShape (dr.fnIn I).evaluateShape fun s t =>
          Res.ofExcept (z.broadcast s t))
  | _, _, .div dl dr z =>
      let evaluate := binIn (dl.fnIn I).evaluate (dr.fnIn I).evaluate fun x y =>
        Res.ofExcept (Buf.zipMapId z x y (· / ·))
      { evaluate := evaluate
        evaluateSpec := evaluate.map .raw
        evaluateShape :=
          binIn (dl.fnIn I).evaluateShape (dr.fnIn I).evaluateShape fun s t =>
            Res.ofExcept (z.broadcast s t) }
  | _, _, .power dl dr =>
      FnIn.ofSpec (binIn (dl.fnIn I).evaluateSpec (dr.fnIn I).evaluateSpec fun b e =>
        .ok (powSpec b e)) (SM.lift (.ok ()))
  | _, _, .contract dl dr z =>
      FnIn.ofSpec (binIn (dl.fnIn I).evaluateSpec (dr.fnIn I).evaluateSpec (BSpec.contract z))
        (binIn (dl.fnIn I).evaluateShape (dr.fnIn I).evaluateShape fun s t =>
          Res.ofExcept (contractShape z s t))
  | _, _, .sum d =>
      { evaluate := (d.fnIn I).evaluate.map (Buf.sum _)
        evaluateSpec := (d.fnIn I).evaluateSpec.bind fun s => SM.lift (sumSpec s)
        evaluateShape := SM.lift (.ok ()) }
  | _, _, .un op d =>
      { evaluate := (d.fnIn I).evaluate.map fun b => Buf.mutate _ b op.apply
        evaluateSpec := (d.fnIn I).evaluateSpec.map (unSpec op.apply)
        evaluateShape := (d.fnIn I).evaluateShape }

end

end Aegir
