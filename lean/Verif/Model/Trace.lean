import Verif.Model.EvalIn
/-!
# Evaluation with a record of the accesses to the context

The code of `Model/EvalIn` once more; in addition to the outcome and the new context, the calls of
`read`, `read_spec`, `read_shape` and `write` are recorded in the order in which they are made.
-/

namespace Aegir

/-- A call of a method of `Read` or `Write` (`aegir/src/lib.rs` L87-113). -/
inductive Acc where
  /-- `Read::read` -/
  | read (i : Id)
  /-- `Read::read_spec` -/
  | readSpec (i : Id)
  /-- `Read::read_shape` -/
  | readShape (i : Id)
  /-- `Write::write` -/
  | write (i : Id)
deriving DecidableEq, Repr

/-- Computations with access to `&mut σ`, and the calls they make. -/
def TM (σ α : Type) := σ → Res EvalErr α × σ × List Acc

namespace TM
variable {σ α β : Type}

/-- `Result::map` of the outcome. -/
def map (f : α → β) (m : TM σ α) : TM σ β := fun s => ((m s).1.map f, (m s).2)

/-- `Result::map_err` of the outcome. -/
def mapErr (f : EvalErr → EvalErr) (m : TM σ α) : TM σ α := fun s => ((m s).1.mapErr f, (m s).2)

/-- Sequencing with `?`. -/
def bind (m : TM σ α) (f : α → TM σ β) : TM σ β := fun s =>
  match m s with
  | (.ok a, s', as) => ((f a s').1, (f a s').2.1, as ++ (f a s').2.2)
  | (.err e, s', as) => (.err e, s', as)
  | (.panic, s', as) => (.panic, s', as)

/-- An outcome that does not touch the context. -/
def lift (r : Res EvalErr α) : TM σ α := fun s => (r, s, [])

/-- `ok_or(SourceError::Undefined(i))` of something read from the context by the call `a`
(`meta/variable.rs` L61-77). -/
def get (a : Acc) (i : Id) (r : σ → Option α) : TM σ α := fun s =>
  match r s with
  | some b => (.ok b, s, [a])
  | none => (.err (.undefined i), s, [a])

end TM

/-- The three methods of `Function<C>` (`lib.rs` L233-285). -/
structure FnTr (F : Type) (σ : Type) (τ : BTy) where
  /-- `evaluate` -/
  evaluate : TM σ (Buf F τ)
  /-- `evaluate_spec` -/
  evaluateSpec : TM σ (BSpec F τ)
  /-- `evaluate_shape` -/
  evaluateShape : TM σ (Shp τ)

/-- `evaluate` as `self.evaluate_spec(ctx).map(|s| s.unwrap())` (e.g. `binary.rs` L223-225). -/
def FnTr.ofSpec {F : Type} [Zero F] {σ : Type} {τ : BTy} (spec : TM σ (BSpec F τ))
    (shape : TM σ (Shp τ)) : FnTr F σ τ := ⟨spec.map BSpec.unwrap, spec, shape⟩

/-- Left operand, then right operand, then combine; errors tagged `Left`, `Right`, `Output` (e.g.
`binary.rs` L227-246, `ops/linalg/mod.rs` L57-69). -/
def binTr {σ α β γ : Type} (l : TM σ α) (r : TM σ β) (k : α → β → Res IncShapes γ) : TM σ γ :=
  (l.mapErr .left).bind fun x => (r.mapErr .right).bind fun y =>
    TM.lift ((k x y).mapErr .output)

section
variable {F : Type} [Zero F] [One F] [Add F] [Sub F] [Mul F] [Div F] [Neg F] [ScalarFns F]
variable {Γ : Id → BTy} {σ : Type}

/-- The `Function<C>` methods of each node, as in `FnImpl.fnIn`, with the calls they make:
`Variable` calls `read`, `read_spec`, `read_shape` (`meta/variable.rs` L61-77), `VariableAdjoint`
calls `read_shape` (L165-216), `ConstantAdjoint` calls `read` (`meta/constant.rs` L178-191),
`Cached` calls `read` and `write` (`meta/cached.rs` L39-51); the operators only pass the context on
(`binary.rs` L98-129, L223-254, L357-386, L499-540, L611-623, `ops/linalg/mod.rs` L53-69,
`unary.rs` L244-260, `ops/mod.rs` L22-47). -/
def FnImpl.fnTr (I : CtxImpl F Γ σ) : {e : Node F} → {τ : BTy} → FnImpl Γ e τ → FnTr F σ τ
  | _, _, .var i =>
      { evaluate := TM.get (.read i) i (I.read · i)
        evaluateSpec := TM.get (.readSpec i) i (I.readSpec · i)
        evaluateShape := TM.get (.readShape i) i (I.readShape · i) }
  | _, _, .varAdj i t k _ =>
      let shapes {α : Type} (f : Shp (Γ i) → Shp (Γ t) → Res EvalErr α) : TM σ α :=
        ((TM.get (.readShape i) i (I.readShape · i)).mapErr .left).bind fun si =>
          ((TM.get (.readShape t) t (I.readShape · t)).mapErr .right).bind fun st =>
            TM.lift (f si st)
      FnTr.ofSpec (shapes (varAdjSpec i t k)) (shapes (fun si st => .ok (k.shape si st)))
  | _, _, .const τ b =>
      FnTr.ofSpec (TM.lift (.ok (.raw b))) (TM.lift (.ok (Buf.shape τ b)))
  | _, _, .constSpec _ s => FnTr.ofSpec (TM.lift (.ok s)) (TM.lift (.ok s.shape))
  | _, _, .constAdj d t k =>
      let shape := ((d.fnTr I).evaluateShape.mapErr .left).bind fun sn =>
        ((TM.get (.read t) t (fun s => (I.read s t).map (Buf.shape _))).mapErr .right).bind fun st =>
          TM.lift (.ok (k.shape sn st))
      FnTr.ofSpec (shape.map fun s => .full s 0) shape
  | _, _, .cached i d =>
      let evaluate : TM σ (Buf F (Γ i)) := fun s =>
        match I.read s i with
        | some v => (.ok v, s, [.read i])
        | none =>
            match (d.fnTr I).evaluate s with
            | (.ok v, s', as) => (.ok v, I.write s' i v, .read i :: as ++ [.write i])
            | (.err e, s', as) => (.err e, s', .read i :: as)
            | (.panic, s', as) => (.panic, s', .read i :: as)
      { evaluate := evaluate
        evaluateSpec := evaluate.map .raw
        evaluateShape := evaluate.map (Buf.shape _) }
  | _, _, .add dl dr z =>
      FnTr.ofSpec (binTr (dl.fnTr I).evaluateSpec (dr.fnTr I).evaluateSpec (addSpec z))
        (binTr (dl.fnTr I).evaluateShape (dr.fnTr I).evaluateShape fun s t =>
          Res.ofExcept (z.broadcast s t))
  | _, _, .sub dl dr z =>
      FnTr.ofSpec (binTr (dl.fnTr I).evaluateSpec (dr.fnTr I).evaluateSpec (subSpec z))
        (binTr (dl.fnTr I).evaluateShape (dr.fnTr I).evaluateShape fun s t =>
          Res.ofExcept (z.broadcast s t))
  | _, _, .mul dl dr z =>
      FnTr.ofSpec (binTr (dl.fnTr I).evaluateSpec (dr.fnTr I).evaluateSpec (mulSpec z))
        (binTr (dl.fnTr I).evaluateShape (dr.fnTr I).evaluateShape fun s t =>
          Res.ofExcept (z.broadcast s t))
  | _, _, .div dl dr z =>
      let evaluate := binTr (dl.fnTr I).evaluate (dr.fnTr I).evaluate fun x y =>
        Res.ofExcept (Buf.zipMapId z x y (· / ·))
      { evaluate := evaluate
        evaluateSpec := evaluate.map .raw
        evaluateShape :=
          binTr (dl.fnTr I).evaluateShape (dr.fnTr I).evaluateShape fun s t =>
            Res.ofExcept (z.broadcast s t) }
  | _, _, .power dl dr =>
      FnTr.ofSpec (binTr (dl.fnTr I).evaluateSpec (dr.fnTr I).evaluateSpec fun b e =>
        .ok (powSpec b e)) (TM.lift (.ok ()))
  | _, _, .contract dl dr z =>
      FnTr.ofSpec (binTr (dl.fnTr I).evaluateSpec (dr.fnTr I).evaluateSpec (BSpec.contract z))
        (binTr (dl.fnTr I).evaluateShape (dr.fnTr I).evaluateShape fun s t =>
          Res.ofExcept (contractShape z s t))
  | _, _, .sum d =>
      { evaluate := (d.fnTr I).evaluate.map (Buf.sum _)
        evaluateSpec := (d.fnTr I).evaluateSpec.bind fun s => TM.lift (sumSpec s)
        evaluateShape := TM.lift (.ok ()) }
  | _, _, .un op d =>
      { evaluate := (d.fnTr I).evaluate.map fun b => Buf.mutate _ b op.apply
        evaluateSpec := (d.fnTr I).evaluateSpec.map (unSpec op.apply)
        evaluateShape := (d.fnTr I).evaluateShape }

end

end Aegir
