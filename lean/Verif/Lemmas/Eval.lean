import Verif.Model.Eval
import Verif.Lemmas.ContractSpec
import Verif.Spec.Node
/-!
# Basic facts about evaluation
-/

namespace Aegir

open Spec

variable {F : Type} {Γ : Id → BTy} {α β γ : Type}

theorem Res.map_map (f : α → β) (g : β → γ) {ε : Type} (r : Res ε α) :
    (r.map f).map g = r.map (fun x => g (f x)) := by cases r <;> rfl

theorem Res.map_id' {ε : Type} (r : Res ε α) : r.map (fun x => x) = r := by cases r <;> rfl

theorem Res.mapErr_map {ε ε' : Type} (f : α → β) (g : ε → ε') (r : Res ε α) :
    (r.map f).mapErr g = (r.mapErr g).map f := by cases r <;> rfl

namespace EvalM

theorem map_map (f : α → β) (g : β → γ) (m : EvalM F Γ α) :
    (m.map f).map g = m.map (fun x => g (f x)) := by
  funext c; simp [map, Res.map_map]

theorem map_id' (m : EvalM F Γ α) : m.map (fun x => x) = m := by
  funext c; simp [map, Res.map_id']

theorem map_bind (m : EvalM F Γ α) (f : α → EvalM F Γ β) (g : β → γ) :
    (m.bind f).map g = m.bind (fun a => (f a).map g) := by
  funext c
  simp only [map, bind]
  match m c with
  | (.ok a, c') => rfl
  | (.err e, c') => rfl
  | (.panic, c') => rfl

theorem bind_map (m : EvalM F Γ α) (f : α → β) (g : β → EvalM F Γ γ) :
    (m.map f).bind g = m.bind (fun a => g (f a)) := by
  funext c
  simp only [map, bind]
  match m c with
  | (.ok a, c') => rfl
  | (.err e, c') => rfl
  | (.panic, c') => rfl

theorem bind_lift_ok (m : EvalM F Γ α) (f : α → β) :
    m.bind (fun a => lift (.ok (f a))) = m.map f := by
  funext c
  simp only [map, bind, lift]
  match m c with
  | (.ok a, c') => rfl
  | (.err e, c') => rfl
  | (.panic, c') => rfl

theorem mapErr_map (m : EvalM F Γ α) (f : α → β) (g : EvalErr → EvalErr) :
    (m.map f).mapErr g = (m.mapErr g).map f := by
  funext c; simp [map, mapErr, Res.mapErr_map]

/-- What a successful `bind` did. -/
theorem bind_ok_iff (m : EvalM F Γ α) (f : α → EvalM F Γ β) (c c'' : Ctx F Γ) (b : β) :
    m.bind f c = (.ok b, c'') ↔ ∃ a c', m c = (.ok a, c') ∧ f a c' = (.ok b, c'') := by
  simp only [bind]
  match m c with
  | (.ok a, c') =>
    constructor
    · intro h; exact ⟨a, c', rfl, h⟩
    · rintro ⟨a', c1, h1, h2⟩
      cases h1; exact h2
  | (.err e, c') => simp
  | (.panic, c') => simp

theorem map_ok_iff (m : EvalM F Γ α) (f : α → β) (c c' : Ctx F Γ) (b : β) :
    m.map f c = (.ok b, c') ↔ ∃ a, m c = (.ok a, c') ∧ f a = b := by
  simp only [map]
  match m c with
  | (.ok a, c1) => simp [Prod.ext_iff]; tauto
  | (.err e, c1) => simp
  | (.panic, c1) => simp

theorem mapErr_ok_iff (m : EvalM F Γ α) (f : EvalErr → EvalErr) (c c' : Ctx F Γ) (a : α) :
    m.mapErr f c = (.ok a, c') ↔ m c = (.ok a, c') := by
  simp only [mapErr]
  match m c with
  | (.ok a, c1) => simp
  | (.err e, c1) => simp
  | (.panic, c1) => simp

theorem lift_ok_iff (r : Res EvalErr α) (c c' : Ctx F Γ) (a : α) :
    (lift r : EvalM F Γ α) c = (.ok a, c') ↔ r = .ok a ∧ c' = c := by
  simp only [lift, Prod.mk.injEq]; tauto

theorem read_ok_iff (i : Id) (c c' : Ctx F Γ) (b : Buf F (Γ i)) :
    read i c = (.ok b, c') ↔ c i = some b ∧ c' = c := by
  simp only [read]
  match h : c i with
  | some b' => simp [Prod.ext_iff]; tauto
  | none => simp

end EvalM

theorem Res.mapErr_ok_iff {ε ε' : Type} (g : ε → ε') (r : Res ε α) (a : α) :
    r.mapErr g = .ok a ↔ r = .ok a := by cases r <;> simp

theorem Res.ofExcept_ok_iff {ε : Type} (r : Except ε α) (a : α) :
    Res.ofExcept r = .ok a ↔ r = .ok a := by cases r <;> simp

theorem binM_ok_iff (l : EvalM F Γ α) (r : EvalM F Γ β) (k : α → β → Res IncShapes γ)
    (c c' : Ctx F Γ) (v : γ) :
    binM l r k c = (.ok v, c') ↔
      ∃ x c1 y, l c = (.ok x, c1) ∧ r c1 = (.ok y, c') ∧ k x y = .ok v := by
  simp only [binM, EvalM.bind_ok_iff, EvalM.mapErr_ok_iff, EvalM.lift_ok_iff, Res.mapErr_ok_iff]
  constructor
  · rintro ⟨x, c1, h1, y, c2, h2, h3, rfl⟩
    exact ⟨x, c1, y, h1, h2, h3⟩
  · rintro ⟨x, c1, y, h1, h2, h3⟩
    exact ⟨x, c1, h1, y, c', h2, h3, rfl⟩

/-- Combining mapped operands. -/
theorem binM_map_left {α' β' : Type} (l : EvalM F Γ α) (r : EvalM F Γ β) (f : α → α') (g : β → β')
    (k : α' → β' → Res IncShapes γ) :
    binM (l.map f) (r.map g) k = binM l r (fun x y => k (f x) (g y)) := by
  simp only [binM, EvalM.mapErr_map, EvalM.bind_map]

theorem binM_map {δ : Type} (l : EvalM F Γ α) (r : EvalM F Γ β) (k : α → β → Res IncShapes γ)
    (g : γ → δ) : (binM l r k).map g = binM l r (fun x y => (k x y).map g) := by
  simp only [binM, EvalM.map_bind]
  congr; funext x; congr; funext y; funext c
  simp [EvalM.map, EvalM.lift, Res.mapErr_map]

section
variable [Zero F]

theorem unSpec_unwrap {τ : BTy} (f : F → F) (x : BSpec F τ) :
    (unSpec f x).unwrap = Buf.mutate τ x.unwrap f := by
  cases x with
  | full s v =>
    show Buf.full τ s (f v) = Buf.mutate τ (Buf.full τ s v) f
    rw [Buf.mutate_eq_map, Buf.map_full]
  | raw b => rfl
  | diagonal s v => rfl

end

section
variable [One F] [Add F] [Sub F] [Mul F] [Div F] [Neg F] [Zero F] [ScalarFns F]

/-- `evaluate` is `evaluate_spec` followed by `unwrap`, given that for `Sum`. -/
theorem FnImpl.evaluate_eq_of {e : Node F} {τ : BTy} (d : FnImpl Γ e τ)
    (h : SumFree e ∨ ∀ (τ : BTy) (x : BSpec F τ),
      (sumSpec x).map BSpec.unwrap = .ok (Buf.sum τ x.unwrap)) :
    d.fn.evaluate = d.fn.evaluateSpec.map BSpec.unwrap := by
  induction d with
  | var i => exact ((EvalM.map_map _ _ _).trans (EvalM.map_id' _)).symm
  | varAdj i t k h => rfl
  | const τ b => rfl
  | constSpec τ s => rfl
  | constAdj d t k ih => rfl
  | cached i d ih => exact ((EvalM.map_map _ _ _).trans (EvalM.map_id' _)).symm
  | add dl dr z _ _ => rfl
  | sub dl dr z _ _ => rfl
  | mul dl dr z _ _ => rfl
  | div dl dr z _ _ => exact ((EvalM.map_map _ _ _).trans (EvalM.map_id' _)).symm
  | power dl dr _ _ => rfl
  | contract dl dr z _ _ => rfl
  | sum d ih =>
    have h' := h.resolve_left (fun hs => hs _ (.refl _))
    have ih := ih (.inr h')
    show d.fn.evaluate.map _ = (d.fn.evaluateSpec.bind fun s => EvalM.lift (sumSpec s)).map _
    rw [EvalM.map_bind, ih, EvalM.map_map, ← EvalM.bind_lift_ok]
    congr 1; funext s; funext c
    exact Prod.ext (h' _ s).symm rfl
  | un op d ih =>
    have ih := ih (h.imp_left (SumFree.child · (by simp [children])))
    show d.fn.evaluate.map _ = (d.fn.evaluateSpec.map _).map _
    rw [ih, EvalM.map_map, EvalM.map_map]
    congr 1; funext s
    exact (unSpec_unwrap _ s).symm

end

section
variable [CommRing F] [Div F] [ScalarFns F] [LawfulScalar F]

omit [CommRing F] [Div F] [ScalarFns F] [LawfulScalar F] in
theorem entries_full (τ : BTy) (s : Shp τ) (v : F) :
    Buf.entries τ (Buf.full τ s v) = List.replicate (Shape.cardinality (Shp.dims τ s)) v := by
  have h := Buf.entries_spec τ (Buf.full τ s v)
  rw [Buf.dims_full] at h
  have h2 : (Shape.indices (Shp.dims τ s)).map (Buf.getU τ (Buf.full τ s v))
      = (Shape.indices (Shp.dims τ s)).map (fun _ => some v) := by
    refine List.map_congr_left (fun ix hix => ?_)
    exact Buf.getU_full τ s v ix (mem_indices.1 hix)
  rw [h2] at h
  have h3 : (Buf.entries τ (Buf.full τ s v)).map some
      = (List.replicate (Shape.cardinality (Shp.dims τ s)) v).map some := by
    rw [← h, List.map_const', List.map_replicate, length_indices]
  exact List.map_injective_iff.2 (Option.some_injective F) h3

omit [Div F] in
theorem sumSpec_unwrap {τ : BTy} (x : BSpec F τ) :
    (sumSpec x).map BSpec.unwrap = .ok (Buf.sum τ x.unwrap) := by
  cases x with
  | full s v =>
    simp only [sumSpec, LawfulScalar.fromUsize_eq, Res.ofOption_some, Res.map_ok]
    congr 1
    show Buf.full .scalar () ((Shape.cardinality (Shp.dims τ s) : F) * v)
      = Buf.fold τ (Buf.full τ s v) 0 (fun a b => a + b)
    rw [Buf.fold_eq_foldl, entries_full]
    show (Shape.cardinality (Shp.dims τ s) : F) * v = _
    induction Shape.cardinality (Shp.dims τ s) with
    | zero => simp
    | succ n ih =>
      rw [List.replicate_succ', List.foldl_append, ← ih]
      simp only [List.foldl]; push_cast; ring
  | raw b => rfl
  | diagonal s v => rfl

/-- `evaluate` is `evaluate_spec` followed by `unwrap`, in exact arithmetic. -/
theorem FnImpl.evaluate_eq {e : Node F} {τ : BTy} (d : FnImpl Γ e τ) :
    d.fn.evaluate = d.fn.evaluateSpec.map BSpec.unwrap :=
  d.evaluate_eq_of (.inr fun _ x => sumSpec_unwrap x)

end

end Aegir
