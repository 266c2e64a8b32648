import Verif.Spec.Symbolic
import Verif.Lemmas.EvalDeriv
/-!
# Symbolic zeros and ones evaluate to zero and one
-/

namespace Aegir

open Spec

variable {F : Type} {Γ : Id → BTy}

theorem addExpr_zero {x y : Expr} : addExpr x y = .zero ↔ x = .zero ∧ y = .zero := by
  cases x <;> cases y <;> simp [addExpr, Expr.plain, Expr.wrapped]

theorem addExpr_one {x y : Expr} :
    addExpr x y = .one ↔ (x = .zero ∧ y = .one) ∨ (x = .one ∧ y = .zero) := by
  cases x <;> cases y <;> simp [addExpr, Expr.plain, Expr.wrapped]

theorem subExpr_zero {x y : Expr} :
    subExpr x y = .zero ↔ (x = .zero ∧ y = .zero) ∨ (x = .one ∧ y = .one) := by
  cases x <;> cases y <;> simp [subExpr, Expr.plain, Expr.wrapped]

theorem subExpr_one {x y : Expr} : subExpr x y = .one ↔ x = .one ∧ y = .zero := by
  cases x <;> cases y <;> simp [subExpr, Expr.plain, Expr.wrapped]

theorem prodExpr_zero {k : PreWrap → PreWrap → Expr} (hk : ∀ l r, ∃ p, k l r = .text p) {x y : Expr} :
    prodExpr k x y = .zero ↔ x = .zero ∨ y = .zero := by
  cases x <;> cases y <;> simp [prodExpr]
  rename_i l r; obtain ⟨p, hp⟩ := hk l r; simp [hp]

theorem prodExpr_one {k : PreWrap → PreWrap → Expr} (hk : ∀ l r, ∃ p, k l r = .text p) {x y : Expr} :
    prodExpr k x y = .one ↔ x = .one ∧ y = .one := by
  cases x <;> cases y <;> simp [prodExpr]
  rename_i l r; obtain ⟨p, hp⟩ := hk l r; simp [hp]

theorem divExpr_zero {x y : Expr} : divExpr x y = .zero ↔ x = .zero := by
  cases x <;> cases y <;> simp [divExpr, Expr.plain, Expr.wrapped]

theorem divExpr_one {x y : Expr} : divExpr x y = .one ↔ x = .one ∧ y = .one := by
  cases x <;> cases y <;> simp [divExpr, Expr.plain, Expr.wrapped]

theorem powerExpr_zero {x y : Expr} : powerExpr x y = .zero ↔ x = .zero := by
  cases x <;> cases y <;> simp [powerExpr, Expr.plain]

theorem powerExpr_one {x y : Expr} :
    powerExpr x y = .one ↔ x ≠ .zero ∧ (y = .zero ∨ x = .one) := by
  cases x <;> cases y <;> simp [powerExpr, Expr.plain]

theorem mulText_text (l r : PreWrap) : ∃ p, mulText l r = .text p := ⟨_, rfl⟩

theorem contractText_text {k : Nat} {f : PreWrap → PreWrap → Expr} (h : contractText k = some f)
    (l r : PreWrap) : ∃ p, f l r = .text p := by
  match k, h with
  | 0, h => cases h; exact ⟨_, rfl⟩
  | 1, h => cases h; exact ⟨_, rfl⟩
  | 2, h => cases h; exact ⟨_, rfl⟩
  | n + 3, h => simp [contractText] at h

theorem UnOp.expr_text (op : UnOp) (p : PreWrap) : ∃ q, op.expr (.text p) = .text q := by
  cases op <;> exact ⟨_, rfl⟩

/-- Expressions without derivatives are rendered as text. -/
theorem toExpr_text {idText : Id → String} {numText : F → String} {e : Node F}
    (h : ∀ i t, ¬ SubExpr (.varAdj i t) e) (h' : ∀ n t, ¬ SubExpr (.constAdj n t) e) {x : Expr}
    (hx : e.toExpr idText numText = some x) : ∃ p, x = .text p := by
  induction e generalizing x with
  | var i => cases hx; exact ⟨_, rfl⟩
  | varAdj i t => exact absurd (.refl _) (h i t)
  | const τ b => cases τ <;> cases hx; exact ⟨_, rfl⟩
  | constSpec τ b => cases hx
  | constAdj n t => exact absurd (.refl _) (h' n t)
  | cached n i => cases hx
  | sum n => cases hx
  | un op n ih =>
    simp only [Node.toExpr, Option.map_eq_some_iff] at hx
    obtain ⟨y, hy, rfl⟩ := hx
    obtain ⟨p, rfl⟩ := ih (fun i t hs => h i t (.step (by simp [children]) hs))
      (fun n t hs => h' n t (.step (by simp [children]) hs)) hy
    exact op.expr_text p
  | add l r ihl ihr | sub l r ihl ihr | mul l r ihl ihr | div l r ihl ihr | power l r ihl ihr =>
    simp only [Node.toExpr, Option.bind_eq_some_iff, Option.map_eq_some_iff] at hx
    obtain ⟨y, hy, z, hz, rfl⟩ := hx
    obtain ⟨p, rfl⟩ := ihl (fun i t hs => h i t (.step (by simp [children]) hs))
      (fun n t hs => h' n t (.step (by simp [children]) hs)) hy
    obtain ⟨q, rfl⟩ := ihr (fun i t hs => h i t (.step (by simp [children]) hs))
      (fun n t hs => h' n t (.step (by simp [children]) hs)) hz
    exact ⟨_, rfl⟩
  | contract k l r ihl ihr =>
    simp only [Node.toExpr, Option.bind_eq_some_iff, Option.map_eq_some_iff] at hx
    obtain ⟨f, hf, y, hy, z, hz, rfl⟩ := hx
    obtain ⟨p, rfl⟩ := ihl (fun i t hs => h i t (.step (by simp [children]) hs))
      (fun n t hs => h' n t (.step (by simp [children]) hs)) hy
    obtain ⟨q, rfl⟩ := ihr (fun i t hs => h i t (.step (by simp [children]) hs))
      (fun n t hs => h' n t (.step (by simp [children]) hs)) hz
    exact contractText_text hf p q

variable [CommRing F] [Div F] [ScalarFns F] [LawfulScalar F] [LawfulPow F] [LawfulConstants F]

omit [LawfulScalar F] in
/-- Applying a unary operator to a symbolic value. -/
theorem UnOp.expr_value (op : UnOp) (x : F) (E : Expr) (h0 : E = .zero → x = 0)
    (h1 : E = .one → x = 1) (he : op = .erf → E ≠ .zero ∧ E ≠ .one)
    (hd : op = .digamma → E ≠ .one) :
    (op.expr E = .zero → op.apply x = 0) ∧ (op.expr E = .one → op.apply x = 1) := by
  have h2 : ScalarFns.pow (1 : F) (1 + 1) = 1 := LawfulPow.one_pow _
  cases E with
  | zero =>
    have := h0 rfl; subst this
    cases op <;> simp_all [UnOp.expr, UnOp.apply, Expr.arms, Expr.plain,
      LawfulConstants.zero_sq, LawfulConstants.abs_zero, LawfulConstants.exp_zero,
      LawfulConstants.cos_zero, LawfulConstants.cosh_zero, LawfulConstants.sin_zero,
      LawfulConstants.sinh_zero, LawfulConstants.asin_zero, LawfulConstants.asinh_zero,
      LawfulConstants.tan_zero, LawfulConstants.tanh_zero, LawfulConstants.atan_zero,
      LawfulConstants.atanh_zero]
  | one =>
    have := h1 rfl; subst this
    cases op <;> simp_all [UnOp.expr, UnOp.apply, Expr.arms, Expr.plain, Expr.wrapped,
      LawfulConstants.abs_one, LawfulConstants.ln_one, LawfulConstants.gamma_one,
      LawfulConstants.loggamma_one, LawfulConstants.acos_one, LawfulConstants.acosh_one]
  | text p => cases op <;> simp [UnOp.expr, Expr.arms, Expr.plain, Expr.wrapped, call]

omit [CommRing F] [Div F] [ScalarFns F] [LawfulScalar F] [LawfulPow F] [LawfulConstants F] in
theorem isTensor_scalar_iff {b : Buf F .scalar} {x : F} :
    IsTensor b (Tensor.const [] x) ↔ b = x := by
  constructor
  · intro h
    exact (IsTensor.scalar_val h).2.symm
  · intro h
    exact isTensor_scalar rfl h

omit [Div F] [LawfulScalar F] in
/-- What `Power` computes, including its shortcut. -/
theorem powSpec_cases (b e : BSpec F .scalar) :
    (powSpec b e).unwrap = (ScalarFns.pow b.unwrap e.unwrap : F) ∨
      ((b.unwrap : F) = 0 ∧ (powSpec b e).unwrap = (0 : F) ∧ ∀ s, e ≠ .full s 0) := by
  by_cases h : (b.unwrap : F) = 0 ∧ ∀ s, e ≠ .full s 0
  · obtain ⟨h, he⟩ := h
    cases b with
    | raw x => exact .inl (powSpec_raw x e)
    | diagonal s x =>
      left
      cases e with
      | full se fx =>
        have : ScalarFns.eqb fx 0 = false := by
          by_contra hc
          exact he se (by rw [(LawfulPow.eqb_iff fx 0).1 (by simpa using hc)])
        simp only [powSpec, this]; rfl
      | _ => rfl
    | full s x =>
      have hx : x = 0 := h
      subst hx
      by_cases h1 : ScalarFns.eqb (0 : F) 1 = true
      · left
        have := (LawfulPow.eqb_iff _ _).1 h1
        have triv : ∀ u v : F, u = v := fun u v => by
          rw [← mul_one u, ← mul_one v, ← this, mul_zero, mul_zero]
        exact triv _ _
      · right
        refine ⟨rfl, ?_, he⟩
        have h0 : ScalarFns.eqb (0 : F) 0 = true := (LawfulPow.eqb_iff _ _).2 rfl
        cases e with
        | full se fx =>
          have : ScalarFns.eqb fx 0 = false := by
            by_contra hc
            exact he se (by rw [(LawfulPow.eqb_iff fx 0).1 (by simpa using hc)])
          simp only [powSpec, this, h1, h0]; rfl
        | _ => simp only [powSpec, h1, h0]; rfl
  · left
    by_cases h0 : ∃ s, e = .full s 0
    · obtain ⟨s, rfl⟩ := h0
      have h0 : ScalarFns.eqb (0 : F) 0 = true := (LawfulPow.eqb_iff _ _).2 rfl
      simp only [powSpec, h0]
      exact (LawfulPow.pow_zero _).symm
    · refine powSpec_tensor b e (.inr fun hb => absurd ⟨hb, fun s hs => h0 ⟨s, hs⟩⟩ h)

/-- A symbolic zero (one) evaluates to zero (one). -/
theorem symbolic_spec {idText : Id → String} {numText : F → String} {e : Node F} {τ : BTy}
    (d : FnImpl Γ e τ) {c : Ctx F Γ} (hs : AllScalar Γ e) (hf : CacheFree e)
    (hsafe : SymbolicSafe idText numText c e) {s : BSpec F τ} (h : d.fn.evaluateSpec c = (.ok s, c)) :
    (e.toExpr idText numText = some .zero → IsTensor s.unwrap (.const [] 0)) ∧
      (e.toExpr idText numText = some .one → IsTensor s.unwrap (.const [] 1)) := by
  have down : ∀ {e n : Node F}, n ∈ children e → SymbolicSafe idText numText c e →
      SymbolicSafe idText numText c n := fun hn hsafe =>
    ⟨fun m hm => hsafe.1 m (.step hn hm), fun m hm => hsafe.2.1 m (.step hn hm),
      fun l r hm => hsafe.2.2.1 l r (.step hn hm), fun l r hm => hsafe.2.2.2.1 l r (.step hn hm),
      fun l r hm => hsafe.2.2.2.2 l r (.step hn hm)⟩
  have yields : ∀ {n : Node F} (d : FnImpl Γ n .scalar) {s : BSpec F .scalar},
      d.fn.evaluateSpec c = (.ok s, c) → Yields c n (s.unwrap : F) := by
    intro n d s h
    refine ⟨_, d, s.unwrap, ?_, rfl⟩
    show (d.fn.evaluate c).1 = _
    rw [FnImpl.evaluate_eq]
    simp [EvalM.map, h]
  induction d with
  | var i => simp [Node.toExpr, Expr.plain]
  | const τ b => cases τ <;> simp [Node.toExpr, Expr.plain]
  | constSpec τ b => simp [Node.toExpr]
  | cached i d => simp [Node.toExpr]
  | sum d => simp [Node.toExpr]
  | varAdj i t k hr =>
    have hi := hs.1 i (by simp [Node.contains])
    have ht := hs.1 t (by simp [Node.contains])
    have hd : ∀ {a : BTy} (s : Shp a), a = .scalar → Shp.dims a s = [] := by
      rintro a s rfl; rfl
    obtain ⟨si, c1, h1, h2⟩ := (EvalM.bind_ok_iff _ _ _ _ _).1 h
    obtain ⟨st, c2, h3, h4⟩ := (EvalM.bind_ok_iff _ _ _ _ _).1 h2
    have h5 := ((EvalM.lift_ok_iff _ _ _ _).1 h4).1
    have key := varAdjSpec_tensor i t k (S := Tensor.const [] (0 : F)) (T := Tensor.const [] 0)
      (hd si hi) (hd st ht) (fun _ => rfl) s h5
    have hdel : ∀ p : Bool, (Tensor.delta p (Tensor.const [] (0 : F)) (Tensor.const [] 0)).Same
        (Tensor.const [] (if p then 1 else 0)) := by
      intro p
      refine ⟨rfl, fun ix hix => ?_⟩
      have : ix = [] := by cases hix; rfl
      subst this
      simp [Tensor.delta, Tensor.const]
    have key := key.same (hdel _)
    by_cases hit : i = t
    · simp only [hit, decide_true] at key
      simp [Node.toExpr, hit]
      exact key
    · simp only [hit, decide_false] at key
      simp [Node.toExpr, hit]
      exact key
  | constAdj d t k ih =>
    refine ⟨fun _ => ?_, fun h => by simp [Node.toExpr] at h⟩
    have hτ := (hs.regular (.constAdj d t k)).1
    obtain ⟨sh, -, rfl⟩ := (EvalM.map_ok_iff _ _ _ _ _).1 h
    have hd : ∀ {a : BTy} (s : Shp a), a = .scalar → Shp.dims a s = [] := by
      rintro a s rfl; rfl
    have := isTensor_full sh (0 : F)
    rwa [hd sh hτ] at this
  | un op d ih =>
    rename_i n a
    obtain ⟨x, hx, rfl⟩ := (EvalM.map_ok_iff _ _ _ _ _).1 h
    have ih := ih (hs.child (by simp [children])) (hf.child (by simp [children]))
      (down (by simp [children]) hsafe) hx
    obtain ⟨rfl, -⟩ := (hs.child (e := .un op n) (n := n) (by simp [children])).regular d
    simp only [isTensor_scalar_iff] at ih ⊢
    rw [unSpec_unwrap]
    show (_ → op.apply (x.unwrap : F) = 0) ∧ (_ → op.apply (x.unwrap : F) = 1)
    simp only [Node.toExpr]
    cases hE : n.toExpr idText numText with
    | none => simp
    | some E =>
      simp only [hE, Option.some.injEq, Option.map_some] at ih ⊢
      refine UnOp.expr_value op _ E ih.1 ih.2 ?_ ?_
      · rintro rfl
        have := hsafe.1 n (.refl _)
        rw [hE] at this
        simpa using this
      · rintro rfl
        have := hsafe.2.1 n (.refl _)
        rw [hE] at this
        simpa using this
  | add dl dr z ihl ihr =>
    rename_i l r a b cc
    obtain ⟨x, c1, y, hx, hy, hz⟩ := (binM_ok_iff _ _ _ _ _ _).1 h
    obtain rfl : c1 = c := by
      have := (dl.ctx_eq (hf.child (by simp [children])) c).2.1; rw [hx] at this; exact this
    have ihl := ihl (hs.child (by simp [children])) (hf.child (by simp [children]))
      (down (by simp [children]) hsafe) hx
    have ihr := ihr (hs.child (by simp [children])) (hf.child (by simp [children]))
      (down (by simp [children]) hsafe) hy
    obtain ⟨rfl, -⟩ := (hs.child (e := .add l r) (n := l) (by simp [children])).regular dl
    obtain ⟨rfl, -⟩ := (hs.child (e := .add l r) (n := r) (by simp [children])).regular dr
    cases z
    simp only [isTensor_scalar_iff] at ihl ihr ⊢
    have hv : (x.unwrap + y.unwrap : F) = s.unwrap :=
      Except.ok.inj ((addSpec_sameOk .ss x y s.unwrap).1 ⟨s, hz, rfl⟩)
    rw [← hv]
    cases hl : l.toExpr idText numText with
    | none => simp [Node.toExpr, hl]
    | some E =>
      cases hr : r.toExpr idText numText with
      | none => simp [Node.toExpr, hr]
      | some E' =>
        simp only [hl, hr, Option.some.injEq] at ihl ihr
        simp only [Node.toExpr, hl, hr, Option.bind_some, Option.map_some, Option.some.injEq,
          addExpr_zero, addExpr_one]
        constructor
        · rintro ⟨h1, h2⟩
          rw [ihl.1 h1, ihr.1 h2, add_zero]
        · rintro (⟨h1, h2⟩ | ⟨h1, h2⟩)
          · rw [ihl.1 h1, ihr.2 h2, zero_add]
          · rw [ihl.2 h1, ihr.1 h2, add_zero]
  | sub dl dr z ihl ihr =>
    rename_i l r a b cc
    obtain ⟨x, c1, y, hx, hy, hz⟩ := (binM_ok_iff _ _ _ _ _ _).1 h
    obtain rfl : c1 = c := by
      have := (dl.ctx_eq (hf.child (by simp [children])) c).2.1; rw [hx] at this; exact this
    have ihl := ihl (hs.child (by simp [children])) (hf.child (by simp [children]))
      (down (by simp [children]) hsafe) hx
    have ihr := ihr (hs.child (by simp [children])) (hf.child (by simp [children]))
      (down (by simp [children]) hsafe) hy
    obtain ⟨rfl, -⟩ := (hs.child (e := .sub l r) (n := l) (by simp [children])).regular dl
    obtain ⟨rfl, -⟩ := (hs.child (e := .sub l r) (n := r) (by simp [children])).regular dr
    cases z
    simp only [isTensor_scalar_iff] at ihl ihr ⊢
    have hv : (x.unwrap - y.unwrap : F) = s.unwrap :=
      Except.ok.inj ((subSpec_sameOk .ss rfl x y s.unwrap).1 ⟨s, hz, rfl⟩)
    rw [← hv]
    cases hl : l.toExpr idText numText with
    | none => simp [Node.toExpr, hl]
    | some E =>
      cases hr : r.toExpr idText numText with
      | none => simp [Node.toExpr, hr]
      | some E' =>
        simp only [hl, hr, Option.some.injEq] at ihl ihr
        simp only [Node.toExpr, hl, hr, Option.bind_some, Option.map_some, Option.some.injEq,
          subExpr_zero, subExpr_one]
        constructor
        · rintro (⟨h1, h2⟩ | ⟨h1, h2⟩)
          · rw [ihl.1 h1, ihr.1 h2, sub_zero]
          · rw [ihl.2 h1, ihr.2 h2, sub_self]
        · rintro ⟨h1, h2⟩
          rw [ihl.2 h1, ihr.1 h2, sub_zero]
  | mul dl dr z ihl ihr =>
    rename_i l r a b cc
    obtain ⟨x, c1, y, hx, hy, hz⟩ := (binM_ok_iff _ _ _ _ _ _).1 h
    obtain rfl : c1 = c := by
      have := (dl.ctx_eq (hf.child (by simp [children])) c).2.1; rw [hx] at this; exact this
    have ihl := ihl (hs.child (by simp [children])) (hf.child (by simp [children]))
      (down (by simp [children]) hsafe) hx
    have ihr := ihr (hs.child (by simp [children])) (hf.child (by simp [children]))
      (down (by simp [children]) hsafe) hy
    obtain ⟨rfl, -⟩ := (hs.child (e := .mul l r) (n := l) (by simp [children])).regular dl
    obtain ⟨rfl, -⟩ := (hs.child (e := .mul l r) (n := r) (by simp [children])).regular dr
    cases z
    simp only [isTensor_scalar_iff] at ihl ihr ⊢
    have hv : (x.unwrap * y.unwrap : F) = s.unwrap :=
      Except.ok.inj ((mulSpec_sameOk .ss x y s.unwrap).1 ⟨s, hz, rfl⟩)
    rw [← hv]
    cases hl : l.toExpr idText numText with
    | none => simp [Node.toExpr, hl]
    | some E =>
      cases hr : r.toExpr idText numText with
      | none => simp [Node.toExpr, hr]
      | some E' =>
        simp only [hl, hr, Option.some.injEq] at ihl ihr
        simp only [Node.toExpr, hl, hr, Option.bind_some, Option.map_some, Option.some.injEq,
          prodExpr_zero mulText_text, prodExpr_one mulText_text]
        constructor
        · rintro (h1 | h1)
          · rw [ihl.1 h1, zero_mul]
          · rw [ihr.1 h1, mul_zero]
        · rintro ⟨h1, h2⟩
          rw [ihl.2 h1, ihr.2 h2, mul_one]
  | contract dl dr z ihl ihr =>
    rename_i k l r a b cc
    obtain ⟨x, c1, y, hx, hy, hz⟩ := (binM_ok_iff _ _ _ _ _ _).1 h
    obtain rfl : c1 = c := by
      have := (dl.ctx_eq (hf.child (by simp [children])) c).2.1; rw [hx] at this; exact this
    have ihl := ihl (hs.child (by simp [children])) (hf.child (by simp [children]))
      (down (by simp [children]) hsafe) hx
    have ihr := ihr (hs.child (by simp [children])) (hf.child (by simp [children]))
      (down (by simp [children]) hsafe) hy
    obtain ⟨rfl, -⟩ := (hs.child (e := .contract k l r) (n := l) (by simp [children])).regular dl
    obtain ⟨rfl, -⟩ := (hs.child (e := .contract k l r) (n := r) (by simp [children])).regular dr
    have hv : IsTensor s.unwrap (Tensor.const [] (x.unwrap * y.unwrap : F)) := by
      have := contract_tensor z (by intro _ _ _ h; cases h) (by intro _ _ _ h; cases h)
        (S := Tensor.const [] (x.unwrap : F)) (T := Tensor.const [] (y.unwrap : F))
        (isTensor_scalar_iff.2 rfl) (isTensor_scalar_iff.2 rfl) hz
      refine this.same ⟨by simp [Tensor.contract, Tensor.const], fun ix hix => ?_⟩
      simp [Tensor.contract, Tensor.const, sumOver]
    simp only [isTensor_scalar_iff] at ihl ihr
    cases hl : l.toExpr idText numText with
    | none => simp [Node.toExpr, hl]
    | some E =>
      cases hr : r.toExpr idText numText with
      | none => simp [Node.toExpr, hr]
      | some E' =>
        cases hk : contractText k with
        | none => simp [Node.toExpr, hk]
        | some f =>
          simp only [hl, hr, Option.some.injEq] at ihl ihr
          simp only [Node.toExpr, hl, hr, hk, Option.bind_some, Option.map_some,
            Option.some.injEq, prodExpr_zero (contractText_text hk),
            prodExpr_one (contractText_text hk)]
          constructor
          · rintro (h1 | h1)
            · rwa [ihl.1 h1, zero_mul] at hv
            · rwa [ihr.1 h1, mul_zero] at hv
          · rintro ⟨h1, h2⟩
            rwa [ihl.2 h1, ihr.2 h2, mul_one] at hv
  | div dl dr z ihl ihr =>
    rename_i l r a b cc
    obtain ⟨v, hev, rfl⟩ := (EvalM.map_ok_iff _ _ _ _ _).1 h
    rw [FnImpl.evaluate_eq, FnImpl.evaluate_eq] at hev
    obtain ⟨x', c1, y', hx', hy', hz⟩ := (binM_ok_iff _ _ _ _ _ _).1 hev
    obtain ⟨x, hx, rfl⟩ := (EvalM.map_ok_iff _ _ _ _ _).1 hx'
    obtain ⟨y, hy, rfl⟩ := (EvalM.map_ok_iff _ _ _ _ _).1 hy'
    obtain rfl : c1 = c := by
      have := (dl.ctx_eq (hf.child (by simp [children])) c).2.1; rw [hx] at this; exact this
    have ihl := ihl (hs.child (by simp [children])) (hf.child (by simp [children]))
      (down (by simp [children]) hsafe) hx
    have ihr := ihr (hs.child (by simp [children])) (hf.child (by simp [children]))
      (down (by simp [children]) hsafe) hy
    obtain ⟨rfl, -⟩ := (hs.child (e := .div l r) (n := l) (by simp [children])).regular dl
    obtain ⟨rfl, -⟩ := (hs.child (e := .div l r) (n := r) (by simp [children])).regular dr
    cases z
    simp only [isTensor_scalar_iff] at ihl ihr ⊢
    have hv : (x.unwrap / y.unwrap : F) = v :=
      Except.ok.inj ((Res.ofExcept_ok_iff _ _).1 hz)
    have hdiv := hsafe.2.2.1 l r (.refl _)
    have hyy := yields dr hy
    show (_ → v = 0) ∧ (_ → v = 1)
    rw [← hv]
    cases hl : l.toExpr idText numText with
    | none => simp [Node.toExpr, hl]
    | some E =>
      cases hr : r.toExpr idText numText with
      | none => simp [Node.toExpr, hr]
      | some E' =>
        simp only [hl, hr, Option.some.injEq] at ihl ihr hdiv
        simp only [Node.toExpr, hl, hr, Option.bind_some, Option.map_some, Option.some.injEq,
          divExpr_zero, divExpr_one]
        constructor
        · intro h1
          rw [ihl.1 h1]
          refine LawfulConstants.zero_div _ fun h0 => hdiv h1 ?_
          rwa [h0] at hyy
        · rintro ⟨h1, h2⟩
          rw [ihl.2 h1, ihr.2 h2, LawfulConstants.one_div_one]
  | power dl dr ihl ihr =>
    rename_i l r
    obtain ⟨x, c1, y, hx, hy, hz⟩ := (binM_ok_iff _ _ _ _ _ _).1 h
    obtain rfl : c1 = c := by
      have := (dl.ctx_eq (hf.child (by simp [children])) c).2.1; rw [hx] at this; exact this
    have ihl := ihl (hs.child (by simp [children])) (hf.child (by simp [children]))
      (down (by simp [children]) hsafe) hx
    have ihr := ihr (hs.child (by simp [children])) (hf.child (by simp [children]))
      (down (by simp [children]) hsafe) hy
    simp only [isTensor_scalar_iff] at ihl ihr ⊢
    cases hz
    have hpow := hsafe.2.2.2.1 l r (.refl _)
    have hpow0 := hsafe.2.2.2.2 l r (.refl _)
    have hxx := yields dl hx
    have hyy := yields dr hy
    cases hl : l.toExpr idText numText with
    | none => simp [Node.toExpr, hl]
    | some E =>
      cases hr : r.toExpr idText numText with
      | none => simp [Node.toExpr, hr]
      | some E' =>
        simp only [hl, hr, Option.some.injEq] at ihl ihr hpow hpow0
        simp only [Node.toExpr, hl, hr, Option.bind_some, Option.map_some, Option.some.injEq,
          powerExpr_zero, powerExpr_one]
        constructor
        · intro h1
          rcases powSpec_cases x y with h2 | ⟨-, h2, -⟩
          · rw [h2, ihl.1 h1]
            refine LawfulConstants.zero_pow _ fun h0 => hpow h1 ?_
            rwa [h0] at hyy
          · exact h2
        · rintro ⟨h1, h2 | h2⟩
          · rcases powSpec_cases x y with h3 | ⟨h0, h3, -⟩
            · rw [h3, ihr.1 h2, LawfulPow.pow_zero]
            · rcases hpow0 h2 with he | he
              · obtain ⟨b, rfl⟩ := raw_of_explicit dl he c1 x (by rw [hx])
                rw [powSpec_raw, ihr.1 h2, LawfulPow.pow_zero]
              · exact absurd (h0 ▸ hxx) he
          · rcases powSpec_cases x y with h3 | ⟨h0, h3, -⟩
            · rw [h3, ihl.2 h2, LawfulPow.one_pow]
            · rw [h3, ← h0, ihl.2 h2]

end Aegir
