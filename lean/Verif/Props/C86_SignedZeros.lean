import Verif.Lemmas.SignedZero
import Verif.Props.C62_Scalars
import Verif.Props.C83_LogisticBenches
import Verif.Props.C84_LinearLearns
/-!
# C86: the sign of zero matters in quotients and powers only

`Spec/Ieee` has one zero. Here the arithmetic has two, as `f64` has, and every operation sets the sign that
IEEE 754 requires. Forgetting the sign of the zeros commutes with every operation of the library except division
by the negative zero and odd negative powers of it, hence with the evaluation of every expression without
these, and with the runs of the examples and benchmarks, in which no divisor is the negative zero.
-/

namespace Aegir.Props
open Aegir Aegir.Spec

variable {p q E : ℕ}

/-- The operations that any expression may need. -/
theorem C86_scalarMap : ScalarMap (Sp.forget (p := p) (q := q) (E := E)) := Sp.scalarMap

/-- The unary operators. (The operator `Sign` needs the exception that it makes for zeros: `signum` depends on
their sign.) -/
theorem C86_unary (op : UnOp) (x : Sp p q E) : (op.apply x).forget = op.apply x.forget := by
  have hz : ScalarFns.isZero (x.forget) = ScalarFns.isZero x := Sp.isZero_forget x
  cases op with
  | subOne => exact Sp.forget_sub x 1
  | oneSub => exact Sp.forget_sub 1 x
  | addOne => exact Sp.forget_add x 1
  | square =>
    refine (Sp.forget_pow x (1 + 1) ?_).trans (congrArg (ScalarFns.pow x.forget) (Sp.forget_add 1 1))
    rintro ⟨-, h, -⟩
    have hp : (0 : ℝ) ≤ Sp.val (1 + 1 : Sp p q E) := by
      have h1 : Sp.Plus (1 + 1 : Sp p q E) := Sp.plus_one.add Sp.plus_one
      generalize (1 + 1 : Sp p q E) = y at h1
      cases y with
      | fin s y hy hs => exact h1.nonneg
      | inf s => exact le_refl _
      | nan => exact le_refl _
    linarith
  | double => exact (Sp.forget_mul (1 + 1) x).trans (congrArg (· * x.forget) (Sp.forget_add 1 1))
  | negate => exact Sp.forget_neg x
  | dirac =>
    simp only [UnOp.apply]
    rw [show ScalarFns.eqb x.forget (0 : Fp p q E) = ScalarFns.eqb x (0 : Sp p q E) from Sp.eqb_forget x 0]
    split <;> rfl
  | sign =>
    simp only [UnOp.apply, hz]
    split
    · rfl
    · next h => exact Sp.forget_signum x (by simpa using h)
  | abs => exact Sp.forget_abs x
  | ln => exact Sp.forget_ln x
  | xlnx =>
    simp only [UnOp.apply]
    rw [show ScalarFns.leb x.forget (0 : Fp p q E) = ScalarFns.leb x (0 : Sp p q E) from Sp.leb_forget x 0]
    split
    · rfl
    · rw [Sp.forget_mul, Sp.forget_ln]
  | exp => exact Sp.forget_exp x
  | rabbit => exact (Sp.forget_mul x (1 - x)).trans (congrArg (x.forget * ·) (Sp.forget_sub 1 x))
  | sigmoid => exact Sp.forget_sigmoid x
  | cos | cosh => exact Sp.forget_lift (fun _ => rfl) x
  | sin | sinh | asinh | tan => exact Sp.forget_liftOdd (fun _ => rfl) x
  | erf | tanh => exact Sp.forget_liftOdd (fun s => Sp.forget_cond _ _ s) x
  | atan => exact Sp.forget_liftOdd (fun s => Sp.forget_round s _) x
  | acos | logGamma => exact Sp.forget_liftOn (fun _ => rfl) x
  | gamma | digamma | acosh => exact Sp.forget_liftOn (fun s => Sp.forget_cond _ _ s) x
  | asin => exact Sp.forget_liftOddOn (fun _ => rfl) x
  | atanh => exact Sp.forget_atanh x

/-- Division: exactly the quotients of a number that is neither zero nor NaN by the negative zero depend on the sign. -/
theorem C86_division (x y : Sp p q E) : (x / y).forget = x.forget / y.forget ↔
    (y = Sp.zero true → ScalarFns.isZero x = true ∨ x = .nan) := by
  constructor
  · rintro h rfl
    cases x with
    | fin s x hx hs =>
      by_contra hc
      have h0 : x ≠ 0 := fun h0 => hc (Or.inl (decide_eq_true h0))
      have e1 : (Sp.fin s x hx hs / Sp.zero true : Sp p q E) =
          if (0 : ℝ) = 0 then (if x = 0 then .nan else .inf (s ^^ true)) else .round (s ^^ true) (x / 0) := rfl
      have e2 : (Fp.num x hx / Fp.num 0 Fp.represents_zero : Fp p q E) =
          if (0 : ℝ) = 0 then (if x = 0 then .nan else .inf (decide (x < 0))) else .round (x / 0) := rfl
      rw [e1, if_pos rfl, if_neg h0] at h
      have h' : Fp.inf (s ^^ true) = (Fp.num x hx / Fp.num 0 Fp.represents_zero : Fp p q E) := h
      rw [e2, if_pos rfl, if_neg h0, ← hs h0] at h'
      injection h' with h'
      cases s <;> exact absurd h' (by decide)
    | inf s =>
      have h' : (Fp.inf (s ^^ true) : Fp p q E) = .inf (s ^^ decide ((0 : ℝ) < 0)) := h
      rw [decide_eq_false (lt_irrefl _)] at h'
      injection h' with h'
      cases s <;> exact absurd h' (by decide)
    | nan => exact Or.inr rfl
  · intro h
    by_cases hy : y = Sp.zero true
    · rcases h hy with hz | rfl
      · clear h
        subst hy
        cases x with
        | fin s x hx hs =>
          have h0 : x = 0 := of_decide_eq_true hz
          have e1 : (Sp.fin s x hx hs / Sp.zero true : Sp p q E) =
              if (0 : ℝ) = 0 then (if x = 0 then .nan else .inf (s ^^ true)) else .round (s ^^ true) (x / 0) := rfl
          have e2 : (Fp.num x hx / Fp.num 0 Fp.represents_zero : Fp p q E) =
              if (0 : ℝ) = 0 then (if x = 0 then .nan else .inf (decide (x < 0))) else .round (x / 0) := rfl
          rw [e1, if_pos rfl, if_pos h0]
          refine Eq.trans ?_ e2.symm
          rw [if_pos rfl, if_pos h0]
          rfl
        | inf s => cases hz
        | nan => cases hz
      · cases y <;> rfl
    · exact Sp.forget_div x y hy

/-- Powers: exactly the negative odd powers of the negative zero depend on the sign. -/
theorem C86_power (x y : Sp p q E) : (ScalarFns.pow x y).forget = ScalarFns.pow x.forget y.forget ↔
    ¬ (x = Sp.zero true ∧ y.val < 0 ∧ Sp.OddInt y.val) := by
  constructor
  · rintro h ⟨rfl, h1, h2⟩
    cases y with
    | fin t y hy ht =>
      simp only [ScalarFns.pow, Sp.zero, Sp.forget] at h
      have h1' : y < 0 := h1
      have h2' : Sp.OddInt y := h2
      simp [h1', h2'] at h
    | inf t => exact absurd h1 (lt_irrefl _)
    | nan => exact absurd h1 (lt_irrefl _)
  · exact Sp.forget_pow x y

/-- The reciprocal of the negative zero is the negative infinity, so is its power `-1`; that of one zero is the
positive one. -/
example (m : Sp p q E) (hm : m.val = -1) : (1 / Sp.zero true : Sp p q E).forget ≠ (1 : Fp p q E) / 0 ∧
    (1 / Sp.zero false : Sp p q E).forget = (1 : Fp p q E) / 0 ∧
    (ScalarFns.pow (Sp.zero true : Sp p q E) m).forget ≠ ScalarFns.pow (0 : Fp p q E) m.forget := by
  refine ⟨fun h => ?_, (C86_division _ _).2 (fun h => ?_), fun h => (C86_power _ _).1 h ⟨rfl, ?_, -1, ?_⟩⟩
  · rcases (C86_division (1 : Sp p q E) _).1 h rfl with h | h
    · exact absurd (of_decide_eq_true h) one_ne_zero
    · cases h
  · injection h with h
    cases h
  · rw [hm]; norm_num
  · rw [hm]; norm_num

/-- No quotients, no powers. -/
def QuotFree {F : Type} : Node F → Prop
  | .constAdj n _ | .cached n _ | .sum n | .un _ n => QuotFree n
  | .add l r | .sub l r | .mul l r | .contract _ l r => QuotFree l ∧ QuotFree r
  | .div _ _ | .power _ _ => False
  | _ => True

theorem QuotFree.respects {e : Node (Sp p q E)} (h : QuotFree e) : Respects Sp.forget e := by
  induction e with
  | var | varAdj | const | constSpec => trivial
  | constAdj n t ih | cached n i ih | sum n ih => exact ih h
  | un op n ih => exact ⟨C86_unary op, ih h⟩
  | add l r ihl ihr | sub l r ihl ihr | mul l r ihl ihr | contract k l r ihl ihr => exact ⟨ihl h.1, ihr h.2⟩
  | div | power => exact h.elim

/-- The value of an expression without quotients and powers: in the result, in every error and panic and in
everything left in the caches, at most the signs of zeros differ. -/
theorem C86_evaluate {Γ : Id → BTy} {e : Node (Sp p q E)} {τ : BTy} (he : QuotFree e) (d : FnImpl Γ e τ)
    (d' : FnImpl Γ (conv Sp.forget e) τ) (c : Ctx (Sp p q E) Γ) :
    d'.evaluate (convCtx Sp.forget c) = ((d.evaluate c).1.map (fun b => Buf.map τ b Sp.forget),
      convCtx Sp.forget (d.evaluate c).2) :=
  (C62_evaluate C86_scalarMap he.respects d d' c).1

/-- Programs that evaluate such an expression, or an adjoint that is such an expression. -/
theorem C86_run {Γ : Id → BTy} (e : Node (Sp p q E)) (c : Ctx (Sp p q E) Γ) :
    (QuotFree e → run (conv Sp.forget e) (convCtx Sp.forget c) =
      (run e c).map fun r => ⟨r.1, r.2.map fun b => Buf.map r.1 b Sp.forget⟩) ∧
    ∀ t, (∀ e', e.adjoint t = some e' → QuotFree e') →
      runAdjoint (conv Sp.forget e) t (convCtx Sp.forget c) =
        (runAdjoint e t c).map fun r => ⟨r.1, r.2.map fun b => Buf.map r.1 b Sp.forget⟩ :=
  ⟨fun he => (C62_run C86_scalarMap c).1 he.respects,
    fun t h => (C62_run C86_scalarMap c).2 t fun e' he => (h e' he).respects⟩

/-- `x · sin x - ln x` at the negative zero, and its derivative but for the logarithm. -/
example : QuotFree (F := Sp p q E)
      (.sub (.mul (.var 0) (.un .sin (.var 0))) (.un .ln (.var 0))) ∧
    ∀ e', Node.adjoint (.mul (.var 0) (.un .sin (.var 0)) : Node (Sp p q E)) 0 = some e' → QuotFree e' := by
  refine ⟨⟨⟨trivial, trivial⟩, trivial⟩, ?_⟩
  rintro e' ⟨⟩
  simp [QuotFree]

/-- With a quotient this is false: the reciprocal of the negative zero. -/
theorem C86_violation : ∃ (e : Node SDouble) (c : Ctx SDouble fun _ => .scalar),
    run (conv Sp.forget e) (convCtx Sp.forget c) ≠
      (run e c).map fun r => ⟨r.1, r.2.map fun b => Buf.map r.1 b Sp.forget⟩ := by
  refine ⟨.div (.const .scalar (1 : SDouble)) (.var 0), fun _ => some (Sp.zero true : SDouble), fun h => ?_⟩
  let d : FnImpl (F := SDouble) (fun _ => .scalar) (.div (.const .scalar (1 : SDouble)) (.var 0)) .scalar :=
    .div (.const (τ := .scalar) (1 : SDouble)) (.var (Γ := fun _ => .scalar) 0) .ss
  rw [(C48_run _ _).2 d, (C48_run _ _).2 (d.conv Sp.forget)] at h
  simp only [Option.map_some, Option.some.injEq, Sigma.mk.injEq, heq_eq_eq, true_and] at h
  have e1 : (d.evaluate fun _ => some (Sp.zero true : SDouble)).1 = .ok ((1 / Sp.zero true : SDouble)) := rfl
  have e2 : ((d.conv Sp.forget).evaluate (convCtx Sp.forget fun _ => some (Sp.zero true : SDouble))).1 =
      .ok ((Sp.forget (1 : SDouble) / Sp.forget (Sp.zero true : SDouble))) := rfl
  rw [e1, e2] at h
  have h' : Sp.forget (1 : SDouble) / Sp.forget (Sp.zero true : SDouble) = (1 / Sp.zero true : SDouble).forget := by
    injection h
  rcases (C86_division _ _).1 h'.symm rfl with h | h
  · exact absurd (of_decide_eq_true h) one_ne_zero
  · cases h

end Aegir.Props

/-! ### The example and benchmark programs -/

namespace Aegir.Benches
open Aegir.Examples Aegir.Spec Aegir.Props

variable {N : Nat} {p q E : ℕ}

/-- The struct with every number converted. -/
def mapData {F G : Type} (f : F → G) (s : Data F N) : Data G N :=
  ⟨NArr.map [N] s.x f, f s.y, NArr.map [N] s.w f⟩

section
variable {F G : Type}

theorem conv_elem (f : F → G) (x : NArr F [N]) (k : Fin N) : (NArr.map [N] x f).elem k = f (x.elem k) :=
  NArr.row_mkRows (ds := []) _ k

theorem full_elem (x : F) (k : Fin N) : (NArr.full [N] x).elem k = x := NArr.row_mkRows (ds := []) _ k

theorem ofElems_elem (g : Fin N → F) (k : Fin N) : (NArr.ofElems g).elem k = g k := NArr.row_mkRows (ds := []) g k

theorem update_conv (f : F → G) {step : F → F → F} {step' : G → G → G}
    (h : ∀ a b, f (step a b) = step' (f a) (f b)) {w g : NArr F [N]} {g' : NArr G [N]}
    (hg : ∀ k, g'.elem k = f (g.elem k)) :
    update step' (NArr.map [N] w f) g' = NArr.map [N] (update step w g) f := by
  refine elemExt fun k => ?_
  rw [update_elem, conv_elem, conv_elem, update_elem, h, hg]

variable [Zero F] [One F] [Add F] [Sub F] [Mul F] [Div F] [Neg F] [ScalarFns F]
  [Zero G] [One G] [Add G] [Sub G] [Mul G] [Div G] [Neg G] [ScalarFns G]

omit [Div F] [Neg F] [Div G] [Neg G] in
theorem label_conv {f : F → G} (hf : ScalarMap f) (x tw : NArr F [N]) :
    label (NArr.map [N] x f) (NArr.map [N] tw f) = f (label x tw) := by
  have key : ∀ (l : List (Fin N)) (a : F),
      l.foldl (fun acc i => acc + (NArr.map [N] x f).elem i * (NArr.map [N] tw f).elem i) (f a) =
        f (l.foldl (fun acc i => acc + x.elem i * tw.elem i) a) := by
    intro l
    induction l with
    | nil => intro a; rfl
    | cons i l ih =>
      intro a
      rw [List.foldl_cons, List.foldl_cons, conv_elem, conv_elem, ← hf.mul, ← hf.add]
      exact ih _
  unfold label
  rw [← hf.zero]
  exact key _ _

omit [Div F] [Neg F] [Div G] [Neg G] in
theorem residual_conv {f : F → G} (hf : ScalarMap f) (s : Data F N) :
    residual (mapData f s) = f (residual s) := by
  simp only [residual, mapData]
  rw [label_conv hf, ← hf.sub, ← hf.one, ← hf.add, ← hf.mul]

/-- A conversion of scalars commutes with the loop of the linear example. -/
theorem linearRun_conv {f : F → G} (hf : ScalarMap f) (h0 : ScalarFns.isZero (0 : F) = true) (η : F)
    (tw : NArr F [N]) (xs : List (NArr F [N])) (s : Data F N) :
    linearRun (f η) (NArr.map [N] tw f) (mapData f s) (xs.map fun x => NArr.map [N] x f) =
      (linearRun η tw s xs).map (mapData f) := by
  have h0' : ScalarFns.isZero (0 : G) = true := by rw [← hf.zero, hf.isZero, h0]
  induction xs generalizing s with
  | nil => rfl
  | cons x xs ih =>
    obtain ⟨g, hg, h⟩ := sse_op h0 (⟨x, label x tw, s.w⟩ : Data F N)
    obtain ⟨g', hg', h'⟩ := sse_op h0' (mapData f ⟨x, label x tw, s.w⟩ : Data G N)
    rw [List.map_cons, linearRun, linearRun, linearStep, linearStep, label_conv hf]
    simp only [mapData] at hg' h' ⊢
    rw [hg, hg']
    simp only [Res.unwrap, Res.map, Res.bind]
    rw [update_conv (g := g) f (step := fun w g => w - η * g) (fun a b => by rw [hf.sub, hf.mul]) fun k => by
      rw [h', h, conv_elem, hf.mul, hf.mul, hf.one]
      exact congrArg (· * _) (residual_conv hf (⟨x, label x tw, s.w⟩ : Data F N))]
    exact ih ⟨x, label x tw, update (fun w g => w - η * g) s.w g⟩

omit [One F] [Sub F] [Div F] [Neg F] [ScalarFns F] [One G] [Sub G] [Div G] [Neg G] [ScalarFns G] in
theorem benchLabel_conv {f : F → G} (hz : f 0 = 0) (ha : ∀ x y, f (x + y) = f x + f y)
    (hm : ∀ x y, f (x * y) = f x * f y) (x : NArr F [N]) (tw : List F) :
    benchLabel (NArr.map [N] x f) (tw.map f) = f (benchLabel x tw) := by
  have h1 : (List.ofFn (NArr.map [N] x f).elem).zip ((tw.map f).take N) =
      ((List.ofFn x.elem).zip (tw.take N)).map (Prod.map f f) := by
    rw [← List.map_take, show List.ofFn (NArr.map [N] x f).elem = (List.ofFn x.elem).map f by
      rw [List.map_ofFn]; exact congrArg _ (funext fun k => conv_elem f x k), List.zip_map]
  have key : ∀ (l : List (F × F)) (a : F),
      (l.map (Prod.map f f)).foldl (fun acc p => acc + p.1 * p.2) (f a) =
        f (l.foldl (fun acc p => acc + p.1 * p.2) a) := by
    intro l
    induction l with
    | nil => intro a; rfl
    | cons i l ih =>
      intro a
      simp only [List.map_cons, List.foldl_cons, Prod.map]
      rw [← hm, ← ha]
      exact ih _
  unfold benchLabel
  rw [h1, ← hz]
  exact key _ _

/-- A conversion of scalars commutes with the loop of the linear benchmark. -/
theorem linearAuto_conv {f : F → G} (hf : ScalarMap f) (h0 : ScalarFns.isZero (0 : F) = true) (η : F)
    (tw : List F) (xs : List (NArr F [N])) (s : Data F N) :
    linearAuto (f η) (tw.map f) (mapData f s) (xs.map fun x => NArr.map [N] x f) =
      (linearAuto η tw s xs).map (mapData f) := by
  have h0' : ScalarFns.isZero (0 : G) = true := by rw [← hf.zero, hf.isZero, h0]
  induction xs generalizing s with
  | nil => rfl
  | cons x xs ih =>
    obtain ⟨g, hg, h⟩ := sse_op h0 (⟨x, benchLabel x tw, s.w⟩ : Data F N)
    obtain ⟨g', hg', h'⟩ := sse_op h0' (mapData f ⟨x, benchLabel x tw, s.w⟩ : Data G N)
    rw [List.map_cons, linearAuto, linearAuto, linearSolve, linearSolve,
      benchLabel_conv hf.zero hf.add hf.mul]
    simp only [mapData] at hg' h' ⊢
    rw [hg, hg']
    simp only [Res.unwrap, Res.bind]
    rw [update_conv (g := g) f (step := fun w g => w - η * g) (fun a b => by rw [hf.sub, hf.mul]) fun k => by
      rw [h', h, conv_elem, hf.mul, hf.mul, hf.one]
      exact congrArg (· * _) (residual_conv hf (⟨x, benchLabel x tw, s.w⟩ : Data F N))]
    exact ih ⟨x, benchLabel x tw, update (fun w g => w - η * g) s.w g⟩

omit [Add F] [Sub F] [Mul F] [Div F] [Neg F] [Add G] [Sub G] [Mul G] [Div G] [Neg G] in
theorem genBool_conv {f : F → G} (hz : f 0 = 0) (h1 : f 1 = 1)
    (hl : ∀ x y, ScalarFns.leb (f x) (f y) = ScalarFns.leb x y) (x : F) (b : Bool) :
    genBool (f x) b = genBool x b := by
  unfold genBool
  rw [← hz, ← h1, hl, hl]

/-- A conversion of scalars commutes with the loop of the logistic example, if it preserves what the gradient
computes for each entry. -/
theorem logisticRun_conv {f : F → G} (hf : ScalarMap f) (h0 : ScalarFns.isZero (0 : F) = true)
    (hn0 : ScalarFns.isZero (-0 : F) = true) (hn : f (-0) = -0)
    (hl : ∀ x y, ScalarFns.leb (f x) (f y) = ScalarFns.leb x y) (hσ : ∀ x, f (sigmoid x) = sigmoid (f x))
    (he : ∀ (z x : F) (b : Bool), f (gradEntry z (if b then 1 else 0) x) =
      gradEntry (f z) (if b then 1 else 0) (f x)) (η : F)
    (tw : NArr F [N]) (ds : List (NArr F [N] × Bool)) (s : Data F N) :
    logisticRun (f η) (NArr.map [N] tw f) (mapData f s) (ds.map fun d => (NArr.map [N] d.1 f, d.2)) =
      (logisticRun η tw s ds).map (mapData f) := by
  have h0' : ScalarFns.isZero (0 : G) = true := by rw [← hf.zero, hf.isZero, h0]
  have hn0' : ScalarFns.isZero (-0 : G) = true := by rw [← hn, hf.isZero, hn0]
  induction ds generalizing s with
  | nil => rfl
  | cons d ds ih =>
    obtain ⟨x, b⟩ := d
    rw [List.map_cons, logisticRun, logisticRun, logisticStep, logisticStep]
    simp only [label_conv hf, ← hσ, genBool_conv hf.zero hf.one hl]
    cases genBool (sigmoid (label x tw)) b with
    | err e => rfl
    | panic => rfl
    | ok b =>
      obtain ⟨g, hg, h⟩ := likelihood_op h0 hn0 (⟨x, if b then 1 else 0, s.w⟩ : Data F N)
      obtain ⟨g', hg', h'⟩ := likelihood_op h0' hn0'
        (⟨NArr.map [N] x f, if b then 1 else 0, NArr.map [N] s.w f⟩ : Data G N)
      simp only [Res.bind, mapData]
      rw [hg, hg']
      simp only [Res.unwrap, Res.map]
      rw [update_conv (g := g) f (step := fun w g => w + η * g) (fun a b => by rw [hf.add, hf.mul]) fun k => by
        rw [h', h, conv_elem, label_conv hf, he]]
      have hb : (if b then 1 else 0 : G) = f (if b then 1 else 0) := by
        cases b
        · exact hf.zero.symm
        · exact hf.one.symm
      rw [hb]
      exact ih ⟨x, if b then 1 else 0, update (fun w g => w + η * g) s.w g⟩

/-- And with the gradient written by hand. -/
theorem logisticByHand_conv {f : F → G} (hf : ScalarMap f)
    (hl : ∀ x y, ScalarFns.leb (f x) (f y) = ScalarFns.leb x y) (hσ : ∀ x, f (sigmoid x) = sigmoid (f x))
    (η : F) (tw : List F) (ds : List (NArr F [N] × Bool)) (s : Data F N) :
    logisticByHand (f η) (tw.map f) (mapData f s) (ds.map fun d => (NArr.map [N] d.1 f, d.2)) =
      (logisticByHand η tw s ds).map (mapData f) := by
  induction ds generalizing s with
  | nil => rfl
  | cons d ds ih =>
    obtain ⟨x, b⟩ := d
    rw [List.map_cons, logisticByHand, logisticByHand, logisticSolve, logisticSolve]
    simp only [benchLabel_conv hf.zero hf.add hf.mul, ← hσ, genBool_conv hf.zero hf.one hl]
    cases genBool (sigmoid (benchLabel x tw)) b with
    | err e => rfl
    | panic => rfl
    | ok b =>
      have hb : (if b then 1 else 0 : G) = f (if b then 1 else 0) := by
        cases b
        · exact hf.zero.symm
        · exact hf.one.symm
      obtain ⟨g, hg, h⟩ := byHand_op (⟨x, if b then 1 else 0, s.w⟩ : Data F N)
      obtain ⟨g', hg', h'⟩ := byHand_op
        (⟨NArr.map [N] x f, if b then 1 else 0, NArr.map [N] s.w f⟩ : Data G N)
      simp only [Res.bind, mapData]
      rw [hg, hg']
      simp only [Res.unwrap]
      rw [update_conv (g := g) f (step := fun w g => w + η * g) (fun a b => by rw [hf.add, hf.mul]) fun k => by
        rw [h', h, conv_elem, label_conv hf, hb, hf.mul]
        simp only [pull]
        rw [hf.sub, hf.mul, hf.mul, hf.sub, hf.sub, hf.one, hσ], hb]
      exact ih ⟨x, if b then 1 else 0, update (fun w g => w + η * g) s.w g⟩

end

/-! ### IEEE arithmetic with two zeros -/

theorem sp_isZero (s : Bool) : ScalarFns.isZero (Sp.zero s : Sp p q E) = true := decide_eq_true rfl

theorem sp_mul_comm (a b : Sp p q E) : a * b = b * a := by
  cases a with
  | fin s x _ _ =>
    cases b with
    | fin t y _ _ =>
      exact congrArg₂ Sp.round (Bool.xor_comm s t) (mul_comm x y)
    | inf t =>
      show (if x = 0 then Sp.nan else Sp.inf (s ^^ t)) = if x = 0 then Sp.nan else Sp.inf (t ^^ s)
      rw [Bool.xor_comm]
    | nan => rfl
  | inf s =>
    cases b with
    | fin t y _ _ =>
      show (if y = 0 then Sp.nan else Sp.inf (s ^^ t)) = if y = 0 then Sp.nan else Sp.inf (t ^^ s)
      rw [Bool.xor_comm]
    | inf t => exact congrArg Sp.inf (Bool.xor_comm s t)
    | nan => rfl
  | nan => cases b <;> rfl

theorem sp_mul_one (a : Sp p q E) : a * 1 = a := by
  cases a with
  | fin s x h hs =>
    have e : (Sp.fin s x h hs * 1 : Sp p q E) = Sp.round (s ^^ false) (x * 1) := rfl
    rw [e, mul_one, Bool.xor_false]
    have hx : |fround p q x| ≤ largest p E := by rw [h.1]; exact h.2
    rw [Sp.round, dif_pos hx]
    congr 1
    · split
      · rfl
      · next h0 => exact (hs h0).symm
    · exact h.1
  | inf s =>
    have e : (Sp.inf s * 1 : Sp p q E) = if (1 : ℝ) = 0 then .nan else .inf (s ^^ false) := rfl
    rw [e, if_neg one_ne_zero, Bool.xor_false]
  | nan => rfl

/-- No divisor in the gradient of the likelihood is the negative zero. -/
theorem gradEntry_forget (z x : Sp p q E) (b : Bool) :
    (gradEntry z (if b then 1 else 0) x).forget = gradEntry z.forget (if b then 1 else 0) x.forget := by
  have hb : (if b then 1 else 0 : Fp p q E) = (if b then 1 else 0 : Sp p q E).forget := by
    cases b <;> rfl
  have hy : Sp.Plus (if b then 1 else 0 : Sp p q E) := by cases b <;> rfl
  rw [hb]
  generalize (if b then 1 else 0 : Sp p q E) = y at hy
  simp only [gradEntry]
  rw [Sp.forget_div _ _ fun h => ((Sp.plus_sigmoid z).mul hy).ne_zero (Sp.add_eq_zero h).1]
  simp only [Sp.forget_add, Sp.forget_mul, Sp.forget_sub, Sp.forget_neg, Sp.forget_one, Sp.forget_sigmoid]

/-- The linear example: the run in IEEE arithmetic with signed zeros is the run of C78, up to the signs of
zeros. -/
theorem C86_linear (η : Sp p q E) (tw : NArr (Sp p q E) [N]) (xs : List (NArr (Sp p q E) [N]))
    (s : Data (Sp p q E) N) :
    linearRun η.forget (NArr.map [N] tw Sp.forget) (mapData Sp.forget s)
        (xs.map fun x => NArr.map [N] x Sp.forget) =
      (linearRun η tw s xs).map (mapData Sp.forget) :=
  linearRun_conv C86_scalarMap (sp_isZero false) η tw xs s

theorem fp_neg_zero : ScalarFns.isZero (-0 : Fp p q E) = true := by
  show @decide ((-(0 : ℝ)) = 0) (Classical.propDecidable _) = true
  exact @decide_eq_true _ (Classical.propDecidable _) neg_zero

/-- The logistic example likewise, as in C80. -/
theorem C86_logistic (η : Sp p q E) (tw : NArr (Sp p q E) [N]) (ds : List (NArr (Sp p q E) [N] × Bool))
    (s : Data (Sp p q E) N) :
    logisticRun η.forget (NArr.map [N] tw Sp.forget) (mapData Sp.forget s)
        (ds.map fun d => (NArr.map [N] d.1 Sp.forget, d.2)) =
      (logisticRun η tw s ds).map (mapData Sp.forget) :=
  logisticRun_conv C86_scalarMap (sp_isZero false)
    (by simp [← Sp.isZero_forget, Sp.forget_neg, Sp.forget_zero, fp_neg_zero])
    (Sp.forget_neg 0) Sp.leb_forget Sp.forget_sigmoid gradEntry_forget η tw ds s

/-- The linear benchmarks: the three programs end in the same state including the signs of all zeros, which is
that of the arithmetic with one zero (C82) up to these. -/
theorem C86_benches (η : Sp p q E) (tw : List (Sp p q E)) (xs : List (NArr (Sp p q E) [N]))
    (s : Data (Sp p q E) N) : ∃ s', linearAuto η tw s xs = .ok s' ∧ linearByHand η tw s xs = .ok s' ∧
      linearRaw η tw s xs = .ok s' ∧
      linearAuto η.forget (tw.map Sp.forget) (mapData Sp.forget s)
        (xs.map fun x => NArr.map [N] x Sp.forget) = .ok (mapData Sp.forget s') := by
  obtain ⟨s', h1, h2, h3⟩ := C82_linear (sp_isZero false) sp_mul_comm sp_mul_one η tw xs s
  refine ⟨s', h1, h2, h3, ?_⟩
  rw [linearAuto_conv C86_scalarMap (sp_isZero false), h1]
  rfl

/-- The logistic benchmark with the gradient written by hand (C83). -/
theorem C86_byHand (η : Sp p q E) (tw : List (Sp p q E)) (ds : List (NArr (Sp p q E) [N] × Bool))
    (s : Data (Sp p q E) N) :
    logisticByHand η.forget (tw.map Sp.forget) (mapData Sp.forget s)
        (ds.map fun d => (NArr.map [N] d.1 Sp.forget, d.2)) =
      (logisticByHand η tw s ds).map (mapData Sp.forget) :=
  logisticByHand_conv C86_scalarMap Sp.leb_forget Sp.forget_sigmoid η tw ds s

open MeasureTheory ProbabilityTheory in
/-- What C84 says of the linear benchmarks holds for `f64` with its two zeros. -/
theorem C86_learns {Ω : Type} [MeasurableSpace Ω] {P : Measure Ω} [IsProbabilityMeasure P]
    (hN : N ≠ 0) (hN' : N ≤ 20) {m : ℕ} [NeZero m] (hm : m = 2 ^ 53) {X : ℕ → Ω → Fin N → Fin m}
    (hX : ∀ k, Measurable (X k)) (hi : iIndepFun X P)
    (hμ : ∀ k, P.map (X k) = Measure.pi fun _ => (PMF.uniformOfFintype (Fin m)).toMeasure)
    {n : ℕ} (hn : 50000 ≤ n) (hn' : n ≤ 10 ^ 13) {tw : List SDouble}
    (ht : tw = trueWeights.map fun x : ℚ => Sp.round false (x : ℝ)) :
    ∃ S : Ω → Data SDouble N, ∀ xs : Ω → List (NArr SDouble [N]),
      xs = (fun ω => List.ofFn fun i : Fin n =>
        NArr.ofElems fun k => Sp.round false ((X i ω k : ℕ) / 2 ^ 53)) →
      (∀ ω, linearAuto (Sp.round false (1 / 100)) tw (init N) (xs ω) = .ok (S ω) ∧
        linearByHand (Sp.round false (1 / 100)) tw (init N) (xs ω) = .ok (S ω) ∧
        linearRaw (Sp.round false (1 / 100)) tw (init N) (xs ω) = .ok (S ω) ∧
        ∀ i, ((S ω).w.elem i).Finite) ∧
      ∀ ε : ℝ, 0 < ε →
        P.real {ω | ∃ i : Fin N, ε + 1 / 2 ^ 53 ≤
            |((S ω).w.elem i).val - (trueWeights[i]'(lt_of_lt_of_le i.2 hN') : ℚ)|} ≤
          (1 / 10) ^ 9 / ε := by
  obtain ⟨S₀, h₀⟩ := C84_bench (P := P) hN hN' hm hX hi hμ hn hn'
  obtain ⟨h1, h2⟩ := h₀ _ rfl
  choose S hS using fun ω => C86_benches (p := 52) (q := 1074) (E := 971) (N := N) (Sp.round false (1 / 100)) tw
    (List.ofFn fun i : Fin n => NArr.ofElems fun k => Sp.round false ((X i ω k : ℕ) / 2 ^ 53)) (init N)
  have htw : tw.map Sp.forget = rounded := by
    rw [ht, List.map_map, rounded]
    exact List.map_congr_left fun x _ => Sp.forget_round false _
  have hin : mapData Sp.forget (init N : Data SDouble N) = init N := by
    have : NArr.map [N] (NArr.full [N] (0 : SDouble)) Sp.forget = NArr.full [N] (0 : Double) :=
      elemExt fun k => (conv_elem _ _ k).trans ((congrArg Sp.forget (full_elem 0 k)).trans (full_elem 0 k).symm)
    simp only [mapData, init, this]
    rfl
  have hxs : ∀ ω, ((List.ofFn fun i : Fin n => NArr.ofElems fun k : Fin N =>
        (Sp.round false ((X i ω k : ℕ) / 2 ^ 53) : SDouble)).map fun x => NArr.map [N] x Sp.forget) =
      List.ofFn fun i : Fin n => NArr.ofElems fun k => (Fp.round ((X i ω k : ℕ) / 2 ^ 53) : Double) := fun ω => by
    rw [List.map_ofFn]
    refine congrArg List.ofFn (funext fun i => elemExt fun k => (conv_elem _ _ k).trans ?_)
    exact (congrArg Sp.forget (ofElems_elem _ k)).trans
      ((Sp.forget_round false _).trans (ofElems_elem (fun k => Fp.round ((X i ω k : ℕ) / 2 ^ 53)) k).symm)
  have hSS : ∀ ω, S₀ ω = mapData Sp.forget (S ω) := fun ω => by
    have h3 := (hS ω).2.2.2
    rw [htw, hin, hxs ω, Sp.forget_round, (h1 ω).1] at h3
    injection h3
  have hw : ∀ ω (i : Fin N), (S₀ ω).w.elem i = ((S ω).w.elem i).forget := fun ω i => by
    rw [hSS ω]
    exact conv_elem _ _ i
  refine ⟨S, ?_⟩
  rintro _ rfl
  refine ⟨fun ω => ⟨(hS ω).1, (hS ω).2.1, (hS ω).2.2.1, fun i => ?_⟩, fun ε hε => ?_⟩
  · have := (h1 ω).2.2.2 i
    rw [hw] at this
    exact this
  · have := h2 ε hε
    simp only [hw] at this
    exact this

/-- The draws of C84 meet the assumptions. -/
example {N : ℕ} (h : N ∈ [2, 5, 10, 20]) {m : ℕ} [NeZero m] (hm : m = 2 ^ 53) :
    ∃ (Ω : Type) (_ : MeasurableSpace Ω) (P : MeasureTheory.Measure Ω) (xs : Ω → List (NArr SDouble [N]))
      (S : Ω → Data SDouble N), MeasureTheory.IsProbabilityMeasure P ∧
      ∀ ω, linearAuto (Sp.round false (1 / 100)) (trueWeights.map fun x : ℚ => Sp.round false (x : ℝ)) (init N)
        (xs ω) = .ok (S ω) ∧ (xs ω).length = 1000000 ∧ ∀ i, ((S ω).w.elem i).Finite := by
  have hN : N ≠ 0 ∧ N ≤ 20 := by
    simp only [List.mem_cons, List.not_mem_nil, or_false] at h
    omega
  obtain ⟨S, hS⟩ := C86_learns (Ω := ℕ → Fin N → Fin m) (n := 1000000)
    (P := MeasureTheory.Measure.infinitePi fun _ : ℕ => MeasureTheory.Measure.pi fun _ : Fin N =>
      (PMF.uniformOfFintype (Fin m)).toMeasure) (X := fun k ω => ω k) hN.1 hN.2 hm
    (fun k => measurable_pi_apply k)
    (ProbabilityTheory.iIndepFun_infinitePi (X := fun _ x => x) fun _ => measurable_id)
    (fun k => MeasureTheory.Measure.infinitePi_map_eval _ k) (by norm_num) (by norm_num) rfl
  obtain ⟨h1, -⟩ := hS _ rfl
  exact ⟨ℕ → Fin N → Fin m, inferInstance, MeasureTheory.Measure.infinitePi fun _ : ℕ =>
    MeasureTheory.Measure.pi fun _ : Fin N => (PMF.uniformOfFintype (Fin m)).toMeasure, _, S, inferInstance,
    fun ω => ⟨(h1 ω).1, List.length_ofFn, (h1 ω).2.2.2⟩⟩

/-- The example program may meet negative zeros: a step from zero weights with a sample of zeros. -/
example (η t : Sp p q E) : ∃ s', linearAuto η [t] (init 1) [NArr.ofElems fun _ => Sp.zero true] = .ok s' ∧
    linearAuto η.forget [t.forget] (mapData Sp.forget (init 1)) [NArr.map [1] (NArr.ofElems fun _ => Sp.zero true) Sp.forget] =
      .ok (mapData Sp.forget s') := by
  obtain ⟨s', h, -, -, h'⟩ := C86_benches η [t] [NArr.ofElems fun _ : Fin 1 => Sp.zero true] (init 1)
  exact ⟨s', h, h'⟩

end Aegir.Benches
