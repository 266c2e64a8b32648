import Verif.Lemmas.Total
import Verif.Spec.Instances
/-!
# C20-C22: errors and success of evaluation

No arithmetic law is used in this file, so everything also applies to floats.
-/

namespace Aegir

open Spec

variable {F : Type} {Γ : Id → BTy}
variable [Zero F] [One F] [Add F] [Sub F] [Mul F] [Div F] [Neg F] [ScalarFns F]

/-! ## C20: errors are attributed to the right operand -/

/-- A failing left operand is reported as `Left`, whatever the right operand is. -/
theorem C20_left {e l r : Node F} {τ a b : BTy} {d : FnImpl Γ e τ} {dl : FnImpl Γ l a}
    {dr : FnImpl Γ r b} (h : Operands d dl dr) (c c' : Ctx F Γ) (g : EvalErr)
    (hl : dl.evaluate c = (.err g, c')) :
    d.evaluate c = (.err (.left g), c') ∧ d.evaluateSpec c = (.err (.left g), c') := by
  have hl' := (dl.evaluate_err_iff c c' g).1 hl
  have hs : d.evaluateSpec c = (.err (.left g), c') := by
    cases h with
    | div =>
      exact (EvalM.map_err_iff _ _ _ _ _).2 ((binM_err_iff _ _ _ _ _ _).2 (.inl ⟨g, hl, rfl⟩))
    | _ => exact (binM_err_iff _ _ _ _ _ _).2 (.inl ⟨g, hl', rfl⟩)
  exact ⟨(d.evaluate_err_iff _ _ _).2 hs, hs⟩

/-- The same for `evaluate_shape` (`Power` has a constant shape and evaluates nothing). -/
theorem C20_left_shape {e l r : Node F} {τ a b : BTy} {d : FnImpl Γ e τ} {dl : FnImpl Γ l a}
    {dr : FnImpl Γ r b} (h : Operands d dl dr) (hp : e ≠ .power l r) (c c' : Ctx F Γ) (g : EvalErr)
    (hl : dl.evaluateShape c = (.err g, c')) : d.evaluateShape c = (.err (.left g), c') := by
  cases h with
  | power => exact absurd rfl hp
  | _ => exact (binM_err_iff _ _ _ _ _ _).2 (.inl ⟨g, hl, rfl⟩)

/-- If only the right operand fails, the error is reported as `Right`. -/
theorem C20_right (hU : ∀ n, (ScalarFns.fromUsize n : Option F) ≠ none) {e l r : Node F}
    {τ a b : BTy} {d : FnImpl Γ e τ} {dl : FnImpl Γ l a} {dr : FnImpl Γ r b} (h : Operands d dl dr)
    (c c1 c' : Ctx F Γ) (x : Buf F a) (g : EvalErr) (hl : dl.evaluate c = (.ok x, c1))
    (hr : dr.evaluate c1 = (.err g, c')) :
    d.evaluate c = (.err (.right g), c') ∧ d.evaluateSpec c = (.err (.right g), c') := by
  obtain ⟨s, hl', _⟩ := dl.spec_of_evaluate hU hl
  have hr' := (dr.evaluate_err_iff _ _ _).1 hr
  have hs : d.evaluateSpec c = (.err (.right g), c') := by
    cases h with
    | div =>
      exact (EvalM.map_err_iff _ _ _ _ _).2
        ((binM_err_iff _ _ _ _ _ _).2 (.inr (.inl ⟨x, c1, g, hl, hr, rfl⟩)))
    | _ => exact (binM_err_iff _ _ _ _ _ _).2 (.inr (.inl ⟨s, c1, g, hl', hr', rfl⟩))
  exact ⟨(d.evaluate_err_iff _ _ _).2 hs, hs⟩

/-- The same for `evaluate_shape`. -/
theorem C20_right_shape {e l r : Node F} {τ a b : BTy} {d : FnImpl Γ e τ} {dl : FnImpl Γ l a}
    {dr : FnImpl Γ r b} (h : Operands d dl dr) (hp : e ≠ .power l r) (c c1 c' : Ctx F Γ)
    (s : Shp a) (g : EvalErr) (hl : dl.evaluateShape c = (.ok s, c1))
    (hr : dr.evaluateShape c1 = (.err g, c')) : d.evaluateShape c = (.err (.right g), c') := by
  cases h with
  | power => exact absurd rfl hp
  | _ => exact (binM_err_iff _ _ _ _ _ _).2 (.inr (.inl ⟨s, c1, g, hl, hr, rfl⟩))

/-- If both operands succeed, the only possible error is `Output` with the two extents in operand
order, and these really are incompatible. -/
theorem C20_output (hU : ∀ n, (ScalarFns.fromUsize n : Option F) ≠ none) {e l r : Node F}
    {τ a b : BTy} {d : FnImpl Γ e τ} {dl : FnImpl Γ l a} {dr : FnImpl Γ r b} (h : Operands d dl dr)
    (c c1 c2 c' : Ctx F Γ) (x : Buf F a) (y : Buf F b) (g : EvalErr)
    (hl : dl.evaluate c = (.ok x, c1)) (hr : dr.evaluate c1 = (.ok y, c2))
    (hd : d.evaluate c = (.err g, c')) :
    g = .output ⟨Buf.dims a x, Buf.dims b y⟩ ∧ c' = c2 ∧
      ∀ ds, ¬ BCast (Buf.dims a x) (Buf.dims b y) ds := by
  obtain ⟨s, hl', hs⟩ := dl.spec_of_evaluate hU hl
  obtain ⟨t, hr', ht⟩ := dr.spec_of_evaluate hU hr
  have hl : dl.fn.evaluate c = (.ok x, c1) := hl
  have hr : dr.fn.evaluate c1 = (.ok y, c2) := hr
  have key : ∀ {γ : Type} (k : BSpec F a → BSpec F b → Res IncShapes γ),
      binM dl.fn.evaluateSpec dr.fn.evaluateSpec k c = (.err g, c') →
      ∃ i, k s t = .err i ∧ g = .output i ∧ c' = c2 := by
    intro γ k hk
    rcases (binM_err_iff _ _ _ _ _ _).1 hk with ⟨g', h1, _⟩ | ⟨x', c3, g', h1, h2, _⟩ |
      ⟨x', c3, y', i, h1, h2, h3, rfl⟩
    · rw [hl'] at h1; cases h1
    · rw [hl'] at h1; cases h1; rw [hr'] at h2; cases h2
    · rw [hl'] at h1; cases h1; rw [hr'] at h2; cases h2
      exact ⟨i, h3, rfl, rfl⟩
  have fin : ∀ {i : IncShapes} {γ : BTy} (z : ZipImpl a b γ), z.broadcast s.shape t.shape = .error i →
      g = .output i → g = .output ⟨Buf.dims a x, Buf.dims b y⟩ ∧
      ∀ ds, ¬ BCast (Buf.dims a x) (Buf.dims b y) ds := by
    intro i γ z hz hg
    obtain ⟨rfl, h2⟩ := broadcast_error z _ _ _ hz
    rw [hs, ht] at h2 hg
    exact ⟨hg, h2⟩
  have hd' := (d.evaluate_err_iff _ _ _).1 hd
  cases h with
  | add _ _ z =>
    obtain ⟨i, h1, h2, h3⟩ := key _ hd'
    exact (fun p => ⟨p.1, h3, p.2⟩) (fin z ((addSpec_follows z s t).err h1) h2)
  | sub _ _ z =>
    obtain ⟨i, h1, h2, h3⟩ := key _ hd'
    exact (fun p => ⟨p.1, h3, p.2⟩) (fin z ((subSpec_follows z s t).err h1) h2)
  | mul _ _ z =>
    obtain ⟨i, h1, h2, h3⟩ := key _ hd'
    exact (fun p => ⟨p.1, h3, p.2⟩) (fin z ((mulSpec_follows z s t).err h1) h2)
  | div _ _ z =>
    rcases (binM_err_iff _ _ _ _ _ _).1 hd with ⟨g', h1, _⟩ | ⟨x', c3, g', h1, h2, _⟩ |
      ⟨x', c3, y', i, h1, h2, h3, rfl⟩
    · rw [hl] at h1; cases h1
    · rw [hl] at h1; cases h1; rw [hr] at h2; cases h2
    · rw [hl] at h1; cases h1; rw [hr] at h2; cases h2
      rw [Res.ofExcept_err_iff, Buf.zipMapId_eq] at h3
      obtain ⟨rfl, h4⟩ := Buf.zipMap_error z _ _ _ _ h3
      exact ⟨rfl, rfl, h4⟩
  | power =>
    obtain ⟨i, h1, _⟩ := key _ hd'
    cases h1
  | contract _ _ z =>
    obtain ⟨i, h1, _⟩ := key _ hd'
    exact absurd h1 (contract_ne_err z s t i)

/-- A missing variable is `Undefined` with its identifier, in all three methods. -/
theorem C20_undefined (i : Id) (c : Ctx F Γ) (h : c i = none) :
    (FnImpl.var i).evaluate c = (.err (.undefined i), c) ∧
    (FnImpl.var i).evaluateSpec c = (.err (.undefined i), c) ∧
    (FnImpl.var i).evaluateShape c = (.err (.undefined i), c) :=
  ⟨(EvalM.read_err_iff _ _ _ _).2 ⟨h, rfl, rfl⟩,
    (EvalM.map_err_iff _ _ _ _ _).2 ((EvalM.read_err_iff _ _ _ _).2 ⟨h, rfl, rfl⟩),
    (EvalM.map_err_iff _ _ _ _ _).2 ((EvalM.read_err_iff _ _ _ _).2 ⟨h, rfl, rfl⟩)⟩

/-- A defined variable evaluates to its entry in all three methods. -/
theorem C20_defined (i : Id) (c : Ctx F Γ) (b : Buf F (Γ i)) (h : c i = some b) :
    (FnImpl.var i).evaluate c = (.ok b, c) ∧
    (∃ s, (FnImpl.var i).evaluateSpec c = (.ok s, c) ∧ s.unwrap = b) ∧
    (FnImpl.var i).evaluateShape c = (.ok (Buf.shape _ b), c) := by
  have hr := (EvalM.read_ok_iff i c c b).2 ⟨h, rfl⟩
  exact ⟨hr, ⟨.raw b, (EvalM.map_ok_iff _ _ _ _ _).2 ⟨b, hr, rfl⟩, rfl⟩,
    (EvalM.map_ok_iff _ _ _ _ _).2 ⟨b, hr, rfl⟩⟩

/-- Unary operators pass the errors of their operand through, in all three methods, and have no
errors of their own. -/
theorem C20_unary {n : Node F} {a : BTy} (op : UnOp) (d : FnImpl Γ n a) (c c' : Ctx F Γ)
    (g : EvalErr) :
    ((FnImpl.un op d).evaluate c = (.err g, c') ↔ d.evaluate c = (.err g, c')) ∧
    ((FnImpl.un op d).evaluateSpec c = (.err g, c') ↔ d.evaluateSpec c = (.err g, c')) ∧
    ((FnImpl.un op d).evaluateShape c = (.err g, c') ↔ d.evaluateShape c = (.err g, c')) :=
  ⟨EvalM.map_err_iff _ _ _ _ _, EvalM.map_err_iff _ _ _ _ _, Iff.rfl⟩

/-- So does `Sum` (its shape is constant). -/
theorem C20_sum {n : Node F} {a : BTy} (d : FnImpl Γ n a) (c c' : Ctx F Γ) (g : EvalErr) :
    ((FnImpl.sum d).evaluate c = (.err g, c') ↔ d.evaluate c = (.err g, c')) ∧
    ((FnImpl.sum d).evaluateSpec c = (.err g, c') ↔ d.evaluateSpec c = (.err g, c')) :=
  ⟨EvalM.map_err_iff _ _ _ _ _,
    ((FnImpl.sum d).evaluate_err_iff _ _ _).symm.trans
      ((EvalM.map_err_iff _ _ _ _ _).trans (d.evaluate_err_iff _ _ _))⟩

/-- Whole trees: the error of any evaluation leads, following its `Left`/`Right` tags from the root,
to a subexpression with a legitimate error of its own: an identifier that is undefined in the
context, or operands with incompatible extents. -/
theorem C20_trace {e : Node F} {τ : BTy} (d : FnImpl Γ e τ) (c c' : Ctx F Γ) (g : EvalErr)
    (h : d.evaluate c = (.err g, c') ∨ d.evaluateSpec c = (.err g, c') ∨
      d.evaluateShape c = (.err g, c')) :
    ∃ s f, ErrorAt e g s f ∧ OwnError c s f := by
  rcases h with h | h | h
  · exact d.errorAt.1 c c' g ((d.evaluate_err_iff _ _ _).1 h)
  · exact d.errorAt.1 c c' g h
  · exact d.errorAt.2 c c' g h

omit [Zero F] [One F] [Add F] [Sub F] [Mul F] [Div F] [Neg F] [ScalarFns F] in
/-- The error found at the end of the trace belongs to a subexpression. -/
theorem C20_trace_subexpr {e s : Node F} {g f : EvalErr} (h : ErrorAt e g s f) : SubExpr s e := by
  induction h with
  | here => exact .refl _
  | left hc _ ih => exact .step (by rw [hc]; simp) ih
  | right hc _ ih => exact .step (by rw [hc]; simp) ih
  | cached _ ih => exact .step (by simp [children]) ih
  | sum _ ih => exact .step (by simp [children]) ih
  | un _ ih => exact .step (by simp [children]) ih
  | constAdj _ ih => exact .step (by simp [children]) ih

/-- Witness types: identifier 0 a scalar, the others vectors of run-time length. -/
def exErrTy : Id → BTy
  | 0 => .scalar
  | _ => .vec

/-- `(x0 * x1) + |x2|`. -/
def exErr : FnImpl (F := ℤ) exErrTy (.add (.mul (.var 0) (.var 1)) (.un .abs (.var 2))) .vec :=
  .add (.mul (.var 0) (.var 1) .sv) (.un .abs (.var 2)) .vv

example : Operands exErr (.mul (.var 0) (.var 1) .sv) (.un .abs (.var 2)) := .add _ _ _
example : (exErr.evaluate (fun | 0 => some (3 : ℤ) | _ + 1 => none)).1 =
    .err (.left (.right (.undefined 1))) := rfl
example : (exErr.evaluate (fun | 0 => some (3 : ℤ) | 1 => some [1, 2] | _ + 2 => none)).1 =
    .err (.right (.undefined 2)) := rfl
example : (FnImpl.div (F := ℤ) (Γ := exErrTy) (.var 1) (.var 2) .vv).evaluate
    (fun | 0 => none | 1 => some [1, 2] | _ + 2 => some [7]) =
      (.err (.output ⟨[2], [1]⟩), fun | 0 => none | 1 => some [1, 2] | _ + 2 => some [7]) := rfl

/-! ## C21: defined inputs evaluate successfully -/

/-- If all needed identifiers are defined and all buffers have fixed size then `evaluate`,
`evaluate_spec` and `evaluate_shape` succeed. Partial: every matrix-vector product must have at
least as many rows as columns (see `C21_violation`). -/
theorem C21_total_partial (hU : ∀ n, (ScalarFns.fromUsize n : Option F) ≠ none) {e : Node F}
    {τ : BTy} (d : FnImpl Γ e τ) (hf : FixedSize Γ e) (hp : FnImpl.ProductsInRange d)
    (c : Ctx F Γ) (hc : ∀ i, NeedsId e i → c i ≠ none) :
    (∃ v c', d.evaluate c = (.ok v, c')) ∧ (∃ s c', d.evaluateSpec c = (.ok s, c')) ∧
      ∃ s c', d.evaluateShape c = (.ok s, c') := by
  have h := d.total hU hf hp (P := NeedsId e) (fun _ hi => hi)
  exact ⟨h.1 c hc, h.2.1 c hc, h.2.2 c hc⟩

/-- The needed identifiers really are needed for a plain sum of variables. -/
example : ¬ ∃ v c', (FnImpl.add (F := ℤ) (Γ := fun _ => .scalar) (.var 0) (.var 1) .ss).evaluate
    (fun i => if i = 0 then some (3 : ℤ) else none) = (.ok v, c') := by
  rintro ⟨v, c', h⟩
  have := congrArg Prod.fst h
  cases this

/-- Types of the C21 example: a 2-vector and a 2x2 matrix. -/
def exTotTy : Id → BTy
  | 0 => .array [2]
  | _ => .array [2, 2]

/-- `M · x - x`. -/
def exTot : FnImpl (F := ℤ) exTotTy (.sub (.contract 1 (.var 1) (.var 0)) (.var 0)) (.array [2]) :=
  .sub (.contract (.var 1) (.var 0) (.mv 2 2)) (.var 0) (.aa [2])

/-- A context for `exTot`. -/
def exTotCtx : Ctx ℤ exTotTy
  | 0 => some (Buf.full (.array [2]) () (3 : ℤ))
  | _ + 1 => some (Buf.full (.array [2, 2]) () (1 : ℤ))

example : ∃ v c', exTot.evaluate exTotCtx = (.ok v, c') := by
  refine (C21_total_partial (fun n h => by cases h) exTot ⟨?_, ?_, ?_⟩ ⟨⟨trivial, trivial, ?_, ?_⟩, trivial⟩ _ ?_).1
  · intro i _
    match i with
    | 0 => exact fun h => by cases h
    | _ + 1 => exact fun h => by cases h
  · intro τ b h
    rcases h with _ | ⟨h1, h2⟩
    simp only [children, List.mem_cons, List.not_mem_nil, or_false] at h1
    rcases h1 with rfl | rfl
    · rcases h2 with _ | ⟨h1, h2⟩
      simp only [children, List.mem_cons, List.not_mem_nil, or_false] at h1
      rcases h1 with rfl | rfl <;>
      · rcases h2 with _ | ⟨h1, h2⟩
        simp [children] at h1
    · rcases h2 with _ | ⟨h1, h2⟩
      simp [children] at h1
  · intro τ b h
    rcases h with _ | ⟨h1, h2⟩
    simp only [children, List.mem_cons, List.not_mem_nil, or_false] at h1
    rcases h1 with rfl | rfl
    · rcases h2 with _ | ⟨h1, h2⟩
      simp only [children, List.mem_cons, List.not_mem_nil, or_false] at h1
      rcases h1 with rfl | rfl <;>
      · rcases h2 with _ | ⟨h1, h2⟩
        simp [children] at h1
    · rcases h2 with _ | ⟨h1, h2⟩
      simp [children] at h1
  · rintro n m h - -; cases h; exact le_refl 2
  · intro n m h; cases h
  · intro i _
    match i with
    | 0 => exact fun h => by cases h
    | _ + 1 => exact fun h => by cases h

/-- Types of the C21 counterexample. -/
def exMvTy : Id → BTy
  | 0 => .array [1, 2]
  | _ => .array [1]

/-- Context of the C21 counterexample. -/
def exMvCtx : Ctx ℤ exMvTy
  | 0 => some (Buf.full (.array [1, 2]) () (1 : ℤ))
  | _ + 1 => some (Buf.full (.array [1]) () (1 : ℤ))

/-- The code violates C21: a 1x2 matrix times a 1-vector type-checks, all inputs are defined and of
fixed size, and evaluation panics. -/
theorem C21_violation :
    ∃ (Γ : Id → BTy) (e : Node ℤ) (d : FnImpl Γ e (.array [2])) (c : Ctx ℤ Γ),
      (∀ i, Γ i ≠ .vec) ∧ (∀ i, c i ≠ none) ∧ (d.evaluate c).1 = .panic := by
  refine ⟨exMvTy, _, .contract (.var 0) (.var 1) (.mv 1 2), exMvCtx, ?_, ?_, ?_⟩
  · intro i
    match i with
    | 0 => exact fun h => by cases h
    | _ + 1 => exact fun h => by cases h
  · intro i
    match i with
    | 0 => exact fun h => by cases h
    | _ + 1 => exact fun h => by cases h
  · rfl

/-! ## C22: shape mismatches of run-time sized buffers -/

/-- `evaluate_shape` reports operands of different lengths, for all four operators. -/
theorem C22_shape {e l r : Node F} {d : FnImpl Γ e .vec} {dl : FnImpl Γ l .vec} {dr : FnImpl Γ r .vec}
    (h : Operands d dl dr) (c c1 c2 : Ctx F Γ) (n m : Nat) (hnm : n ≠ m)
    (hl : dl.evaluateShape c = (.ok (n : Shp .vec), c1))
    (hr : dr.evaluateShape c1 = (.ok (m : Shp .vec), c2)) :
    d.evaluateShape c = (.err (.output ⟨[n], [m]⟩), c2) := by
  have key : ∀ z : ZipImpl .vec .vec .vec,
      Res.ofExcept (z.broadcast (n : Shp .vec) (m : Shp .vec)) = .err ⟨[n], [m]⟩ := by
    intro z
    cases z
    simp [ZipImpl.broadcast, hnm]
  cases h with
  | add _ _ z | sub _ _ z | mul _ _ z | div _ _ z =>
    exact (binM_err_iff _ _ _ _ _ _).2 (.inr (.inr ⟨n, c1, m, _, hl, hr, key z, rfl⟩))
  | contract _ _ z => cases z

/-- `Div` reports operands of different lengths from `evaluate` and `evaluate_spec`. -/
theorem C22_div {l r : Node F} (dl : FnImpl Γ l .vec) (dr : FnImpl Γ r .vec)
    (c c1 c2 : Ctx F Γ) (x y : List F) (hxy : x.length ≠ y.length)
    (hl : dl.evaluate c = (.ok (x : Buf F .vec), c1))
    (hr : dr.evaluate c1 = (.ok (y : Buf F .vec), c2)) :
    (FnImpl.div dl dr .vv).evaluate c = (.err (.output ⟨[x.length], [y.length]⟩), c2) ∧
    (FnImpl.div dl dr .vv).evaluateSpec c = (.err (.output ⟨[x.length], [y.length]⟩), c2) := by
  have key : Res.ofExcept (Buf.zipMapId .vv (x : Buf F .vec) (y : Buf F .vec) (· / ·)) =
      .err ⟨[x.length], [y.length]⟩ := by
    rw [Buf.zipMapId_eq]
    simp [Buf.zipMap, hxy]
  have h : (FnImpl.div dl dr .vv).evaluate c = (.err (.output ⟨[x.length], [y.length]⟩), c2) :=
    (binM_err_iff _ _ _ _ _ _).2 (.inr (.inr ⟨x, c1, y, _, hl, hr, key, rfl⟩))
  exact ⟨h, ((FnImpl.div dl dr .vv).evaluate_err_iff _ _ _).1 h⟩

omit [One F] [Div F] [Neg F] in
/-- What `Add`, `Sub` and `Mul` do with operands of different lengths: they report the mismatch only
on the compressed arms, and panic otherwise. -/
theorem C22_mismatch_partial (x y : BSpec F .vec) (n m : Nat) (hx : x.shape = (n : Shp .vec))
    (hy : y.shape = (m : Shp .vec)) (hnm : n ≠ m) :
    (addSpec .vv x y = .err ⟨[n], [m]⟩ ∨ addSpec .vv x y = .panic) ∧
    (subSpec .vv x y = .err ⟨[n], [m]⟩ ∨ subSpec .vv x y = .panic) ∧
    (mulSpec .vv x y = .err ⟨[n], [m]⟩ ∨ mulSpec .vv x y = .panic) ∧
    (∀ u v : F, x = .full n u → y = .full m v → addSpec .vv x y = .err ⟨[n], [m]⟩ ∧
      subSpec .vv x y = .err ⟨[n], [m]⟩ ∧ mulSpec .vv x y = .err ⟨[n], [m]⟩) ∧
    (∀ b : Buf F .vec, ∀ v : F, ScalarFns.isZero v = true → x = .raw b → y = .full m v →
      addSpec .vv x y = .err ⟨[n], [m]⟩ ∧ subSpec .vv x y = .err ⟨[n], [m]⟩ ∧
      mulSpec .vv x y = .err ⟨[n], [m]⟩) ∧
    (∀ b b' : Buf F .vec, x = .raw b → y = .raw b' → addSpec .vv x y = .panic ∧
      subSpec .vv x y = .panic ∧ mulSpec .vv x y = .panic) := by
  have hb : ZipImpl.vv.broadcast x.shape y.shape = .error ⟨[n], [m]⟩ := by
    rw [hx, hy]; simp [ZipImpl.broadcast, hnm]
  have key : ∀ r : Res IncShapes (BSpec F .vec), FollowsShape r (ZipImpl.vv.broadcast x.shape y.shape) →
      r = .err ⟨[n], [m]⟩ ∨ r = .panic := by
    intro r h
    rw [hb] at h
    cases r with
    | ok s => cases h.ok rfl
    | err e => cases h.err rfl; exact .inl rfl
    | panic => exact .inr rfl
  have gen : ∀ (f : F → F → F) (b b' : Buf F .vec), x = .raw b → y = .raw b' →
      zipGeneral .vv f x y = .panic := by
    intro f b b' h1 h2
    subst h1 h2
    have hn : List.length b = n := hx
    have hm : List.length b' = m := hy
    rw [zipGeneral, Buf.zipMapId_eq]
    simp [BSpec.unwrap, Buf.zipMap, hn, hm, hnm]
  refine ⟨key _ (addSpec_follows _ _ _), key _ (subSpec_follows _ _ _),
    key _ (mulSpec_follows _ _ _), ?_, ?_, ?_⟩
  · intro u v h1 h2
    subst h1 h2
    simp only [BSpec.shape] at hb
    simp [addSpec, subSpec, mulSpec, hb, Except.map]
  · intro b v hv h1 h2
    subst h1 h2
    have hn : List.length b = n := hx
    simp only [BSpec.shape] at hb
    simp [addSpec, subSpec, mulSpec, BSpec.shape, hb, hv, Except.map, Buf.zipShape, hn, hnm]
  · intro b b' h1 h2
    have := gen (· + ·) b b' h1 h2
    have h' := gen (· - ·) b b' h1 h2
    have h'' := gen (· * ·) b b' h1 h2
    subst h1 h2
    exact ⟨this, h', h''⟩

example : addSpec (F := ℤ) .vv (.raw [1, 2]) (.full (3 : Nat) 0) = .err ⟨[2], [3]⟩ :=
  ((C22_mismatch_partial (F := ℤ) (.raw [1, 2]) (.full (3 : Nat) 0) 2 3 rfl rfl (by decide)).2.2.2.2.1
    _ 0 rfl rfl rfl).1

/-- The code violates C22: adding, subtracting or multiplying two `Vec` variables of different
lengths panics in `evaluate` and `evaluate_spec`, while `evaluate_shape` reports the mismatch. -/
theorem C22_violation (x y : List F) (h : x.length ≠ y.length) :
    ∃ c : Ctx F (fun _ => .vec),
      ∀ d ∈ [(⟨_, FnImpl.add (.var 0) (.var 1) .vv⟩ : Σ e, FnImpl (F := F) (fun _ => .vec) e .vec),
        ⟨_, .sub (.var 0) (.var 1) .vv⟩, ⟨_, .mul (.var 0) (.var 1) .vv⟩],
        (d.2.evaluate c).1 = .panic ∧ (d.2.evaluateSpec c).1 = .panic ∧
        (d.2.evaluateShape c).1 = .err (.output ⟨[x.length], [y.length]⟩) := by
  refine ⟨fun i => if i = 0 then some x else some y, fun d hd => ?_⟩
  have hz : ∀ f : F → F → F, zipGeneral .vv f (.raw x : BSpec F .vec) (.raw y) = .panic := by
    intro f
    rw [zipGeneral, Buf.zipMapId_eq]
    simp [BSpec.unwrap, Buf.zipMap, h]
  have sh : Res.ofExcept (ZipImpl.vv.broadcast (x.length : Shp .vec) (y.length : Shp .vec)) =
      .err ⟨[x.length], [y.length]⟩ := by simp [ZipImpl.broadcast, h]
  have go : ∀ (k : BSpec F .vec → BSpec F .vec → Res IncShapes (BSpec F .vec)),
      k (.raw x) (.raw y) = .panic → (binM (FnImpl.var (F := F) (Γ := fun _ => .vec) 0).fn.evaluateSpec
        (FnImpl.var 1).fn.evaluateSpec k (fun i => if i = 0 then some x else some y)).1 = .panic := by
    intro k hk
    show (k (.raw x) (.raw y)).mapErr _ = _
    rw [hk]; rfl
  simp only [List.mem_cons, List.not_mem_nil, or_false] at hd
  rcases hd with rfl | rfl | rfl
  · refine ⟨?_, go _ (hz _), ?_⟩
    · exact congrArg (Res.map _) (go (addSpec .vv) (hz _))
    · exact congrArg (Res.mapErr _) sh
  · refine ⟨?_, go _ (hz _), ?_⟩
    · exact congrArg (Res.map _) (go (subSpec .vv) (hz _))
    · exact congrArg (Res.mapErr _) sh
  · refine ⟨?_, go _ (hz _), ?_⟩
    · exact congrArg (Res.map _) (go (mulSpec .vv) (hz _))
    · exact congrArg (Res.mapErr _) sh

example : ([1, 2] : List ℤ).length ≠ ([3] : List ℤ).length := by decide

end Aegir
