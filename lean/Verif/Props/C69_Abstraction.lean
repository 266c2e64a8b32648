import Verif.Lemmas.AbstractionExpr
import Verif.Lemmas.Machine
import Verif.Lemmas.Convert
import Verif.Lemmas.Image
import Verif.Props.C61_Rounding
import Verif.Props.C19_Tensor
import Mathlib.Analysis.Calculus.MeanValue
/-!
# C69: evaluation respects what the scalars stand for
-/

namespace Aegir.Props

open Spec

section
variable {F G : Type} [Zero F] [One F] [Add F] [Sub F] [Mul F] [Div F] [Neg F] [ScalarFns F]
  [CommRing G] [Div G] [ScalarFns G]
variable {Γ : Id → BTy} {R : F → G → Prop} {τ : BTy}

/-- If the arithmetic of the scalars respects what they stand for, then so does evaluation: values
stand for the value of the expression over numbers, in all three forms of evaluation, and so does
everything evaluation leaves in the context. -/
theorem C69_value (hR : Sound R) {e : Node F} {e' : Node G} (ha : Abstracts R e e')
    (d : FnImpl Γ e τ) (hr : FnImpl.Regular d) {ρ : Id → Tensor G} (hn : NamesCaches ρ e')
    {c : Ctx F Γ} (hc : CtxStandsFor R ρ c) :
    (∀ v, (d.evaluate c).1 = .ok v → StandsFor R v (den ρ e')) ∧
    (∀ s, (d.evaluateSpec c).1 = .ok s → StandsFor R s.unwrap (den ρ e')) ∧
    (∀ s, (d.evaluateShape c).1 = .ok s → Shp.dims τ s = (den ρ e').dims) ∧
    CtxStandsFor R ρ (d.evaluate c).2 ∧ CtxStandsFor R ρ (d.evaluateSpec c).2 ∧
    CtxStandsFor R ρ (d.evaluateShape c).2 := by
  obtain ⟨h1, h2, h3⟩ := d.abstract_spec hR ha hn hr
  exact ⟨(h1 c hc).2, (h2 c hc).2, (h3 c hc).2, (h1 c hc).1, (h2 c hc).1, (h3 c hc).1⟩

/-- Differentiation respects it too. -/
theorem C69_adjoint (hR : Sound R) (hneg : ∀ {x a}, R x a → R (-x) (-a)) {e f : Node F} {e' : Node G}
    {t : Id} (he : RingExpr e) (ha : Abstracts R e e') (h : e.adjoint t = some f) :
    ∃ f', e'.adjoint t = some f' ∧ Abstracts R f f' := ha.adjoint hR hneg he h

end

section
variable {F G : Type} [Zero F] [One F] [Add F] [Sub F] [Mul F] [Div F] [Neg F] [ScalarFns F]
  [CommRing G] [Div G] [ScalarFns G] {R : F → G → Prop}

/-- Expressions in the ring operations stand for themselves if scalars for numbers are chosen. -/
theorem C69_ring (hR : Sound R) (hneg : ∀ {x a}, R x a → R (-x) (-a))
    (hsq : ∀ {x a}, R x a → R (ScalarFns.pow x (1 + 1)) (ScalarFns.pow a (1 + 1)))
    {f : G → F} (h0 : f 0 = 0) (hf : ∀ a, R (f a) a) {e : Node G} (he : RingExpr e) :
    Abstracts R (conv f e) e := by
  have hb : ∀ {τ : BTy} {b : Buf G τ} {T : Tensor G}, IsTensor b T → StandsFor R (Buf.map τ b f) T :=
    fun {τ b T} h => ⟨(Buf.dims_map τ b f).trans h.1, fun ix hix =>
      ⟨f (T.val ix), by rw [Buf.getU_map, h.2 ix hix]; rfl, hf _⟩⟩
  induction e with
  | var i => exact .var i
  | varAdj i t => exact .varAdj i t
  | const τ b => exact .const (hb (isTensor_ofBuf b))
  | constSpec τ s =>
    refine .constSpec ?_
    rw [unwrap_conv h0]
    exact hb (isTensor_ofSpec s)
  | constAdj n t ih => exact .constAdj t (ih he)
  | cached => exact he.elim
  | div => exact he.elim
  | power => exact he.elim
  | add l r ihl ihr => exact .add (ihl he.1) (ihr he.2)
  | sub l r ihl ihr => exact .sub (ihl he.1) (ihr he.2)
  | mul l r ihl ihr => exact .mul (ihl he.1) (ihr he.2)
  | contract k l r ihl ihr => exact .contract k (ihl he.1) (ihr he.2)
  | sum n ih => exact .sum (ih he)
  | un op n ih =>
    refine .un ?_ (ih he.2)
    have := he.1
    simp only [List.mem_cons, List.not_mem_nil, or_false] at this
    rcases this with rfl | rfl | rfl | rfl | rfl | rfl | rfl
    · exact fun {_ _} hx => hR.sub hx hR.one
    · exact fun {_ _} hx => hR.sub hR.one hx
    · exact fun {_ _} hx => hR.add hx hR.one
    · exact fun {_ _} hx => hsq hx
    · exact fun {_ _} hx => hR.mul (hR.add hR.one hR.one) hx
    · exact fun {_ _} hx => hneg hx
    · exact fun {_ _} hx => hR.mul hx (hR.sub hR.one hx)

end

section
variable {F : Type} [Zero F] [One F] [Add F] [Sub F] [Mul F] [Div F] [Neg F] [ScalarFns F]
variable {Γ : Id → BTy} {R : F → ℝ → Prop} {τ σ : BTy}

/-- Entries of an evaluated adjoint stand for the partial derivatives of the real function. -/
theorem C69_derivative (hR : Sound R) (hneg : ∀ {x a}, R x a → R (-x) (-a)) {e f : Node F}
    {e' : Node ℝ} {t : Id} (he : RingExpr e) (ha : Abstracts R e e') (hf : e.adjoint t = some f)
    (d : FnImpl Γ e τ) (df : FnImpl Γ f σ) (hr : FnImpl.Regular d) (hrf : FnImpl.Regular df)
    {ρ : Id → Tensor ℝ} {c : Ctx F Γ} (hc : CtxStandsFor R ρ c) {v : Buf F τ} {g : Buf F σ}
    (h : (d.evaluate c).1 = .ok v) (h' : (df.evaluate c).1 = .ok g) (hs : Smooth ρ t e')
    {ix K : Idx} (hix : InBounds (Buf.dims τ v) ix) (hK : InBounds (ρ t).dims K) :
    ∃ x D, Buf.getU σ g (ix ++ K) = some x ∧ R x D ∧
      HasDerivAt (fun s => (den (perturb ρ t K s) e').val ix) D ((ρ t).val K) := by
  have hring : ∀ {e : Node F} {e' : Node ℝ}, RingExpr e → Abstracts R e e' → RingExpr e' := by
    intro e e' he ha
    induction ha with
    | var | varAdj | const | constSpec => trivial
    | constAdj _ _ ih | sum _ ih => exact ih he
    | cached | div | power => exact he.elim
    | add _ _ ihl ihr | sub _ _ ihl ihr | mul _ _ ihl ihr | contract _ _ _ ihl ihr =>
      exact ⟨ihl he.1, ihr he.2⟩
    | un _ _ ih => exact ⟨he.1, ih he.2⟩
  obtain ⟨f', hf', haf⟩ := ha.adjoint hR hneg he hf
  have c1 := (ringExpr_not (hring he ha)).1
  have c2 := (ringExpr_not (hring (he.adjoint hf) haf)).1
  have v1 := (C69_value hR ha d hr (ρ := ρ) (fun n i hs => absurd hs (c1 n i)) hc).1 v h
  have v2 := (C69_value hR haf df hrf (ρ := ρ) (fun n i hs => absurd hs (c2 n i)) hc).1 g h'
  have k1 := ((d.abstract_compat hR ha c1 hr).1 c hc).2 v h
  have k2 := ((df.abstract_compat hR haf c2 hrf).1 c hc).2 g h'
  obtain ⟨hd, hD⟩ := den_deriv hf' k1 k2 hs hK
  have hix' : InBounds (den ρ e').dims ix := v1.1 ▸ hix
  obtain ⟨x, hx, hxR⟩ := v2.2 (ix ++ K) (by rw [hd]; exact List.rel_append hix' hK)
  exact ⟨x, _, hx, hxR, hD ix hix'⟩

end

/-! ### Runs over scalars and over numbers -/

section
variable {F G : Type} [Zero F] [One F] [Add F] [Sub F] [Mul F] [Div F] [Neg F] [ScalarFns F]
  [CommRing G] [Div G] [ScalarFns G] [LawfulScalar G] [LawfulPow G]
variable {Γ : Id → BTy} {R : F → G → Prop} {τ : BTy}

/-- The same program run over scalars and over numbers: each scalar that comes out stands for the
number that comes out. -/
theorem C69_runs (hR : Sound R) {e : Node F} {e' : Node G} (ha : Abstracts R e e')
    (d : FnImpl Γ e τ) (d' : FnImpl Γ e' τ) (hr : FnImpl.Regular d) (hr' : FnImpl.Regular d')
    {c : Ctx F Γ} {C : Ctx G Γ} (hf : CacheFree e') (hp : PowSafe (envOf C) e')
    (hc : CtxStandsFor R (envOf C) c) {v : Buf F τ} {w : Buf G τ}
    (h : (d.evaluate c).1 = .ok v) (h' : (d'.evaluate C).1 = .ok w) :
    Buf.dims τ v = Buf.dims τ w ∧ ∀ ix, InBounds (Buf.dims τ w) ix →
      ∃ x a, Buf.getU τ v ix = some x ∧ Buf.getU τ w ix = some a ∧ R x a := by
  have h1 := (C69_value hR ha d hr (fun n i hs => absurd hs (hf n i)) hc).1 v h
  have h2 := C19_value_cache_free_partial d' hf C hp hr' w h'
  refine ⟨h1.1.trans h2.1.symm, fun ix hix => ?_⟩
  rw [h2.1] at hix
  obtain ⟨x, hx, hxR⟩ := h1.2 ix hix
  exact ⟨x, _, hx, h2.2 ix hix, hxR⟩

end

/-! ### Machine integers -/

section
variable {Γ : Id → BTy} {τ σ : BTy} {lo hi : ℤ}

theorem ctxStandsFor_conv {F G : Type} [Zero F] [CommRing G] {R : F → G → Prop} {f : G → F}
    (hf : ∀ a, R (f a) a) (C : Ctx G Γ) : CtxStandsFor R (envOf C) (convCtx f C) := by
  intro i b hb
  unfold convCtx at hb
  obtain ⟨b', hb', rfl⟩ := Option.map_eq_some_iff.1 hb
  have he : envOf C i = .ofBuf b' := by simp only [envOf, hb']
  rw [he]
  have h := isTensor_ofBuf b'
  exact ⟨(Buf.dims_map _ b' f).trans h.1, fun ix hix =>
    ⟨f _, by rw [Buf.getU_map, h.2 ix hix]; rfl, hf _⟩⟩

/-- Integers of any width, with overflow checks: every number that comes out is exact. -/
theorem C69_checked {e : Node ℤ} (he : RingExpr e) (d : FnImpl Γ (conv Checked.of e) τ)
    (hr : FnImpl.Regular d) (C : Ctx ℤ Γ) {v : Buf (Checked lo hi) τ}
    (h : (d.evaluate (convCtx Checked.of C)).1 = .ok v) :
    Buf.dims τ v = (den (envOf C) e).dims ∧ ∀ ix x n, InBounds (Buf.dims τ v) ix →
      Buf.getU τ v ix = some x → x.val = some n → n = (den (envOf C) e).val ix := by
  have ha : Abstracts (Checked.Is : Checked lo hi → ℤ → Prop) (conv Checked.of e) e :=
    C69_ring Checked.sound Checked.neg Checked.square_int rfl
      (fun a n hn => by cases hn; rfl) he
  have hv := (C69_value Checked.sound ha d hr (ρ := envOf C)
    (fun n i hs => absurd hs ((ringExpr_not he).1 n i))
    (ctxStandsFor_conv (fun a n hn => by cases hn; rfl) C)).1 v h
  refine ⟨hv.1, fun ix x n hix hx hn => ?_⟩
  obtain ⟨y, hy, hyR⟩ := hv.2 ix (hv.1 ▸ hix)
  rw [hx] at hy
  cases hy
  exact (hyR n hn).symm

/-- They are also exact derivatives: of the real function, although the program computes with machine
integers. -/
theorem C69_checked_derivative {e f : Node (Checked lo hi)} {e' : Node ℝ} {t : Id} (he : RingExpr e)
    (ha : Abstracts Checked.Is e e') (hf : e.adjoint t = some f)
    (d : FnImpl Γ e τ) (df : FnImpl Γ f σ) (hr : FnImpl.Regular d) (hrf : FnImpl.Regular df)
    {ρ : Id → Tensor ℝ} {c : Ctx (Checked lo hi) Γ} (hc : CtxStandsFor Checked.Is ρ c)
    {v : Buf (Checked lo hi) τ} {g : Buf (Checked lo hi) σ}
    (h : (d.evaluate c).1 = .ok v) (h' : (df.evaluate c).1 = .ok g) (hs : Smooth ρ t e')
    {ix K : Idx} (hix : InBounds (Buf.dims τ v) ix) (hK : InBounds (ρ t).dims K)
    {x : Checked lo hi} {n : ℤ} (hx : Buf.getU σ g (ix ++ K) = some x) (hn : x.val = some n) :
    HasDerivAt (fun s => (den (perturb ρ t K s) e').val ix) (n : ℝ) ((ρ t).val K) := by
  obtain ⟨y, D, hy, hyR, hD⟩ := C69_derivative Checked.sound Checked.neg he ha hf d df hr hrf hc h h'
    hs hix hK
  rw [hx] at hy
  cases hy
  rwa [hyR n hn] at hD

/-- A result that fits is not enough: `(x + y) - y` panics for `i8` values `x = y = 100`, although the
result `100` fits. -/
theorem C69_checked_caveat :
    let e : Node ℤ := .sub (.add (.var 0) (.var 1)) (.var 1)
    let C : Ctx ℤ c61Ty := fun _ => some (100 : ℤ)
    RingExpr e ∧ ∃ (d : FnImpl c61Ty (conv Checked.of e) .scalar) (x : Checked (-128) 127),
      (d.evaluate (convCtx Checked.of C)).1 = .ok x ∧ x.val = none ∧
        (den (envOf C) e).val [] = 100 := by
  refine ⟨⟨⟨trivial, trivial⟩, trivial⟩,
    .sub (.add (.var (Γ := c61Ty) 0) (.var (Γ := c61Ty) 1) .ss) (.var (Γ := c61Ty) 1) .ss, ⟨none⟩,
    rfl, rfl, rfl⟩

end

/-! ### NaN -/

/-- Numbers that come out although some of the data is NaN are right whatever numbers stand in place of
the NaNs. -/
theorem C69_nan {Γ : Id → BTy} {τ : BTy} {e : Node NanInt} {e' : Node ℤ}
    (ha : Abstracts NanInt.Is e e') (d : FnImpl Γ e τ) (hr : FnImpl.Regular d) {ρ : Id → Tensor ℤ}
    (hn : NamesCaches ρ e') {c : Ctx NanInt Γ} (hc : CtxStandsFor NanInt.Is ρ c) {v : Buf NanInt τ}
    (h : (d.evaluate c).1 = .ok v) {ix : Idx} {x : NanInt} {n : ℤ}
    (hix : InBounds (Buf.dims τ v) ix) (hx : Buf.getU τ v ix = some x) (hxn : x.val = some n) :
    n = (den ρ e').val ix := by
  have hv := (C69_value NanInt.sound ha d hr hn hc).1 v h
  obtain ⟨y, hy, hyR⟩ := hv.2 ix (hv.1 ▸ hix)
  rw [hx] at hy
  cases hy
  exact (hyR n hxn).symm

/-! ### Intervals -/

section
variable {Γ : Id → BTy} {τ σ : BTy}

/-- Interval evaluation encloses the values at all points of the box. -/
theorem C69_interval {e : Node Interval} {e' : Node ℝ} (ha : Abstracts Interval.Has e e')
    (d : FnImpl Γ e τ) (hr : FnImpl.Regular d) (hf : CacheFree e') {c : Ctx Interval Γ}
    {V : Buf Interval τ} (h : (d.evaluate c).1 = .ok V) {ρ : Id → Tensor ℝ}
    (hc : CtxStandsFor Interval.Has ρ c) {ix : Idx} (hix : InBounds (Buf.dims τ V) ix) :
    ∃ I, Buf.getU τ V ix = some I ∧ I.lo ≤ (den ρ e').val ix ∧ (den ρ e').val ix ≤ I.hi := by
  have hv := (C69_value Interval.sound ha d hr (fun n i hs => absurd hs (hf n i)) hc).1 V h
  obtain ⟨I, hI, hIR⟩ := hv.2 ix (hv.1 ▸ hix)
  exact ⟨I, hI, hIR.1, hIR.2⟩

/-- The adjoint evaluated on intervals bounds the slope: moving one entry of a variable within its
interval changes the value by at most the bound times the distance. -/
theorem C69_slope {e f : Node Interval} {e' : Node ℝ} {t : Id} (he : RingExpr e)
    (ha : Abstracts Interval.Has e e') (hf : e.adjoint t = some f)
    (d : FnImpl Γ e τ) (df : FnImpl Γ f σ) (hr : FnImpl.Regular d) (hrf : FnImpl.Regular df)
    {ρ : Id → Tensor ℝ} {c : Ctx Interval Γ} (hc : CtxStandsFor Interval.Has ρ c)
    {b : Buf Interval (Γ t)} (hb : c t = some b) {V : Buf Interval τ} {g : Buf Interval σ}
    (h : (d.evaluate c).1 = .ok V) (h' : (df.evaluate c).1 = .ok g)
    {ix K : Idx} (hix : InBounds (Buf.dims τ V) ix)
    {B I : Interval} (hB : Buf.getU _ b K = some B) (hI : Buf.getU σ g (ix ++ K) = some I)
    (hs : ∀ s, B.Has s → Smooth (perturb ρ t K s) t e')
    {L : ℝ} (hlo : -L ≤ I.lo) (hhi : I.hi ≤ L) {x y : ℝ} (hx : B.Has x) (hy : B.Has y) :
    |(den (perturb ρ t K y) e').val ix - (den (perturb ρ t K x) e').val ix| ≤ L * |y - x| := by
  have hK : InBounds (ρ t).dims K := by
    rw [← (hc t b hb).1]
    exact (Buf.getU_isSome_iff _ b K).1 (by rw [hB]; rfl)
  have hpp : ∀ s s', perturb (perturb ρ t K s) t K s' = perturb ρ t K s' := by
    intro s s'
    funext i
    unfold perturb
    by_cases hi : i = t
    · simp only [hi, if_true]
      congr 1
      funext jx
      by_cases hj : jx = K <;> simp [hj]
    · simp [hi]
  have hcs : ∀ s, B.Has s → CtxStandsFor Interval.Has (perturb ρ t K s) c := by
    intro s hs' i b' hb'
    by_cases hi : i = t
    · subst hi
      have hbb : b' = b := Option.some.inj (hb'.symm.trans hb)
      subst hbb
      obtain ⟨h1, h2⟩ := hc i b' hb
      simp only [perturb, if_true]
      refine ⟨h1, fun jx hjx => ?_⟩
      by_cases hj : jx = K
      · subst hj
        exact ⟨B, hB, by simpa using hs'⟩
      · obtain ⟨w, hw, hwR⟩ := h2 jx hjx
        exact ⟨w, hw, by simpa [hj] using hwR⟩
    · have := hc i b' hb'
      simpa only [perturb, if_neg hi] using this
  have hD : ∀ s, B.Has s → ∃ D, |D| ≤ L ∧
      HasDerivAt (fun s => (den (perturb ρ t K s) e').val ix) D s := by
    intro s hs'
    obtain ⟨w, D, hw, hwR, hD⟩ := C69_derivative Interval.sound Interval.neg he ha hf d df hr hrf
      (hcs s hs') h h' (hs s hs') hix (K := K) (by rw [perturb_dims]; exact hK)
    rw [hI] at hw
    cases hw
    refine ⟨D, abs_le.2 ⟨hlo.trans hwR.1, hwR.2.trans hhi⟩, ?_⟩
    have e1 : (perturb ρ t K s t).val K = s := by simp [perturb]
    simp only [hpp, e1] at hD
    exact hD
  choose! D hD1 hD2 using hD
  have := Convex.norm_image_sub_le_of_norm_hasDerivWithin_le (s := Set.Icc B.lo B.hi)
    (fun s hs => (hD2 s hs).hasDerivWithinAt) (fun s hs => hD1 s hs) (convex_Icc _ _) hx hy
  simpa [Real.norm_eq_abs] using this

end
/-! ### Concrete cases -/

/-- `x² + x` in `i8`: exact whenever it does not panic, which it does not for `x = 10`. -/
example : ((c61PD (Checked (-128) 127)).evaluate (fun _ => some (Checked.of 10))).1 =
    .ok (Checked.of 110) ∧ ∀ (x n : ℤ) (w : Checked (-128) 127),
      ((c61PD (Checked (-128) 127)).evaluate (fun _ => some (Checked.of x))).1 = .ok w →
      w.val = some n → n = x * x + x := by
  refine ⟨rfl, fun x n w hw hn => ?_⟩
  exact (C69_checked (lo := -128) (hi := 127) (e := c61P ℤ) ⟨⟨trivial, trivial⟩, trivial⟩
    (c61PD (Checked (-128) 127)) ⟨⟨trivial, trivial⟩, trivial⟩ (fun _ => some x) hw).2 [] w n .nil rfl hn

/-- The same program in `i8` and in integers. -/
example (x n : ℤ) (w : Checked (-128) 127)
    (hw : ((c61PD (Checked (-128) 127)).evaluate (fun _ => some (Checked.of x))).1 = .ok w)
    (hn : w.val = some n) : ((c61PD ℤ).evaluate (fun _ => some x)).1 = .ok n := by
  obtain ⟨-, h⟩ := C69_runs (Checked.sound (lo := -128) (hi := 127)) (e := c61P _) (e' := c61P ℤ)
    (.add (.mul (.var 0) (.var 0)) (.var 0)) (c61PD (Checked (-128) 127)) (c61PD ℤ)
    ⟨⟨trivial, trivial⟩, trivial⟩ ⟨⟨trivial, trivial⟩, trivial⟩ (c := fun _ => some (Checked.of x))
    (C := fun _ => some x) (by simp [CacheFree, c61P]) (by simp [PowSafe, c61P])
    (fun i b hb => by
      cases hb
      exact standsFor_scalar rfl fun m hm => by cases hm; rfl)
    hw (w := (x * x + x : ℤ)) rfl
  obtain ⟨y, a, hy, ha, hR⟩ := h [] .nil
  cases hy; cases ha
  have := hR n hn
  rw [show n = x * x + x from this.symm]
  rfl

/-- A cached square of an interval, left in the context for later use. -/
example (J : Interval) (a : ℝ) (ha : J.Has a) :
    let d : FnImpl c61Ty (.cached (.mul (.var 0) (.var 0)) 1 : Node Interval) .scalar :=
      .cached (Γ := c61Ty) 1 (.mul (.var (Γ := c61Ty) 0) (.var (Γ := c61Ty) 0) .ss)
    ∃ I : Interval, (d.evaluate (fun i => if i = 0 then some J else none)).2 1 = some I ∧
      I.Has (a * a) := by
  intro d
  have h := (C69_value Interval.sound (.cached 1 (.mul (.var 0) (.var 0))) d ⟨trivial, trivial⟩
    (ρ := fun i => if i = 0 then .const [] a else .const [] (a * a))
    (fun n i hs => by
      simp at hs
      obtain ⟨rfl, rfl⟩ := hs
      exact ⟨rfl, fun ix hix => by cases hix; rfl⟩)
    (c := fun i => if i = 0 then some J else none)
    (fun i b hb => by
      by_cases hi : i = 0
      · subst hi
        cases hb
        exact standsFor_scalar rfl ha
      · simp [hi] at hb)).2.2.2.1 1 (J * J) rfl
  exact ⟨_, rfl, (standsFor_scalar_val h).2⟩

/-- Its derivative `2x + 1` in `i8`, at `x = 10`. -/
example : ((c61PA (Checked (-128) 127)).evaluate (fun _ => some (Checked.of 10))).1 =
    .ok (Checked.of 21) ∧ HasDerivAt (fun s : ℝ => s * s + s) 21 10 := by
  refine ⟨rfl, ?_⟩
  have h := C69_checked_derivative (t := 0) (lo := -128) (hi := 127)
    (e := c61P (Checked (-128) 127)) (e' := c61P ℝ) ⟨⟨trivial, trivial⟩, trivial⟩
    (.add (.mul (.var 0) (.var 0)) (.var 0)) rfl (c61PD (Checked (-128) 127)) (c61PA (Checked (-128) 127))
    ⟨⟨trivial, trivial⟩, trivial⟩ ⟨⟨⟨trivial, trivial⟩, ⟨trivial, trivial⟩⟩, trivial⟩
    (ρ := fun _ => .const [] 10) (c := fun _ => some (Checked.of 10))
    (fun i b hb => by
      cases hb
      exact standsFor_scalar rfl fun n hn => by cases hn; simp [Tensor.const])
    (v := Checked.of 110) (g := Checked.of 21) rfl rfl ⟨⟨trivial, trivial⟩, trivial⟩ (ix := []) (K := [])
    .nil .nil (x := Checked.of 21) (n := 21) rfl rfl
  have e1 : (fun s : ℝ => s * s + s) = fun s =>
      (den (perturb (fun _ => Tensor.const [] 10) 0 [] s) (c61P ℝ)).val [] := by
    funext s
    simp [c61P, den, Tensor.zip, perturb, bIdx, Tensor.const]
  rw [e1]
  simpa [Tensor.const] using h

/-- `0 · x + 1` (with a compressed `0`) is `1` even if `x` is NaN, and rightly so. -/
example : ∃ d : FnImpl c61Ty (.un .addOne (.mul (.constSpec .scalar (.full () 0)) (.var 0)) :
      Node NanInt) .scalar,
    (d.evaluate (fun _ => some NanInt.nan)).1 = .ok (1 : NanInt) ∧
      ∀ a : ℤ, 1 = (den (fun _ => .const [] a)
        (.un .addOne (.mul (.constSpec .scalar (.full () 0)) (.var 0)))).val [] := by
  let d : FnImpl c61Ty (.un .addOne (.mul (.constSpec .scalar (.full () 0)) (.var 0)) :
      Node NanInt) .scalar :=
    .un .addOne (.mul (.constSpec .scalar (.full () 0)) (.var (Γ := c61Ty) 0) .ss)
  refine ⟨d, rfl, fun a => ?_⟩
  exact C69_nan (.un (op := .addOne) (fun {_ _} hx => NanInt.sound.add hx NanInt.sound.one) (.mul
      (.constSpec (standsFor_scalar rfl fun n hn => by cases hn; rfl)) (.var 0)))
    d ⟨trivial, trivial⟩ (ρ := fun _ => .const [] a) (fun n i hs => by simp at hs)
    (c := fun _ => some NanInt.nan)
    (fun i b hb => by cases hb; exact standsFor_scalar rfl fun n hn => by cases hn)
    (v := (1 : NanInt)) rfl (ix := []) (x := 1) .nil rfl rfl

/-- `exp(x) - x` on an interval. -/
example (J : Interval) (a : ℝ) (ha : J.Has a) : ∃ (d : FnImpl c61Ty
      (.sub (.un .exp (.var 0)) (.var 0) : Node Interval) .scalar) (I : Interval),
    (d.evaluate (fun _ => some J)).1 = .ok I ∧ I.lo = Real.exp J.lo - J.hi ∧
      I.lo ≤ Real.exp a - a := by
  let d : FnImpl c61Ty (.sub (.un .exp (.var 0)) (.var 0) : Node Interval) .scalar :=
    .sub (.un .exp (.var (Γ := c61Ty) 0)) (.var (Γ := c61Ty) 0) .ss
  refine ⟨d, ⟨Real.exp J.lo - J.hi, Real.exp J.hi - J.lo⟩, rfl, rfl, ?_⟩
  obtain ⟨I, hI, h1, -⟩ := C69_interval (.sub (.un (fun {_ _} hx => Interval.exp hx) (.var 0)) (.var 0)) d
    ⟨trivial, trivial, fun ⟨_, ds, h, _⟩ => by cases h⟩ (by simp [CacheFree]) (c := fun _ => some J)
    (V := ⟨Real.exp J.lo - J.hi, Real.exp J.hi - J.lo⟩) rfl (ρ := fun _ => .const [] a)
    (fun i b hb => by cases hb; exact standsFor_scalar rfl ha) (ix := []) .nil
  cases hI
  exact h1

/-- On `[0, 1]` the slope of `x² + x` is at most `3`. -/
example (x y : ℝ) (hx : 0 ≤ x ∧ x ≤ 1) (hy : 0 ≤ y ∧ y ≤ 1) :
    |(y * y + y) - (x * x + x)| ≤ 3 * |y - x| := by
  have hB : ((1 : Interval) * (⟨0, 1⟩ : Interval)) = ⟨0, 1⟩ := by
    show Interval.hull (1 * 0) (1 * 1) (1 * 0) (1 * 1) = _
    simp [Interval.hull]
  have h := C69_slope (t := 0) (e := c61P Interval) (e' := c61P ℝ)
    ⟨⟨trivial, trivial⟩, trivial⟩ (.add (.mul (.var 0) (.var 0)) (.var 0)) rfl (c61PD _) (c61PA _)
    ⟨⟨trivial, trivial⟩, trivial⟩ ⟨⟨⟨trivial, trivial⟩, ⟨trivial, trivial⟩⟩, trivial⟩
    (ρ := fun _ => .const [] 0) (c := fun _ => some (⟨0, 1⟩ : Interval))
    (fun i b hb => by
      cases hb
      exact standsFor_scalar rfl ⟨le_refl _, zero_le_one⟩)
    (b := (⟨0, 1⟩ : Interval)) rfl rfl rfl (ix := []) (K := []) .nil (B := ⟨0, 1⟩)
    (I := 1 * ⟨0, 1⟩ + 1 * ⟨0, 1⟩ + 1) rfl rfl (fun s _ => ⟨⟨trivial, trivial⟩, trivial⟩) (L := 3)
    (by rw [hB]; show -3 ≤ ((0 : ℝ) + 0) + 1; norm_num)
    (by rw [hB]; show ((1 : ℝ) + 1) + 1 ≤ 3; norm_num) hx hy
  have e1 : ∀ s : ℝ, (den (perturb (fun _ => Tensor.const [] 0) 0 [] s) (c61P ℝ)).val [] = s * s + s := by
    intro s
    simp [c61P, den, Tensor.zip, perturb, bIdx, Tensor.const]
  rwa [e1, e1] at h

end Aegir.Props
