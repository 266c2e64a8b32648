import Verif.Lemmas.Formal
import Verif.Lemmas.EvalDeriv
import Verif.Props.C28_C32_Derivatives
import Verif.Props.C62_Scalars
/-!
# C71: over any commutative ring, the adjoints of array expressions are formal derivatives
-/

namespace Aegir.Props

open Spec

section
variable {F : Type} [CommRing F] [Div F] [ScalarFns F] [LawfulScalar F] [LawfulPow F]
  [LawfulSquare F] {Γ : Id → BTy} {e e' : Node F} {τ σ : BTy} {t : Id}

omit [LawfulPow F] [LawfulSquare F] in
theorem compat_of_eval' {c : Ctx F Γ} (he : RingExpr e) (d : FnImpl Γ e τ)
    (hr : FnImpl.Regular d) {v : Buf F τ} (hv : (d.evaluate c).1 = .ok v) :
    Compat (envOf c) e := by
  have he' : d.evaluate = d.fn.evaluateSpec.map BSpec.unwrap := d.evaluate_eq
  rw [he'] at hv
  obtain ⟨s, hs, rfl⟩ := (Res.map_ok_iff _ _ _).1 hv
  exact (((d.compat_spec (ringExpr_not he).1 hr).1 c (describes_envOf c)).2 s hs).2

omit [LawfulSquare F] in
theorem den_of_eval' {c : Ctx F Γ} (he : RingExpr e) (d : FnImpl Γ e τ) (hr : FnImpl.Regular d)
    {v : Buf F τ} (hv : (d.evaluate c).1 = .ok v) : IsTensor v (den (envOf c) e) := by
  have h1 := ringExpr_not he
  exact C19_value_cache_free_partial d h1.1 c (fun l r h => absurd h (h1.2 l r)) hr v hv

omit [LawfulPow F] [LawfulSquare F] in
theorem eval_total' (h : e.adjoint t = some e') (he : RingExpr e) (d : FnImpl Γ e τ)
    (da : FnImpl Γ e' σ) (hr : FnImpl.Regular d) (hra : FnImpl.Regular da) (c : Ctx F Γ)
    (hc : ∀ i, NeedsId e i → c i ≠ none) (ht : c t ≠ none) :
    (∃ v, (d.evaluate c).1 = .ok v) ∧ ∃ a, (da.evaluate c).1 = .ok a := by
  have hf := (ringExpr_not he).1
  have hU : ∀ n, (ScalarFns.fromUsize n : Option F) ≠ none := by simp [LawfulScalar.fromUsize_eq]
  obtain ⟨hfs, htv⟩ := fixedSize_of_adjoint h hf d da
  obtain ⟨v, c', hv⟩ := (d.total hU hfs hr.inRange (P := NeedsId e) (fun _ hi => hi)).1 c hc
  obtain ⟨a, c'', ha⟩ := (da.total hU (adjoint_fixedSize h hf hfs htv) hra.inRange
    (P := fun i => NeedsId e i ∨ i = t) (fun _ hi => adjoint_needs h hi)).1 c (by
      rintro i (hi | rfl)
      · exact hc i hi
      · exact ht)
  exact ⟨⟨v, congrArg Prod.fst hv⟩, a, congrArg Prod.fst ha⟩

omit [Div F] [ScalarFns F] [LawfulScalar F] [LawfulPow F] [LawfulSquare F] in
theorem isTensor_val {τ : BTy} {b : Buf F τ} {T : Tensor F} (h : IsTensor b T) {ix : Idx}
    (hix : InBounds T.dims ix) : (Tensor.ofBuf b).val ix = T.val ix := by
  simp [Tensor.ofBuf, h.2 ix hix]

/-- Several variables, arrays of any rank, are changed at once. Then the value changes, to first
order, by the sum of the evaluated adjoints times these changes: for every ideal that contains the
changes, the rest is in the square of the ideal. All evaluations succeed, and the extents of an adjoint
are those of the value followed by those of its target. -/
theorem C71_expansion {adj : Id → Node F} {S : Finset Id} {σ : S → BTy} (hne : S.Nonempty)
    (he : RingExpr e) (ha : ∀ t : S, e.adjoint t = some (adj t)) (d : FnImpl Γ e τ)
    (da : ∀ t : S, FnImpl Γ (adj t) (σ t)) (hr : FnImpl.Regular d) (hra : ∀ t, FnImpl.Regular (da t))
    (c c' : Ctx F Γ) (hc : ∀ i, NeedsId e i → c i ≠ none) (hS : ∀ t ∈ S, c t ≠ none ∧ c' t ≠ none)
    (hout : ∀ i, i ∉ S → c' i = c i) (hs : ∀ t : S, WellContracted (envOf c) t e) :
    ∃ (v v' : Buf F τ) (a : ∀ t : S, Buf F (σ t)), (d.evaluate c).1 = .ok v ∧
      (d.evaluate c').1 = .ok v' ∧ Buf.dims τ v' = Buf.dims τ v ∧
      (∀ t, ((da t).evaluate c).1 = .ok (a t) ∧
        Buf.dims _ (a t) = Buf.dims τ v ++ (envOf c t).dims) ∧
      ∀ I : Ideal F, (∀ t : S, ∀ K, InBounds (envOf c t).dims K →
          (envOf c' t).val K - (envOf c t).val K ∈ I) →
        ∀ ix, InBounds (Buf.dims τ v) ix →
          FirstOrder I ((Tensor.ofBuf v).val ix) ((Tensor.ofBuf v').val ix)
            (∑ t : S, sumOver (envOf c t).dims fun K => (Tensor.ofBuf (a t)).val (ix ++ K) *
              ((envOf c' t).val K - (envOf c t).val K)) := by
  obtain ⟨t₀, ht₀⟩ := hne
  have hf := (ringExpr_not he).1
  have hc' : ∀ i, NeedsId e i → c' i ≠ none := by
    intro i hi
    by_cases hiS : i ∈ S
    · exact (hS i hiS).2
    · rw [hout i hiS]; exact hc i hi
  obtain ⟨v, hv⟩ := (eval_total' (ha ⟨t₀, ht₀⟩) he d (da ⟨t₀, ht₀⟩) hr (hra _) c hc (hS t₀ ht₀).1).1
  obtain ⟨v', hv'⟩ := (eval_total' (ha ⟨t₀, ht₀⟩) he d (da ⟨t₀, ht₀⟩) hr (hra _) c' hc'
    (hS t₀ ht₀).2).1
  have haok : ∀ t : S, ∃ a, ((da t).evaluate c).1 = .ok a := fun t =>
    (eval_total' (ha t) he d (da t) hr (hra t) c hc (hS t t.2).1).2
  choose a hok using haok
  have hv1 := den_of_eval' he d hr hv
  have hv1' := den_of_eval' he d hr hv'
  have ha1 := fun t => den_of_eval' (he.adjoint (ha t)) (da t) (hra t) (hok t)
  have hdim : ∀ i, (envOf c' i).dims = (envOf c i).dims := by
    intro i
    by_cases hiS : i ∈ S
    · have hvec := (fixedSize_of_adjoint (ha ⟨i, hiS⟩) hf d (da ⟨i, hiS⟩)).2
      obtain ⟨b, hb⟩ := Option.ne_none_iff_exists'.1 (hS i hiS).1
      obtain ⟨b', hb'⟩ := Option.ne_none_iff_exists'.1 (hS i hiS).2
      simp only [envOf, hb, hb', Tensor.ofBuf, Buf.dims]
      rw [Buf.shape_eq_of_fixed hvec (Buf.shape _ b') (Buf.shape _ b)]
    · simp only [envOf, hout i hiS]
  have hcomp := compat_of_eval' he d hr hv
  have hcompa := fun t => compat_of_eval' (he.adjoint (ha t)) (da t) (hra t) (hok t)
  have hd := fun t : S => (den_taylor (ρ := envOf c) (ρ' := envOf c) (I := ⊤) (Δ := fun _ => 0) he (ha t)
    hcomp (hcompa t) (hs t) (fun _ => rfl) (fun _ _ => rfl) (fun _ _ => trivial)
    (fun _ _ => by simp)).1
  refine ⟨v, v', a, hv, hv', ?_, fun t => ⟨hok t, ?_⟩, fun I hI ix hix => ?_⟩
  · rw [hv1'.1, hv1.1]; exact den_dims_congr hdim e
  · rw [(ha1 t).1, hd t, hv1.1]
  · have hix' : InBounds (den (envOf c) e).dims ix := hv1.1 ▸ hix
    have key := (den_taylor_many (S := S) (I := I) he (fun t ht => ha ⟨t, ht⟩) hcomp
      (fun t ht => hcompa ⟨t, ht⟩) (fun t ht => hs ⟨t, ht⟩) hdim
      (fun i hi => by simp only [envOf, hout i hi]) (fun t ht => hI ⟨t, ht⟩) ix hix').err
    unfold FirstOrder
    rw [isTensor_val hv1 hix', isTensor_val hv1' (by rw [den_dims_congr hdim]; exact hix')]
    convert key using 3
    rw [← Finset.sum_coe_sort S]
    refine Finset.sum_congr rfl fun t _ => sumOver_congr fun K hK => ?_
    rw [isTensor_val (ha1 t)]
    rw [hd t]
    exact inBounds_append.2 ⟨_, _, hix', hK, rfl⟩

/-- Changes whose products vanish, such as multiples of the unit of dual numbers, are propagated
without any error. -/
theorem C71_exact {adj : Id → Node F} {S : Finset Id} {σ : S → BTy} (hne : S.Nonempty)
    (he : RingExpr e) (ha : ∀ t : S, e.adjoint t = some (adj t)) (d : FnImpl Γ e τ)
    (da : ∀ t : S, FnImpl Γ (adj t) (σ t)) (hr : FnImpl.Regular d) (hra : ∀ t, FnImpl.Regular (da t))
    (c c' : Ctx F Γ) (hc : ∀ i, NeedsId e i → c i ≠ none) (hS : ∀ t ∈ S, c t ≠ none ∧ c' t ≠ none)
    (hout : ∀ i, i ∉ S → c' i = c i) (hs : ∀ t : S, WellContracted (envOf c) t e)
    (hz : ∀ t u : S, ∀ K L, InBounds (envOf c t).dims K → InBounds (envOf c u).dims L →
      ((envOf c' t).val K - (envOf c t).val K) * ((envOf c' u).val L - (envOf c u).val L) = 0) :
    ∃ (v v' : Buf F τ) (a : ∀ t : S, Buf F (σ t)), (d.evaluate c).1 = .ok v ∧
      (d.evaluate c').1 = .ok v' ∧ (∀ t, ((da t).evaluate c).1 = .ok (a t)) ∧
      ∀ ix, InBounds (Buf.dims τ v) ix → (Tensor.ofBuf v').val ix = (Tensor.ofBuf v).val ix +
        ∑ t : S, sumOver (envOf c t).dims fun K => (Tensor.ofBuf (a t)).val (ix ++ K) *
          ((envOf c' t).val K - (envOf c t).val K) := by
  obtain ⟨v, v', a, hv, hv', -, hok, h⟩ := C71_expansion hne he ha d da hr hra c c' hc hS hout hs
  refine ⟨v, v', a, hv, hv', fun t => (hok t).1, fun ix hix => ?_⟩
  let D : Set F := {x | ∃ t : S, ∃ K, InBounds (envOf c t).dims K ∧
    (envOf c' t).val K - (envOf c t).val K = x}
  have h1 := h (Ideal.span D) (fun t K hK => Ideal.subset_span ⟨t, K, hK, rfl⟩) ix hix
  have h2 : Ideal.span D ^ 2 = ⊥ := by
    rw [pow_two, Ideal.span_mul_span', Ideal.span_eq_bot]
    rintro _ ⟨x, ⟨t, K, hK, rfl⟩, y, ⟨u, L, hL, rfl⟩, rfl⟩
    exact hz t u K L hK hL
  unfold FirstOrder at h1
  rw [h2, Ideal.mem_bot, sub_eq_zero] at h1
  exact h1

/-- A single entry is changed by `δ`: every entry of the value changes by `δ` times the corresponding
entry of the adjoint, up to a multiple of `δ²`. -/
theorem C71_entry (he : RingExpr e) (ha : e.adjoint t = some e') (d : FnImpl Γ e τ)
    (da : FnImpl Γ e' σ) (hr : FnImpl.Regular d) (hra : FnImpl.Regular da) (c : Ctx F Γ)
    (hc : ∀ i, NeedsId e i → c i ≠ none) {b : Buf F (Γ t)} (hb : c t = some b)
    (hs : WellContracted (envOf c) t e) :
    ∃ v a, (d.evaluate c).1 = .ok v ∧ (da.evaluate c).1 = .ok a ∧
      Buf.dims σ a = Buf.dims τ v ++ Buf.dims _ b ∧
      ∀ K, InBounds (Buf.dims _ b) K → ∀ δ : F, ∃ v',
        (d.evaluate (c.write t (setEntry b K ((Tensor.ofBuf b).val K + δ)))).1 = .ok v' ∧
        ∀ ix, InBounds (Buf.dims τ v) ix → ∃ k, (Tensor.ofBuf v').val ix =
          (Tensor.ofBuf v).val ix + δ * (Tensor.ofBuf a).val (ix ++ K) + δ * δ * k := by
  have hct : c t ≠ none := by simp [hb]
  have hE : envOf c t = .ofBuf b := by simp only [envOf, hb]
  obtain ⟨⟨v, hv⟩, a, hok⟩ := eval_total' ha he d da hr hra c hc hct
  have main := fun c' (h1 : c' t ≠ none) (h2 : ∀ i, i ∉ ({t} : Finset Id) → c' i = c i) =>
    C71_expansion (adj := fun _ => e') (S := {t}) (σ := fun _ => σ) (Finset.singleton_nonempty t) he
      (fun s => by rw [Finset.mem_singleton.1 s.2]; exact ha) d (fun _ => da) hr (fun _ => hra) c c' hc
      (fun s hs => by rw [Finset.mem_singleton.1 hs]; exact ⟨hct, h1⟩) h2
      (fun s => by rw [Finset.mem_singleton.1 s.2]; exact hs)
  have hda : Buf.dims σ a = Buf.dims τ v ++ Buf.dims _ b := by
    obtain ⟨w, -, a', hw, -, -, hok', -⟩ := main c hct (fun _ _ => rfl)
    have h1 := hok' ⟨t, Finset.mem_singleton_self t⟩
    rw [hok] at h1
    rw [hv] at hw
    cases hw
    obtain ⟨h1, h2⟩ := h1
    rw [Res.ok.inj h1, h2, hE]
    rfl
  refine ⟨v, a, hv, hok, hda, fun K hK δ => ?_⟩
  obtain ⟨w, v', a', hw, hv', -, hok', h⟩ := main
    (c.write t (setEntry b K ((Tensor.ofBuf b).val K + δ))) (by simp [Ctx.write_self]) (by
      intro i hi
      simp only [Finset.mem_singleton] at hi
      simp [Ctx.write, hi])
  rw [hv] at hw
  cases hw
  refine ⟨v', hv', fun ix hix => ?_⟩
  have hent : ∀ L, (envOf (c.write t (setEntry b K ((Tensor.ofBuf b).val K + δ))) t).val L
      - (envOf c t).val L = if K = L then δ else 0 := by
    intro L
    rw [envOf_write c hb hK]
    simp only [perturb, if_true, hE]
    by_cases hL : L = K
    · subst hL; simp
    · rw [if_neg hL, if_neg (Ne.symm hL), sub_self]
  have h1 := h (Ideal.span {δ}) (fun s L _ => by
    have hst := Finset.mem_singleton.1 s.2
    rw [hst, hent]
    split
    · exact Ideal.mem_span_singleton_self δ
    · exact Ideal.zero_mem _) ix hix
  unfold FirstOrder at h1
  rw [Ideal.span_singleton_pow, Ideal.mem_span_singleton] at h1
  obtain ⟨k, hk⟩ := h1
  refine ⟨k, ?_⟩
  have hsum : ∑ s : ({t} : Finset Id), sumOver (envOf c s).dims (fun L =>
      (Tensor.ofBuf (a' s)).val (ix ++ L) *
        ((envOf (c.write t (setEntry b K ((Tensor.ofBuf b).val K + δ))) s).val L - (envOf c s).val L))
      = δ * (Tensor.ofBuf a).val (ix ++ K) := by
    have h2 := (hok' ⟨t, Finset.mem_singleton_self t⟩).1
    rw [hok] at h2
    have h3 := Res.ok.inj h2
    rw [Finset.univ_unique, Finset.sum_singleton]
    show sumOver (envOf c t).dims (fun L => (Tensor.ofBuf (a' ⟨t, _⟩)).val (ix ++ L) *
      ((envOf (c.write t (setEntry b K ((Tensor.ofBuf b).val K + δ))) t).val L
        - (envOf c t).val L)) = _
    simp only [hent, mul_ite, mul_zero]
    rw [sumOver_delta (f := fun L => (Tensor.ofBuf (a' ⟨t, _⟩)).val (ix ++ L) * δ)
      (by rw [hE]; exact hK), ← h3]
    ring
  rw [hsum] at hk
  linear_combination hk

end

/-- Over the integers the changes determine the adjoint: no other number could take the place of one
of its entries. -/
theorem C71_unique {Γ : Id → BTy} {e e' : Node ℤ} {τ σ : BTy} {t : Id} (he : RingExpr e)
    (ha : e.adjoint t = some e') (d : FnImpl Γ e τ) (da : FnImpl Γ e' σ) (hr : FnImpl.Regular d)
    (hra : FnImpl.Regular da) (c : Ctx ℤ Γ) (hc : ∀ i, NeedsId e i → c i ≠ none) {b : Buf ℤ (Γ t)}
    (hb : c t = some b) (hs : WellContracted (envOf c) t e) {v : Buf ℤ τ} {a : Buf ℤ σ}
    (hv : (d.evaluate c).1 = .ok v) (hok : (da.evaluate c).1 = .ok a) {K ix : Idx}
    (hK : InBounds (Buf.dims _ b) K) (hix : InBounds (Buf.dims τ v) ix) (g : ℤ) :
    g = (Tensor.ofBuf a).val (ix ++ K) ↔ ∀ δ : ℤ, ∃ v' k,
      (d.evaluate (c.write t (setEntry b K ((Tensor.ofBuf b).val K + δ)))).1 = .ok v' ∧
        (Tensor.ofBuf v').val ix = (Tensor.ofBuf v).val ix + δ * g + δ * δ * k := by
  obtain ⟨w, a', hw, hok', -, h⟩ := C71_entry he ha d da hr hra c hc hb hs
  rw [hv] at hw
  rw [hok] at hok'
  cases hw
  cases hok'
  constructor
  · rintro rfl δ
    obtain ⟨v', hv', h'⟩ := h K hK δ
    obtain ⟨k, hk⟩ := h' ix hix
    exact ⟨v', k, hv', hk⟩
  · intro hg
    set x := (Tensor.ofBuf a).val (ix ++ K) with hx
    obtain ⟨v', hv', h'⟩ := h K hK (|g - x| + 1)
    obtain ⟨k, hk⟩ := h' ix hix
    obtain ⟨v'', k', hv'', hk'⟩ := hg (|g - x| + 1)
    rw [hv'] at hv''
    cases hv''
    have hpos : |g - x| + 1 ≠ 0 := by positivity
    have h1 : (|g - x| + 1) * (g - x) = (|g - x| + 1) * ((|g - x| + 1) * (k - k')) := by
      linear_combination hk - hk'
    have h2 := mul_left_cancel₀ hpos h1
    have h3 : (|g - x| + 1) ∣ g - x := ⟨_, h2⟩
    have h4 := Int.eq_zero_of_abs_lt_dvd h3 (by omega)
    omega

/-! ### Concrete cases -/

/-- The squared error `(⟨w, x⟩ - y)²` of a linear model (`examples/linear.rs`), in any number
system. -/
def c71E (F : Type) : Node F := .un .square (.sub (.contract 1 (.var 0) (.var 1)) (.var 2))

/-- Its adjoint with respect to the weights `w`. -/
def c71EW (F : Type) : Node F :=
  .mul (.un .double (.sub (.contract 1 (.var 0) (.var 1)) (.var 2)))
    (.sub (.add (.contract 1 (.var 0) (.varAdj 1 0)) (.contract 1 (.varAdj 0 0) (.var 1)))
      (.varAdj 2 0))

/-- Its adjoint with respect to the label `y`. -/
def c71EY (F : Type) : Node F :=
  .mul (.un .double (.sub (.contract 1 (.var 0) (.var 1)) (.var 2)))
    (.sub (.add (.contract 1 (.var 0) (.varAdj 1 2)) (.contract 1 (.varAdj 0 2) (.var 1)))
      (.varAdj 2 2))

example : (c71E ℤ).adjoint 0 = some (c71EW ℤ) ∧ (c71E ℤ).adjoint 2 = some (c71EY ℤ) := ⟨rfl, rfl⟩

section
variable (F : Type) (n : Nat)

/-- Evaluation of `c71E`. -/
def c71D : FnImpl (c29Ty n) (c71E F) .scalar :=
  .un .square (.sub (.contract (.var (Γ := c29Ty n) 0) (.var (Γ := c29Ty n) 1) (.dot n))
    (.var (Γ := c29Ty n) 2) .ss)

/-- Evaluation of `c71EW`. -/
def c71DW : FnImpl (c29Ty n) (c71EW F) (.array [n]) :=
  .mul (.un .double (.sub (.contract (.var (Γ := c29Ty n) 0) (.var (Γ := c29Ty n) 1) (.dot n))
    (.var (Γ := c29Ty n) 2) .ss)) (.sub (.add (.contract (.var (Γ := c29Ty n) 0)
      (.varAdj 1 0 (.aa [n] [n] (by simp)) (by simp [c29Ty, BTy.rank])) (.vm n n))
      (.contract (.varAdj 0 0 (.aa [n] [n] (by simp)) (by simp [c29Ty, BTy.rank]))
        (.var (Γ := c29Ty n) 1)
        (.mv n n)) (.aa [n])) (.varAdj 2 0 (.sa [n]) (by simp [c29Ty, BTy.rank])) (.aa [n])) (.sa [n])

/-- Evaluation of `c71EY`. -/
def c71DY : FnImpl (c29Ty n) (c71EY F) .scalar :=
  .mul (.un .double (.sub (.contract (.var (Γ := c29Ty n) 0) (.var (Γ := c29Ty n) 1) (.dot n))
    (.var (Γ := c29Ty n) 2) .ss)) (.sub (.add (.contract (.var (Γ := c29Ty n) 0)
      (.varAdj 1 2 (.as [n]) (by simp [c29Ty, BTy.rank])) (.dot n))
      (.contract (.varAdj 0 2 (.as [n]) (by simp [c29Ty, BTy.rank]))
        (.var (Γ := c29Ty n) 1) (.dot n)) .ss)
      (.varAdj 2 2 .ss (by simp [c29Ty, BTy.rank])) .ss) .ss

/-- Weights, a sample and a label. -/
def c71Ctx (w x : NArr F [n]) (y : F) : Ctx F (c29Ty n) := fun i => match i with
  | 0 => some w
  | 1 => some x
  | 2 => some y
  | _ + 3 => none

variable {F n}

theorem c71_regular : FnImpl.Regular (c71D F n) ∧ FnImpl.Regular (c71DW F n) ∧
    FnImpl.Regular (c71DY F n) := by
  simp [c71D, c71DW, c71DY, FnImpl.Regular, c29Ty]

theorem c71_ring : RingExpr (c71E F) := ⟨by simp, ⟨trivial, trivial⟩, trivial⟩

theorem c71_some (w x : NArr F [n]) (y : F) (i : Id) (hi : NeedsId (c71E F) i) :
    c71Ctx F n w x y i ≠ none := by
  simp [c71E, NeedsId] at hi
  rcases hi with (rfl | rfl) | rfl <;> simp [c71Ctx]

theorem c71_wellContracted [CommRing F] [Div F] [ScalarFns F] (w x : NArr F [n]) (y : F) :
    WellContracted (envOf (c71Ctx F n w x y)) 0 (c71E F) ∧
      WellContracted (envOf (c71Ctx F n w x y)) 2 (c71E F) :=
  ⟨⟨⟨trivial, trivial, .inr (.inr (.inr ⟨rfl, ⟨n, rfl, rfl, rfl⟩, .var 0⟩))⟩, trivial⟩,
    ⟨⟨trivial, trivial, .inl rfl⟩, trivial⟩⟩

end

/-- Integer weights, any number of them: the evaluated adjoint is the gradient in the algebraic
sense. -/
example (n : Nat) (w x : NArr ℤ [n]) (y : ℤ) :
    ∃ v a, ((c71D ℤ n).evaluate (c71Ctx ℤ n w x y)).1 = .ok v ∧
      ((c71DW ℤ n).evaluate (c71Ctx ℤ n w x y)).1 = .ok a ∧
      ∀ i, i < n → ∀ δ : ℤ, ∃ v' k, ((c71D ℤ n).evaluate ((c71Ctx ℤ n w x y).write 0 (setEntry
          (τ := .array [n]) w [i] ((Tensor.ofBuf (τ := .array [n]) w).val [i] + δ)))).1 = .ok v' ∧
        (Tensor.ofBuf (τ := .scalar) v').val [] = (Tensor.ofBuf (τ := .scalar) v).val []
          + δ * (Tensor.ofBuf (τ := .array [n]) a).val [i] + δ * δ * k := by
  obtain ⟨v, a, hv, ha, -, h⟩ := C71_entry (t := 0) (b := w) c71_ring rfl (c71D ℤ n) (c71DW ℤ n)
    c71_regular.1 c71_regular.2.1 (c71Ctx ℤ n w x y) (c71_some w x y) rfl
    (c71_wellContracted w x y).1
  refine ⟨v, a, hv, ha, fun i hi δ => ?_⟩
  obtain ⟨v', hv', h'⟩ := h [i] (inBounds_one' hi) δ
  obtain ⟨k, hk⟩ := h' [] .nil
  exact ⟨v', k, hv', hk⟩

/-- The adjoints of `c71E`, by target. -/
def c71Adj (F : Type) (t : Id) : Node F := if t = 0 then c71EW F else c71EY F

/-- Bytes that wrap around: weights and label move by multiples of 16 at the same time. Products of
two such changes are multiples of 256, that is zero, and the adjoints predict the new error exactly. -/
example (n : Nat) (w w' x : NArr (ZMod 256) [n]) (y y' : ZMod 256)
    (hw : ∀ i, i < n → ∃ k, (Tensor.ofBuf (τ := .array [n]) w').val [i]
      - (Tensor.ofBuf (τ := .array [n]) w).val [i] = 16 * k) (hy : ∃ k, y' - y = 16 * k) :
    ∃ v v' a b, ((c71D (ZMod 256) n).evaluate (c71Ctx _ n w x y)).1 = .ok v ∧
      ((c71D (ZMod 256) n).evaluate (c71Ctx _ n w' x y')).1 = .ok v' ∧
      ((c71DW (ZMod 256) n).evaluate (c71Ctx _ n w x y)).1 = .ok a ∧
      ((c71DY (ZMod 256) n).evaluate (c71Ctx _ n w x y)).1 = .ok b ∧
      (Tensor.ofBuf (τ := .scalar) v').val [] = (Tensor.ofBuf (τ := .scalar) v).val []
        + (sumOver [n] (fun K => (Tensor.ofBuf (τ := .array [n]) a).val K *
            ((Tensor.ofBuf (τ := .array [n]) w').val K - (Tensor.ofBuf (τ := .array [n]) w).val K))
          + (Tensor.ofBuf (τ := .scalar) b).val [] * (y' - y)) := by
  let S : Finset Id := {0, 2}
  have mem : ∀ t : S, t.1 = 0 ∨ t.1 = 2 := fun t => by
    have h := t.2
    simp only [S, Finset.mem_insert, Finset.mem_singleton] at h
    exact h
  have h16 : ∀ a b : ZMod 256, 16 * a * (16 * b) = 0 := by
    intro a b
    have : (16 * 16 : ZMod 256) = 0 := by decide
    linear_combination (a * b) * this
  have hchg : ∀ t : S, ∀ K, InBounds (envOf (c71Ctx _ n w x y) t).dims K → ∃ k,
      (envOf (c71Ctx _ n w' x y') t).val K - (envOf (c71Ctx _ n w x y) t).val K = 16 * k := by
    rintro ⟨t, ht⟩ K hK
    rcases mem ⟨t, ht⟩ with h | h <;> (simp only at h; subst h)
    · have hK' : InBounds [n] K := hK
      cases hK' with
      | cons hi h0 => cases h0; exact hw _ hi
    · have hK' : InBounds [] K := hK
      cases hK'
      exact hy
  let da : ∀ t : S, FnImpl (c29Ty n) (c71Adj (ZMod 256) t) (if t.1 = 0 then .array [n] else .scalar) :=
    fun t => if h : t.1 = 0 then by rw [c71Adj, if_pos h, if_pos h]; exact c71DW _ n
      else by rw [c71Adj, if_neg h, if_neg h]; exact c71DY _ n
  have hda : ∀ t, FnImpl.Regular (da t) := by
    rintro ⟨t, ht⟩
    rcases mem ⟨t, ht⟩ with h | h <;> (simp only at h; subst h)
    · exact c71_regular.2.1
    · exact c71_regular.2.2
  obtain ⟨v, v', a, hv, hv', ha, h⟩ := C71_exact (adj := c71Adj (ZMod 256)) (S := S)
    ⟨0, by simp [S]⟩ c71_ring (by
      rintro ⟨t, ht⟩
      rcases mem ⟨t, ht⟩ with h | h <;> (simp only at h; subst h) <;> rfl) (c71D _ n) da c71_regular.1
    hda (c71Ctx _ n w x y) (c71Ctx _ n w' x y') (c71_some w x y)
    (fun t ht => by
      rcases mem ⟨t, ht⟩ with h | h <;> (simp only at h; subst h) <;> simp [c71Ctx]) (by
      intro i hi
      match i, hi with
      | 0, hi => simp [S] at hi
      | 1, _ => rfl
      | 2, hi => simp [S] at hi
      | _ + 3, _ => rfl) (by
      rintro ⟨t, ht⟩
      rcases mem ⟨t, ht⟩ with h | h <;> (simp only at h; subst h)
      · exact (c71_wellContracted w x y).1
      · exact (c71_wellContracted w x y).2) (by
      intro t u K L hK hL
      obtain ⟨k, hk⟩ := hchg t K hK
      obtain ⟨l, hl⟩ := hchg u L hL
      rw [hk, hl]
      exact h16 k l)
  have m0 : 0 ∈ S := by simp [S]
  have m2 : 2 ∈ S := by simp [S]
  refine ⟨v, v', a ⟨0, m0⟩, a ⟨2, m2⟩, hv, hv', ha ⟨0, m0⟩, ha ⟨2, m2⟩, ?_⟩
  refine (h [] .nil).trans ?_
  congr 1
  have huniv : (Finset.univ : Finset S) = {⟨0, m0⟩, ⟨2, m2⟩} := by
    ext t
    simp only [Finset.mem_univ, Finset.mem_insert, Finset.mem_singleton, true_iff, Subtype.ext_iff]
    exact mem t
  rw [huniv, Finset.sum_pair (by simp)]
  rfl

end Aegir.Props
