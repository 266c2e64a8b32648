import Verif.Lemmas.Mixed
import Verif.Lemmas.Repeat
import Verif.Lemmas.Node
import Verif.Spec.Instances
import Verif.Lemmas.Image
import Verif.Props.C19_Tensor
import Verif.Props.C57_Polynomial
import Verif.Spec.Real
/-!
# C73: mixed second derivatives do not depend on the order
-/

namespace Aegir.Props

open Aegir Aegir.Spec

section
variable {F : Type} [CommRing F] [Div F] [ScalarFns F] {Γ : Id → BTy}
  {e es et est ets : Node F} {τ : BTy} {s t : Id}

omit [CommRing F] [Div F] [ScalarFns F] in
/-- Whether a second adjoint exists does not depend on the order. -/
theorem C73_exists (hf : CacheFree e) (hs : e.adjoint s = some es) (ht : e.adjoint t = some et) :
    (∃ est, es.adjoint t = some est) ↔ ∃ ets, et.adjoint s = some ets :=
  (twice_iff hf hs).trans (twice_iff hf ht).symm

variable [LawfulScalar F] [LawfulPow F] [LawfulSquare F]

/-- Both second adjoints with respect to two scalar variables have the type of the expression; they
evaluate, and to the same buffer. -/
theorem C73_symmetric (hf : CacheFree e) (hs : e.adjoint s = some es) (ht : e.adjoint t = some et)
    (hst : es.adjoint t = some est) (hts : et.adjoint s = some ets) (hΓs : Γ s = .scalar)
    (hΓt : Γ t = .scalar) (hfs : FixedSize Γ e) (hrk : ∀ i, SubExpr (.var i) e → (Γ i).rank ≤ 3)
    (hss : ScalarSums Γ e) (d : FnImpl Γ e τ) (hr : FnImpl.Regular d)
    (hdiv : (∃ n, SubExpr (.un .xlnx n) e) → ∀ a b c : F, a / b * c = c / b * a)
    (c : Ctx F Γ) (hc : ∀ i, NeedsId e i ∨ i = s ∨ i = t → c i ≠ none) (hp : PowerRule (envOf c) e) :
    ∃ (dst : FnImpl Γ est τ) (dts : FnImpl Γ ets τ) (v : Buf F τ),
      (dst.evaluate c).1 = .ok v ∧ (dts.evaluate c).1 = .ok v := by
  have hU : ∀ n, (ScalarFns.fromUsize n : Option F) ≠ none := by simp [LawfulScalar.fromUsize_eq]
  have h0 : ∀ i, Γ i = .scalar → (envOf c i).dims = [] := by
    intro i hi
    have : ∀ {σ : BTy} (_ : σ = .scalar) (b : Buf F σ), Buf.dims σ b = [] := by rintro _ rfl b; rfl
    unfold envOf
    split
    · exact this hi _
    · rfl
  have key : ∀ {e₁ e₂ : Node F} {i j : Id}, e.adjoint i = some e₁ → e₁.adjoint j = some e₂ →
      Γ i = .scalar → Γ j = .scalar → (∀ k, NeedsId e k ∨ k = i ∨ k = j → c k ≠ none) →
      ∃ (d₂ : FnImpl Γ e₂ τ) (v : Buf F τ), (d₂.evaluate c).1 = .ok v ∧
        IsTensor v (den (envOf c) e₂) := by
    intro e₁ e₂ i j h₁ h₂ hi hj hc
    have hv : ∀ {i : Id}, Γ i = .scalar → Γ i ≠ .vec := fun h => by rw [h]; simp
    have hf₁ := adjoint_cacheFree h₁ hf
    have hfs₁ := adjoint_fixedSize h₁ hf hfs (hv hi)
    obtain ⟨d₁, hr₁⟩ := scalar_target_impl h₁ hf hfs hrk hss hi d hr
    obtain ⟨d₂, hr₂⟩ := scalar_target_impl h₂ hf₁ hfs₁
      (fun k hk => by cases adjoint_sub h₁ hk with | old h => exact hrk k h)
      (fun n σ hn => by cases adjoint_sub h₁ hn with | old h => exact hss n σ h) hj d₁ hr₁
    obtain ⟨v, c', hv'⟩ := (d₂.total hU (adjoint_fixedSize h₂ hf₁ hfs₁ (hv hj)) hr₂.inRange
      (P := fun k => NeedsId e k ∨ k = i ∨ k = j) (fun k hk => by
        rcases adjoint_needs h₂ hk with h | h
        · rcases adjoint_needs h₁ h with h | h
          · exact .inl h
          · exact .inr (.inl h)
        · exact .inr (.inr h))).1 c hc
    refine ⟨d₂, v, congrArg Prod.fst hv', ?_⟩
    refine C19_value_cache_free_partial d₂ (adjoint_cacheFree h₂ hf₁) c (fun l r hlr => ?_) hr₂ v
      (congrArg Prod.fst hv')
    obtain ⟨r', hr'⟩ := adjoint_power h₂ hlr
    obtain ⟨r'', hr''⟩ := adjoint_power h₁ hr'
    exact .inr fun h => absurd h (hp l r'' hr'').1
  have hsum : ∀ n, SubExpr (.sum n) e → (den (envOf c) n).dims = [] := by
    intro n hn
    have hn' : SubExpr n e := SubExpr.trans (.step (by simp [children]) (.refl _)) hn
    obtain ⟨σ, d', hr'⟩ := regular_subExpr hn' hr
    cases hss n σ hn d'
    have lift : ∀ {k : Id}, NeedsId n k → NeedsId e k := fun {k} hk => by
      rcases hk with h | ⟨j, h⟩ | ⟨j, h⟩ | ⟨m, h⟩
      · exact .inl (h.trans hn')
      · exact .inr (.inl ⟨j, h.trans hn'⟩)
      · exact .inr (.inr (.inl ⟨j, h.trans hn'⟩))
      · exact .inr (.inr (.inr ⟨m, h.trans hn'⟩))
    have hfn : FixedSize Γ n := by
      refine ⟨fun i hi => hfs.1 i (contains_of_needs (lift (needs_of_contains
        (fun m i h => hf m i (h.trans hn')) hi))), fun σ b h => hfs.2.1 σ b (h.trans hn'),
        fun σ b h => hfs.2.2 σ b (h.trans hn')⟩
    obtain ⟨v, c', hv'⟩ := (d'.total hU hfn hr'.inRange (P := fun k => NeedsId e k) (fun k hk => lift hk)).1 c fun k hk => hc k (.inl hk)
    have := C19_value_cache_free_partial d' (fun m i h => hf m i (h.trans hn')) c
      (fun l r hlr => .inr fun h => absurd h (hp l r (hlr.trans hn')).1) hr' v (congrArg Prod.fst hv')
    rw [← this.1]
    rfl
  obtain ⟨v, c', hv'⟩ := (d.total hU hfs hr.inRange (P := NeedsId e) (fun _ h => h)).1 c
    fun k hk => hc k (.inl hk)
  have hcomp : Compat (envOf c) e := by
    have hv : (d.evaluate c).1 = .ok v := congrArg Prod.fst hv'
    have he' : d.evaluate = d.fn.evaluateSpec.map BSpec.unwrap := d.evaluate_eq
    rw [he'] at hv
    obtain ⟨b, hb, rfl⟩ := (Res.map_ok_iff _ _ _).1 hv
    exact (((d.compat_spec hf hr).1 c (describes_envOf c)).2 b hb).2
  have hlev := level_of_compat hf hcomp hsum
  obtain ⟨dst, v₁, hv₁, ht₁⟩ := key hs hst hΓs hΓt hc
  obtain ⟨dts, v₂, hv₂, ht₂⟩ := key ht hts hΓt hΓs fun k hk => hc k (by tauto)
  have hdim : (den (envOf c) est).dims = (den (envOf c) ets).dims := by
    obtain ⟨h1, l1⟩ := level_adjoint hs hlev (h0 s hΓs)
    obtain ⟨h2, l2⟩ := level_adjoint ht hlev (h0 t hΓt)
    rw [(level_adjoint hst l1 (h0 t hΓt)).1, (level_adjoint hts l2 (h0 s hΓs)).1, h1, h2]
  have heq : v₁ = v₂ := by
    refine Buf.ext τ _ _ (Shp.dims_injective ?_) fun ix hix => ?_
    · exact ht₁.1.trans (hdim.trans ht₂.1.symm)
    · rw [ht₁.1] at hix
      rw [ht₁.2 ix hix, ht₂.2 ix (hdim ▸ hix),
        mixed_val hdiv hs ht hst hts hlev hp (h0 s hΓs) (h0 t hΓt)]
  exact ⟨dst, dts, v₁, hv₁, heq ▸ hv₂⟩
end

/-- Over the reals it is enough that bases of powers are positive. -/
theorem C73_real {Γ : Id → BTy} {e es et est ets : Node ℝ} {τ : BTy} {s t : Id} (hf : CacheFree e)
    (hs : e.adjoint s = some es) (ht : e.adjoint t = some et) (hst : es.adjoint t = some est)
    (hts : et.adjoint s = some ets) (hΓs : Γ s = .scalar) (hΓt : Γ t = .scalar) (hfs : FixedSize Γ e)
    (hrk : ∀ i, SubExpr (.var i) e → (Γ i).rank ≤ 3) (hss : ScalarSums Γ e) (d : FnImpl Γ e τ)
    (hr : FnImpl.Regular d) (c : Ctx ℝ Γ) (hc : ∀ i, NeedsId e i ∨ i = s ∨ i = t → c i ≠ none)
    (hp : ∀ l r, SubExpr (.power l r) e → 0 < (den (envOf c) l).val []) :
    ∃ (dst : FnImpl Γ est τ) (dts : FnImpl Γ ets τ) (v : Buf ℝ τ),
      (dst.evaluate c).1 = .ok v ∧ (dts.evaluate c).1 = .ok v := by
  refine C73_symmetric hf hs ht hst hts hΓs hΓt hfs hrk hss d hr (fun _ a b c => by ring) c hc
    fun l r h => ?_
  have h0 := hp l r h
  refine ⟨h0.ne', decide_eq_false (not_le.2 h0), ?_⟩
  show _ ^ _ * (_ * Real.log _) = _ ^ _ * Real.log _
  rw [← mul_assoc, ← Real.rpow_add_one h0.ne']
  ring_nf

/-- `x^y · u + sin x · ln y`, where `u` is a vector of length 2, for any positive `x` and any `y`, `u`. -/
example (x y : ℝ) (u : NArr ℝ [2]) (hx : 0 < x) :
    let Γ : Id → BTy := fun i => if i = 2 then .array [2] else .scalar
    let e : Node ℝ := .add (.mul (.power (.var 0) (.var 1)) (.var 2))
      (.mul (.un .sin (.var 0)) (.un .ln (.var 1)))
    let c : Ctx ℝ Γ := fun i => match i with
      | 0 => some x | 1 => some y | 2 => some u | _ => none
    ∃ es et est ets, e.adjoint 0 = some es ∧ e.adjoint 1 = some et ∧ es.adjoint 1 = some est ∧
      et.adjoint 0 = some ets ∧ ∃ (dst : FnImpl Γ est (.array [2])) (dts : FnImpl Γ ets (.array [2]))
        (v : Buf ℝ (.array [2])), (dst.evaluate c).1 = .ok v ∧ (dts.evaluate c).1 = .ok v := by
  intro Γ e c
  let d : FnImpl Γ e (.array [2]) := .add (.mul (.power (.var 0) (.var 1)) (.var 2) (.sa [2]))
    (.mul (.un .sin (.var 0)) (.un .ln (.var 1)) .ss) (.as [2])
  have hd : FnImpl.Regular d := ⟨⟨⟨trivial, trivial⟩, trivial⟩, trivial, trivial⟩
  refine ⟨_, _, _, _, rfl, rfl, rfl, rfl, ?_⟩
  refine C73_real (e := e) (s := 0) (t := 1) (fun n i h => by simp [e] at h) rfl rfl rfl rfl rfl rfl
    ⟨fun i _ => ?_, fun τ b h => by simp [e] at h, fun τ b h => by simp [e] at h⟩
    (fun i _ => ?_) (fun n σ h => by simp [e] at h) d hd c (fun i h => ?_) (fun l r h => ?_)
  · simp only [Γ]; split <;> simp
  · simp only [Γ]; split <;> simp [BTy.rank]
  · have : i = 0 ∨ i = 1 ∨ i = 2 := by
      simp [e, NeedsId] at h
      tauto
    rcases this with rfl | rfl | rfl <;> simp [c]
  · simp [e] at h
    obtain ⟨rfl, rfl⟩ := h
    exact hx

/-- A bilinear expression over the integers: `(x A) · (y A)` for a square matrix `A`. -/
example (x y : ℤ) (A : NArr ℤ [3, 3]) :
    let Γ : Id → BTy := fun i => if i = 2 then .array [3, 3] else .scalar
    let e : Node ℤ := .contract 1 (.mul (.var 0) (.var 2)) (.mul (.var 1) (.var 2))
    let c : Ctx ℤ Γ := fun i => match i with
      | 0 => some x | 1 => some y | 2 => some A | _ => none
    ∃ es et est ets, e.adjoint 0 = some es ∧ e.adjoint 1 = some et ∧ es.adjoint 1 = some est ∧
      et.adjoint 0 = some ets ∧ ∃ (dst : FnImpl Γ est (.array [3, 3]))
        (dts : FnImpl Γ ets (.array [3, 3])) (v : Buf ℤ (.array [3, 3])),
        (dst.evaluate c).1 = .ok v ∧ (dts.evaluate c).1 = .ok v := by
  intro Γ e c
  let d : FnImpl Γ e (.array [3, 3]) :=
    .contract (.mul (.var 0) (.var 2) (.sa _)) (.mul (.var 1) (.var 2) (.sa _)) (.mm 3 3 3)
  have hd : FnImpl.Regular d := ⟨⟨trivial, trivial⟩, ⟨trivial, trivial⟩, by simp, by simp⟩
  refine ⟨_, _, _, _, rfl, rfl, rfl, rfl, ?_⟩
  refine C73_symmetric (e := e) (s := 0) (t := 1) (fun n i h => by simp [e] at h) rfl rfl rfl rfl rfl rfl
    ⟨fun i _ => ?_, fun τ b h => by simp [e] at h, fun τ b h => by simp [e] at h⟩
    (fun i _ => ?_) (fun n σ h => by simp [e] at h) d hd (fun ⟨n, h⟩ => by simp [e] at h)
    c (fun i h => ?_) (fun l r h => by simp [e] at h)
  · simp only [Γ]; split <;> simp
  · simp only [Γ]; split <;> simp [BTy.rank]
  · have : i = 0 ∨ i = 1 ∨ i = 2 := by
      simp [e, NeedsId] at h
      tauto
    rcases this with rfl | rfl | rfl <;> simp [c]

/-- `C73_exists` for `x² y`: both orders exist. -/
example : ∃ es et, (Node.mul (.un .square (.var 0)) (.var 1) : Node ℤ).adjoint 0 = some es ∧
    (Node.mul (.un .square (.var 0)) (.var 1) : Node ℤ).adjoint 1 = some et ∧
    ((∃ est, es.adjoint 1 = some est) ↔ ∃ ets, et.adjoint 0 = some ets) :=
  ⟨_, _, rfl, rfl, C73_exists (e := .mul (.un .square (.var 0)) (.var 1)) (fun n i h => by simp at h) rfl rfl⟩

/-- Positive bases are needed: for `x^y` at `x = -2`, `y = 1` one order gives `1`, the other
`1 + ln x`. (In floating point the latter is NaN; the reals of the model have `ln (-2) = ln 2`.) -/
theorem C73_negative_base :
    ∃ (est ets : Node ℝ) (dst : FnImpl (fun _ => .scalar) est .scalar)
      (dts : FnImpl (fun _ => .scalar) ets .scalar) (c : Ctx ℝ fun _ => .scalar) (v w : ℝ),
      ((Node.power (.var 0) (.var 1) : Node ℝ).adjoint 0).bind (·.adjoint 1) = some est ∧
      ((Node.power (.var 0) (.var 1) : Node ℝ).adjoint 1).bind (·.adjoint 0) = some ets ∧
      (dst.evaluate c).1 = .ok v ∧ (dts.evaluate c).1 = .ok w ∧ v ≠ w := by
  let e : Node ℝ := .power (.var 0) (.var 1)
  let d : FnImpl (fun _ => .scalar) e .scalar := .power (.var 0) (.var 1)
  let c : Ctx ℝ fun _ => .scalar := fun i => some (if i = 0 then (-2 : ℝ) else 1)
  have hr : FnImpl.Regular d := ⟨trivial, trivial⟩
  have hf : CacheFree e := fun n i h => by simp [e] at h
  have hfs : FixedSize (fun _ => .scalar) e := ⟨by simp, fun τ b h => by simp [e] at h,
    fun τ b h => by simp [e] at h⟩
  have hss : ScalarSums (fun _ => .scalar) e := fun n σ h => by simp [e] at h
  have key : ∀ {e₁ e₂ : Node ℝ} {i j : Id}, e.adjoint i = some e₁ → e₁.adjoint j = some e₂ →
      ∃ d₂ : FnImpl (fun _ => .scalar) e₂ .scalar,
        (d₂.evaluate c).1 = .ok ((den (envOf c) e₂).val []) := by
    intro e₁ e₂ i j h₁ h₂
    have hf₁ := adjoint_cacheFree h₁ hf
    have hfs₁ := adjoint_fixedSize h₁ hf hfs (by simp)
    obtain ⟨d₁, hr₁⟩ := scalar_target_impl h₁ hf hfs (fun i _ => by simp [BTy.rank]) hss rfl d hr
    obtain ⟨d₂, hr₂⟩ := scalar_target_impl h₂ hf₁ hfs₁ (fun i _ => by simp [BTy.rank])
      (fun n σ hn => by cases adjoint_sub h₁ hn with | old h => exact hss n σ h) rfl d₁ hr₁
    obtain ⟨v, c', hv⟩ := (d₂.total (by simp [LawfulScalar.fromUsize_eq])
      (adjoint_fixedSize h₂ hf₁ hfs₁ (by simp)) hr₂.inRange
      (P := fun _ => True) (fun _ _ => trivial)).1 c (by simp [c])
    have h1 : (d₂.evaluate c).1 = .ok v := congrArg Prod.fst hv
    have h2 := C19_value_cache_free_partial d₂ (adjoint_cacheFree h₂ hf₁) c (fun l r h => .inr fun h0 => by
      obtain ⟨r', h⟩ := adjoint_power h₂ h
      obtain ⟨r'', h⟩ := adjoint_power h₁ h
      simp only [e, SubExpr.power, SubExpr.var, Node.power.injEq, reduceCtorEq, or_false] at h
      rw [h.1] at h0
      exact absurd h0 (by simp [den, envOf, c, Tensor.ofBuf, Buf.getU])) hr₂ v h1
    have h3 := h2.2 [] (by rw [← h2.1]; exact .nil)
    refine ⟨d₂, h1.trans ?_⟩
    exact congrArg _ (Option.some.inj h3)
  obtain ⟨dst, hst⟩ := key (i := 0) (j := 1) rfl rfl
  obtain ⟨dts, hts⟩ := key (i := 1) (j := 0) rfl rfl
  refine ⟨_, _, dst, dts, c, _, _, rfl, rfl, hst, hts, ?_⟩
  simp [den, envOf, c, Tensor.ofBuf, Buf.getU, Tensor.zip, Tensor.map, Tensor.delta, Tensor.const, bIdx,
    UnOp.apply, ScalarFns.pow, ScalarFns.ln, ScalarFns.leb]
  norm_num

end Aegir.Props
