import Verif.Lemmas.RangeCalc
/-!
# Crude bounds on intermediate results

An entry that went through `k` roundings is at most `B ^ (k + 1)` when variables and constants are at
most `B`, where `B` is at least two.
-/

namespace Aegir

open Spec

section
variable {F : Type} {D : Id → Dims} {σ : Id → Tensor ℝ} {wt : F → ℝ} {B : ℝ}

theorem den_positive_dims (hD : ∀ i, (σ i).dims = D i) {e : Node F} (he : RingExpr e) :
    (den σ (positive wt e)).dims = extents D e := by
  induction e with
  | var i => exact hD i
  | varAdj i t => simp only [positive, den, extents, Tensor.delta, hD]
  | const τ b => exact Buf.dims_map τ b _
  | constSpec τ s =>
    cases s with
    | raw b => exact Buf.dims_map τ b _
    | _ => rfl
  | constAdj n t ih => simp only [positive, den, extents, Tensor.const, ih he, hD]
  | cached n i ih => exact he.elim
  | add l r ihl ihr => simp only [positive, den, extents, Tensor.zip, ihl he.1, ihr he.2]
  | sub l r ihl ihr => simp only [positive, den, extents, Tensor.zip, ihl he.1, ihr he.2]
  | mul l r ihl ihr => simp only [positive, den, extents, Tensor.zip, ihl he.1, ihr he.2]
  | div l r ihl ihr => exact he.elim
  | power l r _ _ => exact he.elim
  | contract k l r ihl ihr => simp only [positive, den, extents, Tensor.contract, ihl he.1, ihr he.2]
  | sum n _ => rfl
  | un op n ih =>
    have ih := ih he.2
    cases op <;>
      simp [positive, den, extents, Tensor.map, Tensor.zip, ih]

/-- All entries lie between `0` and `b`. -/
def Within (T : Tensor ℝ) (b : ℝ) : Prop := ∀ ix, 0 ≤ T.val ix ∧ T.val ix ≤ b

theorem sumOver_le {ds : Dims} {f : Idx → ℝ} {b : ℝ} (h : ∀ ix, 0 ≤ f ix ∧ f ix ≤ b) :
    0 ≤ sumOver ds f ∧ sumOver ds f ≤ ds.prod * b := by
  induction ds generalizing f with
  | nil => simpa [sumOver] using h []
  | cons d ds ih =>
    simp only [sumOver, List.prod_cons]
    have := fun i => ih (f := fun ix => f (i :: ix)) fun ix => h (i :: ix)
    refine ⟨Finset.sum_nonneg fun i _ => (this i).1, ?_⟩
    refine (Finset.sum_le_sum fun i _ => (this i).2).trans (le_of_eq ?_)
    rw [Finset.sum_const, Finset.card_range, nsmul_eq_mul]
    push_cast; ring

theorem natCast_le_pow (hB : 2 ≤ B) (n : ℕ) : (n : ℝ) ≤ B ^ n := by
  have h1 : (n : ℝ) ≤ 2 ^ n := by exact_mod_cast (Nat.lt_two_pow_self (n := n)).le
  exact h1.trans (pow_le_pow_left₀ (by norm_num) hB n)

theorem within_ofBuf {τ : BTy} {b : Buf F τ} {f : F → ℝ} (hB : 0 ≤ B)
    (h : ∀ ix x, Buf.getU τ b ix = some x → 0 ≤ f x ∧ f x ≤ B) :
    Within (.ofBuf (Buf.map τ b f)) B := by
  intro ix
  show 0 ≤ (Buf.getU τ (Buf.map τ b f) ix).getD 0 ∧ (Buf.getU τ (Buf.map τ b f) ix).getD 0 ≤ B
  rw [Buf.getU_map]
  cases hx : Buf.getU τ b ix with
  | none => simpa using hB
  | some x => simpa using h ix x hx

namespace Within
variable {S T : Tensor ℝ} {s t : ℝ} {a b : ℕ}

theorem pow (h : Within T (B ^ a)) (hB : 2 ≤ B) (hab : a ≤ b) : Within T (B ^ b) := fun ix =>
  ⟨(h ix).1, (h ix).2.trans (pow_le_pow_right₀ (by linarith) hab)⟩

theorem add (h : Within S s) (h' : Within T t) : Within (.zip (· + ·) S T) (s + t) := fun _ =>
  ⟨add_nonneg (h _).1 (h' _).1, add_le_add (h _).2 (h' _).2⟩

theorem mul (h : Within S s) (h' : Within T t) : Within (.zip (· * ·) S T) (s * t) := fun _ =>
  ⟨mul_nonneg (h _).1 (h' _).1, mul_le_mul (h _).2 (h' _).2 (h' _).1 ((h []).1.trans (h []).2)⟩

theorem mono (h : Within S s) (hs : s ≤ t) : Within S t := fun ix => ⟨(h ix).1, (h ix).2.trans hs⟩

theorem contract (h : Within S s) (h' : Within T t) (k : ℕ) :
    Within (.contract k S T) ((T.dims.take k).prod * (s * t)) := fun _ =>
  sumOver_le fun _ => ⟨mul_nonneg (h _).1 (h' _).1,
    mul_le_mul (h _).2 (h' _).2 (h' _).1 ((h []).1.trans (h []).2)⟩

end Within

theorem two_mul_pow (hB : 2 ≤ B) (a : ℕ) : B ^ a + B ^ a ≤ B ^ (a + 1) := by
  rw [pow_succ]
  nlinarith [pow_pos (show (0 : ℝ) < B by linarith) a]

/-- How large intermediate results get. -/
theorem within_positive (hD : ∀ i, (σ i).dims = D i) (hB : 2 ≤ B) (hσ : ∀ i, Within (σ i) B)
    {e : Node F} (he : RingExpr e) (hc : ConstsAll (fun x => |wt x| ≤ B) e) :
    Within (den σ (positive wt e)) (B ^ (roundings D e + 1)) := by
  have hB0 : (0 : ℝ) ≤ B := by linarith
  have h1B : (1 : ℝ) ≤ B := by linarith
  have h1 : ∀ a : ℕ, (1 : ℝ) ≤ B ^ a := fun a => one_le_pow₀ h1B
  induction e with
  | var i => simpa [roundings, positive, den] using hσ i
  | varAdj i t =>
    intro ix
    simp only [positive, den, Tensor.delta, roundings, zero_add, pow_one]
    split
    · exact ⟨zero_le_one, h1B⟩
    · exact ⟨le_refl _, hB0⟩
  | const τ b =>
    have : Within (.ofBuf (Buf.map τ b fun x => |wt x|)) B :=
      within_ofBuf hB0 fun ix x hx => ⟨abs_nonneg _, hc ix x hx⟩
    simpa [roundings, positive, den] using this
  | constSpec τ s =>
    cases s with
    | raw b =>
      have : Within (.ofBuf (Buf.map τ b fun x => |wt x|)) B :=
        within_ofBuf hB0 fun ix x hx => ⟨abs_nonneg _, hc ix x hx⟩
      simpa [roundings, positive, den, convSpec, Tensor.ofSpec] using this
    | full s x =>
      intro ix
      simp only [positive, den, convSpec, Tensor.ofSpec, Tensor.const, roundings, zero_add, pow_one]
      exact ⟨abs_nonneg _, hc⟩
    | diagonal s x =>
      intro ix
      simp only [positive, den, convSpec, Tensor.ofSpec, roundings, zero_add, pow_one]
      split
      · exact ⟨abs_nonneg _, hc⟩
      · exact ⟨le_refl _, hB0⟩
  | constAdj n t ih =>
    intro ix
    simp only [positive, den, Tensor.const, roundings, zero_add, pow_one]
    exact ⟨le_refl _, hB0⟩
  | cached n i ih => exact he.elim
  | add l r ihl ihr =>
    exact (((ihl he.1 hc.1).pow hB (by omega)).add ((ihr he.2 hc.2).pow hB (by omega))).mono
      (two_mul_pow hB (max (roundings D l) (roundings D r) + 1))
  | sub l r ihl ihr =>
    exact (((ihl he.1 hc.1).pow hB (by omega)).add ((ihr he.2 hc.2).pow hB (by omega))).mono
      (two_mul_pow hB (max (roundings D l) (roundings D r) + 1))
  | mul l r ihl ihr =>
    refine ((ihl he.1 hc.1).mul (ihr he.2 hc.2)).mono (le_of_eq ?_)
    rw [← pow_add]
    simp only [roundings]
    congr 1; omega
  | div l r ihl ihr => exact he.elim
  | power l r _ _ => exact he.elim
  | contract k l r ihl ihr =>
    refine ((ihl he.1 hc.1).contract (ihr he.2 hc.2) _).mono ?_
    rw [den_positive_dims hD he.1, den_positive_dims hD he.2, ← pow_add]
    have e1 : (((extents D r).take (if extents D l = [] ∧ extents D r = [] then 0 else k)).prod : ℕ)
        = ((extents D r).take k).prod := by
      split
      · next h => rw [h.2]; simp
      · rfl
    rw [e1]
    refine (mul_le_mul_of_nonneg_right (natCast_le_pow hB _) (by positivity)).trans ?_
    rw [← pow_add]
    refine pow_le_pow_right₀ h1B ?_
    simp only [roundings]; omega
  | sum n ih =>
    intro ix
    have := sumOver_le (ds := (den σ (positive wt n)).dims) fun ix => ih he hc ix
    refine ⟨this.1, this.2.trans ?_⟩
    rw [den_positive_dims hD (e := n) he]
    refine (mul_le_mul_of_nonneg_right (natCast_le_pow hB _) (by positivity)).trans ?_
    rw [← pow_add]
    refine pow_le_pow_right₀ h1B ?_
    simp only [roundings]; omega
  | un op n ih =>
    have ih := ih he.2 hc
    set k := roundings D n with hk
    have plus : ∀ ix, 0 ≤ (den σ (positive wt n)).val ix + 1 ∧
        (den σ (positive wt n)).val ix + 1 ≤ B ^ (k + 1 + 1) := fun ix =>
      ⟨by linarith [(ih ix).1], by linarith [(ih ix).2, two_mul_pow hB (k + 1), h1 (k + 1)]⟩
    have hop := he.1
    fin_cases hop
    · exact plus
    · exact plus
    · exact plus
    · intro ix
      show 0 ≤ (ScalarFns.pow ((den σ (positive wt n)).val ix) (1 + 1) : ℝ) ∧
        (ScalarFns.pow ((den σ (positive wt n)).val ix) (1 + 1) : ℝ) ≤ _
      rw [rpow_two']
      refine ⟨sq_nonneg _, (pow_le_pow_left₀ (ih ix).1 (ih ix).2 2).trans (le_of_eq ?_)⟩
      rw [← pow_mul]
      show B ^ ((k + 1) * 2) = B ^ (2 * k + 1 + 1)
      congr 1; ring
    · intro ix
      have e : (den σ (positive wt (.un .double n))).val ix
          = (den σ (positive wt n)).val ix * (1 + 1) ∨ (den σ (positive wt (.un .double n))).val ix
          = (1 + 1) * (den σ (positive wt n)).val ix := by first | exact .inl rfl | exact .inr rfl
      have h2 : (den σ (positive wt (.un .double n))).val ix = 2 * (den σ (positive wt n)).val ix := by
        rcases e with e | e <;> rw [e] <;> ring
      rw [h2]
      refine ⟨by linarith [(ih ix).1], ?_⟩
      have : B ^ (k + 1 + 1) ≤ B ^ (k + 2 + 1) := pow_le_pow_right₀ h1B (by omega)
      show _ ≤ B ^ (k + 2 + 1)
      linarith [(ih ix).2, two_mul_pow hB (k + 1)]
    · exact ih
    · have h2 : Within (den σ (.un .addOne (positive wt n))) (B ^ (k + 1 + 1)) := plus
      refine (ih.mul h2).mono (le_of_eq ?_)
      rw [← pow_add]
      show B ^ (k + 1 + (k + 1 + 1)) = B ^ (2 * k + 2 + 1)
      congr 1; omega

/-- If the bound is in range for the whole expression, so is everything in between. -/
theorem ranges_of_bound (hD : ∀ i, (σ i).dims = D i) (hB : 2 ≤ B) (hσ : ∀ i, Within (σ i) B)
    {Q : F → Prop} {R : ℕ → ℝ → Prop} {lax : Prop} {K : ℕ}
    (hR : ∀ k m, k ≤ K → m ≤ B ^ (K + 1) → R k m)
    {e : Node F} (he : RingExpr e) (hc : ConstsAll (fun x => Q x ∧ |wt x| ≤ B) e)
    (hn : NonemptySums D e) (hK : ∀ n, SubExpr n e → roundings D n ≤ K) : Ranges Q R lax D σ wt e := by
  have h1B : (1 : ℝ) ≤ B := by linarith
  have split : ∀ {e : Node F}, RingExpr e → ConstsAll (fun x => Q x ∧ |wt x| ≤ B) e →
      ConstsAll (fun x => |wt x| ≤ B) e := by
    intro e he hc
    induction e with
    | var i => trivial
    | varAdj i t => trivial
    | const τ b => exact fun ix x hx => (hc ix x hx).2
    | constSpec τ s =>
      cases s with
      | raw b => exact fun ix x hx => (hc ix x hx).2
      | full s x => exact hc.2
      | diagonal s x => exact hc.2
    | constAdj n t ih => exact ih he hc
    | cached n i ih => exact he.elim
    | add l r ihl ihr => exact ⟨ihl he.1 hc.1, ihr he.2 hc.2⟩
    | sub l r ihl ihr => exact ⟨ihl he.1 hc.1, ihr he.2 hc.2⟩
    | mul l r ihl ihr => exact ⟨ihl he.1 hc.1, ihr he.2 hc.2⟩
    | div l r ihl ihr => exact he.elim
    | power l r _ _ => exact he.elim
    | contract k l r ihl ihr => exact ⟨ihl he.1 hc.1, ihr he.2 hc.2⟩
    | sum n ih => exact ih he hc
    | un op n ih => exact ih he.2 hc
  have every : ∀ {e : Node F}, RingExpr e → ConstsAll (fun x => Q x ∧ |wt x| ≤ B) e →
      roundings D e ≤ K → (den σ (positive wt e)).Every (R (roundings D e)) := fun he hc hK ix _ =>
    hR _ _ hK ((within_positive hD hB hσ he (split he hc) ix).2.trans
      (pow_le_pow_right₀ h1B (by omega)))
  have sub : ∀ {n e : Node F}, n ∈ children e → (∀ m, SubExpr m e → roundings D m ≤ K) →
      ∀ m, SubExpr m n → roundings D m ≤ K := fun hn h m hm => h m (.step hn hm)
  induction e with
  | var i => trivial
  | varAdj i t => trivial
  | const τ b => exact fun ix x hx => (hc ix x hx).1
  | constSpec τ s =>
    cases s with
    | raw b => exact fun ix x hx => (hc ix x hx).1
    | full s x => exact hc.1
    | diagonal s x => exact hc.1
  | constAdj n t ih => exact ih he hc hn (sub (by simp [children]) hK)
  | cached n i ih => exact he.elim
  | add l r ihl ihr =>
    exact ⟨ihl he.1 hc.1 hn.1 (sub (by simp [children]) hK),
      ihr he.2 hc.2 hn.2 (sub (by simp [children]) hK), every he hc (hK _ (.refl _))⟩
  | sub l r ihl ihr =>
    exact ⟨ihl he.1 hc.1 hn.1 (sub (by simp [children]) hK),
      ihr he.2 hc.2 hn.2 (sub (by simp [children]) hK), every he hc (hK _ (.refl _))⟩
  | mul l r ihl ihr =>
    exact ⟨ihl he.1 hc.1 hn.1 (sub (by simp [children]) hK),
      ihr he.2 hc.2 hn.2 (sub (by simp [children]) hK), every he hc (hK _ (.refl _))⟩
  | div l r ihl ihr => exact he.elim
  | power l r _ _ => exact he.elim
  | contract k l r ihl ihr =>
    have hK' := hK _ (.refl _)
    have hK2 := hK'
    simp only [roundings] at hK2
    refine ⟨ihl he.1 hc.1 hn.1 (sub (by simp [children]) hK),
      ihr he.2 hc.2 hn.2.1 (sub (by simp [children]) hK), every he hc hK', ?_, .inl hn.2.2⟩
    intro ix _
    have h1 : Within ((den σ (positive wt r)).map fun _ => 1) 1 := fun _ => ⟨zero_le_one, le_refl _⟩
    have := ((within_positive hD hB hσ he.1 (split he.1 hc.1)).contract h1
      (if (den σ (positive wt l)).dims = [] ∧ (den σ (positive wt r)).dims = [] then 0 else k) ix).2
    refine hR _ _ (by omega) (this.trans ?_)
    have e2 : ((den σ (positive wt r)).map fun _ => (1 : ℝ)).dims = extents D r :=
      den_positive_dims hD he.2
    rw [e2, den_positive_dims hD he.1, den_positive_dims hD he.2, mul_one]
    have e1 : (((extents D r).take (if extents D l = [] ∧ extents D r = [] then 0 else k)).prod : ℕ)
        = ((extents D r).take k).prod := by
      split
      · next h => rw [h.2]; simp
      · rfl
    rw [e1]
    refine (mul_le_mul_of_nonneg_right (natCast_le_pow hB _) (by positivity)).trans ?_
    rw [← pow_add]
    exact pow_le_pow_right₀ h1B (by omega)
  | sum n ih =>
    have hK' := hK _ (.refl _)
    exact ⟨ih he hc hn.1 (sub (by simp [children]) hK), every he hc hK', .inl hn.2⟩
  | un op n ih =>
    have hK' := hK _ (.refl _)
    have hop := he.1
    have ih := ih he.2 hc hn (sub (by simp [children]) hK)
    fin_cases hop
    · exact ⟨ih, every he hc hK'⟩
    · exact ⟨ih, every he hc hK'⟩
    · exact ⟨ih, every he hc hK'⟩
    · exact ⟨ih, every he hc hK'⟩
    · exact ⟨ih, every he hc hK'⟩
    · exact ih
    · refine ⟨ih, every (e := .un .oneSub n) ⟨by simp, he.2⟩ hc ?_, every he hc hK'⟩
      have : 2 * roundings D n + 2 ≤ K := hK'
      show roundings D n + 1 ≤ K
      omega

end

/-- Parts of an expression go through fewer roundings, except that nothing is computed of what a
`ConstantAdjoint` holds. -/
theorem roundings_sub {F : Type} {D : Id → Dims} {n e : Node F} (h : SubExpr n e) (he : RingExpr e)
    (hca : ∀ n t, SubExpr (.constAdj n t) e → roundings D n = 0) :
    roundings D n ≤ roundings D e := by
  induction h with
  | refl => exact le_refl _
  | @step e' e hc hs ih =>
    have key : RingExpr e' ∧ roundings D e' ≤ roundings D e := by
      cases e with
      | var i => simp [children] at hc
      | varAdj i t => simp [children] at hc
      | const τ b => simp [children] at hc
      | constSpec τ s => simp [children] at hc
      | constAdj m t =>
        simp only [children, List.mem_singleton] at hc
        subst hc
        exact ⟨he, by rw [hca _ t (.refl _)]; omega⟩
      | cached m i => exact he.elim
      | add l r =>
        simp only [children, List.mem_cons, List.not_mem_nil, or_false] at hc
        rcases hc with rfl | rfl
        · exact ⟨he.1, by simp only [roundings]; omega⟩
        · exact ⟨he.2, by simp only [roundings]; omega⟩
      | sub l r =>
        simp only [children, List.mem_cons, List.not_mem_nil, or_false] at hc
        rcases hc with rfl | rfl
        · exact ⟨he.1, by simp only [roundings]; omega⟩
        · exact ⟨he.2, by simp only [roundings]; omega⟩
      | mul l r =>
        simp only [children, List.mem_cons, List.not_mem_nil, or_false] at hc
        rcases hc with rfl | rfl
        · exact ⟨he.1, by simp only [roundings]; omega⟩
        · exact ⟨he.2, by simp only [roundings]; omega⟩
      | div l r => exact he.elim
      | power l r => exact he.elim
      | contract k l r =>
        simp only [children, List.mem_cons, List.not_mem_nil, or_false] at hc
        rcases hc with rfl | rfl
        · exact ⟨he.1, by simp only [roundings]; omega⟩
        · exact ⟨he.2, by simp only [roundings]; omega⟩
      | sum m =>
        simp only [children, List.mem_singleton] at hc
        subst hc
        exact ⟨he, by simp only [roundings]; omega⟩
      | un op m =>
        simp only [children, List.mem_singleton] at hc
        subst hc
        refine ⟨he.2, ?_⟩
        have hop := he.1
        fin_cases hop <;> simp only [roundings] <;> omega
    exact (ih key.1 fun n t h => hca n t (.step hc h)).trans key.2

section
variable {F : Type} [Zero F] [One F] [Add F] [Sub F] [Mul F] [Div F] [Neg F] [ScalarFns F]
variable {Γ : Id → BTy} {val : F → ℝ} {fin : F → Prop} {u lo hi θ B : ℝ} {e : Node F} {τ : BTy}

omit [Zero F] [One F] [Add F] [Sub F] [Mul F] [Div F] [Neg F] [ScalarFns F] in
theorem abs_atLeast (h0 : 0 < θ) : (fun x => |atLeast θ val x|) = atLeast θ val :=
  funext fun _ => abs_of_nonneg (h0.le.trans (le_max_left _ _))

omit [Zero F] [One F] [Add F] [Sub F] [Mul F] [Div F] [Neg F] [ScalarFns F] in
theorem finiteJ_leaf (h0 : 0 < θ) (x : F) :
    finiteJ val fin u lo θ 0 x (val x) |atLeast θ val x| := by
  rw [show |atLeast θ val x| = max θ |val x| from
    abs_of_nonneg (h0.le.trans (le_max_left _ _))]
  exact ⟨le_max_right _ _, .inr (by simp), fun _ _ =>
    ⟨le_max_right _ _, by simp⟩⟩

omit [Zero F] [One F] [Add F] [Sub F] [Mul F] [Div F] [Neg F] [ScalarFns F] in
theorem rangedJ_leaf (h0 : 0 < θ) (x : F) (hx : fin x) :
    rangedJ val fin u θ 0 x (val x) |atLeast θ val x| := by
  rw [show |atLeast θ val x| = max θ |val x| from
    abs_of_nonneg (h0.le.trans (le_max_left _ _))]
  exact ⟨.inr (by simp), hx, le_max_right _ _, by simp⟩

omit [Zero F] [One F] [Add F] [Sub F] [Mul F] [Div F] [Neg F] [ScalarFns F] in
theorem Spec.ConstsAll.mono {P Q : F → Prop} (h : ∀ x, P x → Q x) {e : Node F} (hc : ConstsAll P e) :
    ConstsAll Q e := by
  induction e with
  | var i => trivial
  | varAdj i t => trivial
  | const τ b => exact fun ix x hx => h x (hc ix x hx)
  | constSpec τ s =>
    cases s with
    | raw b => exact fun ix x hx => h x (hc ix x hx)
    | full s x => exact h _ hc
    | diagonal s x => exact h _ hc
  | constAdj n t ih => exact ih hc
  | cached n i ih => exact ih hc
  | add l r ihl ihr => exact ⟨ihl hc.1, ihr hc.2⟩
  | sub l r ihl ihr => exact ⟨ihl hc.1, ihr hc.2⟩
  | mul l r ihl ihr => exact ⟨ihl hc.1, ihr hc.2⟩
  | div l r ihl ihr => exact ⟨ihl hc.1, ihr hc.2⟩
  | power l r ihl ihr => exact ⟨ihl hc.1, ihr hc.2⟩
  | contract k l r ihl ihr => exact ⟨ihl hc.1, ihr hc.2⟩
  | sum n ih => exact ih hc
  | un op n ih => exact ih hc

/-- What is computed, whether in range or not. -/
theorem FnImpl.finite_spec (hv : Ranged val fin u lo hi) (h0 : 0 < θ) (h1 : θ ≤ 1)
    (d : FnImpl Γ e τ) (he : RingExpr e) (hr : FnImpl.Regular d) (c : Ctx F Γ) :
    Stays c d.fn.evaluate (fun b =>
      HoldsT (finiteJ val fin u lo θ) (roundings (ctxDims c) e) b
        (den (envOf (convCtx val c)) (conv val e))
        (den (envOf (convCtx (atLeast θ val) c)) (positive (atLeast θ val) e)) ∧
      Compat (envOf (convCtx val c)) (conv val e)) ∧
    Stays c d.fn.evaluateSpec (fun s =>
      HoldsT (finiteJ val fin u lo θ) (roundings (ctxDims c) e) s.unwrap
        (den (envOf (convCtx val c)) (conv val e))
        (den (envOf (convCtx (atLeast θ val) c)) (positive (atLeast θ val) e)) ∧
      Compat (envOf (convCtx val c)) (conv val e)) := by
  have := d.holds_spec (hv.calc_finite h0 h1) (Q := fun _ => True) (wt := atLeast θ val)
    (fun x _ => finiteJ_leaf h0 x) he hr c (envOf_conv_dims val c)
    (fun i b hb => holdsT_envOf c i b hb fun _ x _ => finiteJ_leaf h0 x)
    (ranges_unlimited (fun _ => trivial) he)
  rw [abs_atLeast h0] at this
  exact ⟨this.1, this.2.1⟩

/-- What is computed in range. -/
theorem FnImpl.ranged_spec (hv : Ranged val fin u lo hi) (h0 : 0 < θ) (h1 : θ ≤ 1)
    (d : FnImpl Γ e τ) (he : RingExpr e) (hr : FnImpl.Regular d) (c : Ctx F Γ) (hc : CtxAll fin c)
    (hR : Ranges fin (inRange u lo hi θ) False (ctxDims c) (envOf (convCtx (atLeast θ val) c))
      (atLeast θ val) e) :
    Stays c d.fn.evaluate (fun b =>
      HoldsT (rangedJ val fin u θ) (roundings (ctxDims c) e) b
        (den (envOf (convCtx val c)) (conv val e))
        (den (envOf (convCtx (atLeast θ val) c)) (positive (atLeast θ val) e)) ∧
      Compat (envOf (convCtx val c)) (conv val e)) ∧
    Stays c d.fn.evaluateSpec (fun s =>
      HoldsT (rangedJ val fin u θ) (roundings (ctxDims c) e) s.unwrap
        (den (envOf (convCtx val c)) (conv val e))
        (den (envOf (convCtx (atLeast θ val) c)) (positive (atLeast θ val) e)) ∧
      Compat (envOf (convCtx val c)) (conv val e)) := by
  have := d.holds_spec (hv.calc_ranged h0 h1) (Q := fin) (wt := atLeast θ val)
    (fun x hx => rangedJ_leaf h0 x hx) he hr c (envOf_conv_dims val c)
    (fun i b hb => holdsT_envOf c i b hb fun ix x hx => rangedJ_leaf h0 x (hc i b hb ix x hx))
    (by rw [abs_atLeast h0]; exact hR)
  rw [abs_atLeast h0] at this
  exact ⟨this.1, this.2.1⟩

omit [Zero F] [One F] [Add F] [Sub F] [Mul F] [Div F] [Neg F] [ScalarFns F] in
/-- Variables and constants of moderate size keep everything in range. -/
theorem ranges_of_moderate (hu : 0 ≤ u) (h0 : 0 < θ) (h1 : θ ≤ 1) (hB : 2 ≤ B) {K : ℕ}
    (hlo : lo ≤ θ ^ (K + 1)) (hhi : B ^ (K + 1) * (1 + u) ^ K ≤ hi) (he : RingExpr e) (c : Ctx F Γ)
    (hc : CtxAll (fun x => |val x| ≤ B) c) (he' : ConstsAll (fun x => fin x ∧ |val x| ≤ B) e)
    (hn : NonemptySums (ctxDims c) e) (hK : ∀ n, SubExpr n e → roundings (ctxDims c) n ≤ K) :
    Ranges fin (inRange u lo hi θ) False (ctxDims c) (envOf (convCtx (atLeast θ val) c))
      (atLeast θ val) e := by
  have hB0 : (0 : ℝ) ≤ B := by linarith
  have hat : ∀ x : F, |val x| ≤ B → 0 ≤ atLeast θ val x ∧ atLeast θ val x ≤ B := fun x hx =>
    ⟨h0.le.trans (le_max_left _ _), max_le (by linarith) hx⟩
  have hpow : ∀ k : ℕ, (0 : ℝ) < (1 + u) ^ k := fun k => pow_pos (by linarith) k
  refine ranges_of_bound (envOf_conv_dims _ c) hB (fun i => ?_) (K := K) (fun k m hk hm => ⟨?_, ?_⟩) he
    (he'.mono fun x hx => ⟨hx.1, ?_⟩) hn hK
  · unfold envOf convCtx
    cases hi : c i with
    | none => exact fun _ => ⟨le_refl _, hB0⟩
    | some b => exact within_ofBuf hB0 fun ix x hx => hat x (hc i b hi ix x hx)
  · exact hlo.trans (pow_le_pow_of_le_one h0.le h1 (by omega))
  · rw [le_div_iff₀ (hpow k)]
    have h2 : (0 : ℝ) ≤ B ^ (K + 1) := by positivity
    calc m * (1 + u) ^ k ≤ B ^ (K + 1) * (1 + u) ^ k := mul_le_mul_of_nonneg_right hm (hpow k).le
      _ ≤ B ^ (K + 1) * (1 + u) ^ K :=
        mul_le_mul_of_nonneg_left (pow_le_pow_right₀ (by linarith) hk) h2
      _ ≤ hi := hhi
  · rw [abs_of_nonneg (hat x hx.2).1]; exact (hat x hx.2).2

end

end Aegir
