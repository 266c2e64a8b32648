import Verif.Lemmas.Learning
import Verif.Lemmas.RoundingExpr
/-!
# One iteration of the linear regression example in rounded arithmetic
-/

namespace Aegir.Examples
open Aegir.Spec

variable {F : Type} [Zero F] [One F] [Add F] [Sub F] [Mul F] [Div F] [Neg F] [ScalarFns F]
variable {N : Nat} {val : F → ℝ} {u : ℝ}

/-- `near` through an operand that is itself only near. -/
theorem near_trans_sub {k l : ℕ} {g S M y t m c : ℝ} (hu : 0 ≤ u) (hS : |S| ≤ M)
    (hg : |g - c * (S - y)| ≤ ((1 + u) ^ k - 1) * (|c| * (M + |y|))) (hy : near u l y t m) :
    near u (k + l) g (c * (S - t)) (|c| * (M + m)) := by
  have hm := hy.mag
  have hM : 0 ≤ M := (abs_nonneg _).trans hS
  have hk : 1 ≤ (1 + u) ^ k := one_le_pow₀ (by linarith)
  have hl : 1 ≤ (1 + u) ^ l := one_le_pow₀ (by linarith)
  refine ⟨?_, ?_⟩
  · rw [abs_mul]
    refine mul_le_mul_of_nonneg_left ((abs_sub _ _).trans ?_) (abs_nonneg _)
    exact add_le_add hS hy.1
  · have h1 := hy.le_mag
    have h2 : |g - c * (S - t)| ≤ |g - c * (S - y)| + |c| * |y - t| := by
      rw [← abs_mul]
      refine le_trans (le_of_eq ?_) (abs_sub _ _)
      congr 1
      ring
    have h3 : ((1 + u) ^ k - 1) * (|c| * (M + |y|)) ≤
        ((1 + u) ^ k - 1) * (|c| * (M + (1 + u) ^ l * m)) := by
      have : 0 ≤ (1 + u) ^ k - 1 := by linarith
      gcongr
    have h4 : |c| * |y - t| ≤ |c| * (((1 + u) ^ l - 1) * m) :=
      mul_le_mul_of_nonneg_left hy.2 (abs_nonneg _)
    have h5 : ((1 + u) ^ k - 1) * (|c| * M) ≤ ((1 + u) ^ (k + l) - 1) * (|c| * M) := by
      have : (1 + u) ^ k ≤ (1 + u) ^ (k + l) := pow_le_pow_right₀ (by linarith) (by omega)
      have : 0 ≤ |c| * M := by positivity
      gcongr
    have h6 : (1 + u) ^ (k + l) = (1 + u) ^ k * (1 + u) ^ l := pow_add _ _ _
    have e : ((1 + u) ^ (k + l) - 1) * (|c| * (M + m)) =
      ((1 + u) ^ (k + l) - 1) * (|c| * M) +
        (((1 + u) ^ k - 1) * (|c| * ((1 + u) ^ l * m)) + |c| * (((1 + u) ^ l - 1) * m)) := by
      rw [h6]; ring
    have e2 : ((1 + u) ^ k - 1) * (|c| * (M + (1 + u) ^ l * m)) =
      ((1 + u) ^ k - 1) * (|c| * M) + ((1 + u) ^ k - 1) * (|c| * ((1 + u) ^ l * m)) := by ring
    linarith

omit [Div F] in
/-- A left fold of additions. -/
theorem near_foldl (hv : Rounding val u) {ι : Type} (f g : ι → F) (l : List ι) (acc : F) {k : ℕ}
    {a m : ℝ} (h : near u (k + 1) (val acc) a m) :
    near u (k + 1 + l.length) (val (l.foldl (fun acc i => acc + f i * g i) acc))
      (a + (l.map fun i => val (f i) * val (g i)).sum)
      (m + (l.map fun i => |val (f i)| * |val (g i)|).sum) := by
  induction l generalizing acc k a m with
  | nil => simpa using h
  | cons i l ih =>
    have h1 := hv.nmul (near.exact u (val (f i))) (near.exact u (val (g i)))
    have h2 := (hv.nadd h h1).mono (l := k + 1 + 1) hv.nonneg (by omega)
    have h3 := ih _ h2
    simp only [List.foldl_cons, List.map_cons, List.sum_cons, List.length_cons]
    rw [← add_assoc a, ← add_assoc m]
    refine near.mono hv.nonneg h3 ?_
    omega

omit [Div F] in
/-- The computed label. -/
theorem label_near (hv : Rounding val u) (x tw : NArr F [N]) :
    near u (N + 1) (val (label x tw)) (∑ i, val (x.elem i) * val (tw.elem i))
      (∑ i, |val (x.elem i)| * |val (tw.elem i)|) := by
  have h := near_foldl hv x.elem tw.elem (List.finRange N) 0 (k := 0)
    (hv.nzero.mono hv.nonneg (Nat.zero_le _))
  rw [List.length_finRange] at h
  simp only [zero_add] at h
  rw [← List.sum_ofFn, ← List.sum_ofFn, List.ofFn_eq_map, List.ofFn_eq_map]
  refine near.mono hv.nonneg h ?_
  omega

/-- The data with every scalar converted. -/
def convData (f : F → ℝ) (s : Data F N) : Data ℝ N :=
  ⟨NArr.map [N] s.x f, f s.y, NArr.map [N] s.w f⟩

omit [Zero F] [One F] [Add F] [Sub F] [Mul F] [Div F] [Neg F] [ScalarFns F] in
theorem convData_ctx (f : F → ℝ) (s : Data F N) : (convData f s).ctx = convCtx f s.ctx := by
  funext i
  match i with
  | 0 | 1 | 2 | _ + 3 => rfl

omit [Zero F] [One F] [Add F] [Sub F] [Mul F] [Div F] [Neg F] [ScalarFns F] in
theorem map_elem (f : F → ℝ) (a : NArr F [N]) (k : Fin N) : (NArr.map [N] a f).elem k = f (a.elem k) :=
  NArr.row_mkRows (ds := []) _ k

omit [Zero F] [One F] [Add F] [Sub F] [Mul F] [Div F] [Neg F] [ScalarFns F] in
theorem sse_regular : FnImpl.Regular (sseImpl (F := F) N) := by
  simp [sseImpl, FnImpl.Regular, types_X, types_Y, types_W]

omit [Zero F] [One F] [Add F] [Sub F] [Mul F] [Div F] [Neg F] [ScalarFns F] in
theorem roundings_sse (s : Data F N) : roundings (ctxDims s.ctx) (sseAdj : Node F) = 2 * N + 12 := by
  have hW : ctxDims s.ctx W = [N] := rfl
  simp [sseAdj, roundings, extents, hW]
  omega

omit [Zero F] [One F] [Add F] [Sub F] [Mul F] [Div F] [Neg F] [ScalarFns F] in
theorem positive_sse (s : Data ℝ N) : DenV s (positive val (sseAdj : Node F))
    fun k => 2 * (dotXW s + s.y) * s.x.elem k := by
  have hden : DenV s (positive val (sseAdj : Node F)) _ :=
    zip_sv (DenS.un (e := .add (.contract 1 (.var X) (.var W)) (.var Y))
      (zip_ss (den_dot s) (den_Y s)) .double)
      (zip_vv (den_dotAdj s) (den_yAdj s))
  refine ⟨hden.1, fun k => (hden.2 k).trans ?_⟩
  simp only [UnOp.apply]
  ring

omit [Zero F] [One F] [Add F] [Sub F] [Mul F] [Div F] [Neg F] [ScalarFns F] in
theorem exact_sse (s : Data ℝ N) : DenV s (conv val (sseAdj : Node F))
    fun k => 2 * (dotXW s - s.y) * s.x.elem k := by
  have hden : DenV s (conv val (sseAdj : Node F)) _ :=
    zip_sv (DenS.un (e := .sub (.contract 1 (.var X) (.var W)) (.var Y))
      (zip_ss (den_dot s) (den_Y s)) .double)
      (zip_vv (den_dotAdj s) (den_yAdj s))
  refine ⟨hden.1, fun k => (hden.2 k).trans ?_⟩
  simp only [UnOp.apply]
  ring

/-- The computation succeeds and leaves the context alone. -/
def Runs {Γ : Id → BTy} {α : Type} (m : EvalM F Γ α) (c : Ctx F Γ) : Prop := ∃ r, m c = (.ok r, c)

omit [Zero F] [One F] [Add F] [Sub F] [Mul F] [Div F] [Neg F] [ScalarFns F] in
theorem Runs.binM {Γ : Id → BTy} {α β γ : Type} {m : EvalM F Γ α} {n : EvalM F Γ β}
    {k : α → β → Res IncShapes γ} {c : Ctx F Γ} (hm : Runs m c) (hn : Runs n c)
    (hk : ∀ a b, m c = (.ok a, c) → n c = (.ok b, c) → ∃ r, k a b = .ok r) : Runs (binM m n k) c := by
  obtain ⟨a, ha⟩ := hm
  obtain ⟨b, hb⟩ := hn
  obtain ⟨r, hr⟩ := hk a b ha hb
  refine ⟨r, ?_⟩
  simp [Aegir.binM, EvalM.bind, EvalM.mapErr, ha, hb, hr, Res.mapErr, EvalM.lift]

omit [Zero F] [One F] [Add F] [Sub F] [Mul F] [Div F] [Neg F] [ScalarFns F] in
theorem Runs.map {Γ : Id → BTy} {α β : Type} {m : EvalM F Γ α} {c : Ctx F Γ} (hm : Runs m c)
    (f : α → β) : Runs (m.map f) c := by
  obtain ⟨a, ha⟩ := hm
  exact ⟨f a, by simp [EvalM.map, ha, Res.map]⟩

omit [One F] [Sub F] [Div F] [Neg F] in
theorem contract_dot (n : Nat) (x y : NArr F [n]) :
    ∃ r, BSpec.contract (.dot n) (.raw x) (.raw y) = .ok r := by
  simp only [BSpec.contract]
  exact denseContract_ok (.dot n) (.raw x) (.raw y) trivial

omit [One F] [Sub F] [Div F] [Neg F] in
theorem contract_raw_left (n : Nat) (x : NArr F [n]) (y : BSpec F (.array [n, n])) :
    ∃ r, BSpec.contract (.vm n n) (.raw x) y = .ok r := by
  cases y <;> simp only [BSpec.contract] <;>
    first
      | exact denseContract_ok _ _ _ (le_refl n)
      | exact ⟨_, rfl⟩
      | (split <;> first | exact denseContract_ok _ _ _ (le_refl n) | exact ⟨_, rfl⟩)

omit [One F] [Sub F] [Div F] [Neg F] in
theorem contract_raw_right (n : Nat) (x : BSpec F (.array [n, n])) (y : NArr F [n]) :
    ∃ r, BSpec.contract (.mv n n) x (.raw y) = .ok r := by
  cases x <;> simp only [BSpec.contract] <;>
    first
      | exact denseContract_ok _ _ _ (le_refl n)
      | exact ⟨_, rfl⟩
      | (split <;> first | exact denseContract_ok _ _ _ (le_refl n) | exact ⟨_, rfl⟩)

theorem sse_total (s : Data F N) : ∃ g : NArr F [N], ((sseImpl N).evaluate s.ctx).1 = .ok g := by
  have hX : (FnImpl.var (F := F) (Γ := types N) X).fn.evaluateSpec s.ctx = (.ok (.raw s.x), s.ctx) := rfl
  have hW : (FnImpl.var (F := F) (Γ := types N) W).fn.evaluateSpec s.ctx = (.ok (.raw s.w), s.ctx) := rfl
  have hY : (FnImpl.var (F := F) (Γ := types N) Y).fn.evaluateSpec s.ctx = (.ok (.raw s.y), s.ctx) := rfl
  have zipok : ∀ {a b c : BTy} (z : ZipImpl a b c) {k : BSpec F a → BSpec F b → Res IncShapes (BSpec F c)}
      (_ : ∀ x y, FollowsShape (k x y) (z.broadcast x.shape y.shape)) (_ : a ≠ .vec) (_ : b ≠ .vec)
      (x : BSpec F a) (y : BSpec F b), ∃ r, k x y = .ok r := fun z k hk ha hb x y => by
    obtain ⟨s, hs⟩ := broadcast_fixed z ha x.shape y.shape hb
    obtain ⟨t, ht, _⟩ := (hk x y).of_ok hs
    exact ⟨t, ht⟩
  have h1 : Runs (FnImpl.contract (.var (F := F) (Γ := types N) X) (.var (Γ := types N) W) (.dot N)).fn.evaluateSpec s.ctx := by
    refine Runs.binM ⟨_, hX⟩ ⟨_, hW⟩ fun a b ha hb => ?_
    rw [hX] at ha; cases ha
    rw [hW] at hb; cases hb
    exact contract_dot N _ _
  have hW2 : Runs (FnImpl.varAdj (F := F) (Γ := types N) W W (.aa [N] [N] (by simp))
      (by simp [types, BTy.rank])).fn.evaluateSpec s.ctx := ⟨_, rfl⟩
  have hX2 : Runs (FnImpl.varAdj (F := F) (Γ := types N) X W (.aa [N] [N] (by simp))
      (by simp [types, BTy.rank])).fn.evaluateSpec s.ctx := ⟨_, rfl⟩
  have hY2 : Runs (FnImpl.varAdj (F := F) (Γ := types N) Y W (.sa [N])
      (by simp [types, BTy.rank])).fn.evaluateSpec s.ctx := ⟨_, rfl⟩
  have h2 : Runs (FnImpl.contract (.var (F := F) (Γ := types N) X)
        (.varAdj W W (.aa [N] [N] (by simp)) (by simp [types, BTy.rank])) (.vm N N)).fn.evaluateSpec s.ctx := by
    refine Runs.binM ⟨_, hX⟩ hW2 fun a b ha hb => ?_
    rw [hX] at ha; cases ha
    exact contract_raw_left N _ _
  have h3 : Runs (FnImpl.contract
        (.varAdj X W (.aa [N] [N] (by simp)) (by simp [types, BTy.rank]))
        (.var (F := F) (Γ := types N) W) (.mv N N)).fn.evaluateSpec s.ctx := by
    refine Runs.binM hX2 ⟨_, hW⟩ fun a b ha hb => ?_
    rw [hW] at hb; cases hb
    exact contract_raw_right N _ _
  have h4 : Runs (FnImpl.un (F := F) (Γ := types N) .double (.sub (.contract (.var (Γ := types N) X)
      (.var (Γ := types N) W) (.dot N)) (.var (Γ := types N) Y) .ss)).fn.evaluateSpec s.ctx := by
    exact (Runs.binM (k := subSpec .ss) h1 ⟨_, hY⟩ fun a b _ _ =>
      zipok .ss (subSpec_follows _) (by simp) (by simp) a b).map _
  have h5 : Runs (sseImpl N).fn.evaluate s.ctx :=
    (Runs.binM (k := mulSpec (.sa [N])) h4
    (Runs.binM (k := subSpec (.aa [N])) (Runs.binM (k := addSpec (.aa [N])) h2 h3 fun a b _ _ =>
      zipok (.aa [N]) (addSpec_follows _) (by simp) (by simp) a b) hY2 fun a b _ _ =>
      zipok (.aa [N]) (subSpec_follows _) (by simp) (by simp) a b) fun a b _ _ =>
      zipok (.sa [N]) (mulSpec_follows _) (by simp) (by simp) a b).map _
  obtain ⟨r, hr⟩ := h5
  exact ⟨r, by rw [FnImpl.evaluate, hr]⟩
/-- The computed gradient. -/
theorem sse_near (hv : Rounding val u) (s : Data F N) {g : NArr F [N]}
    (h : ((sseImpl N).evaluate s.ctx).1 = .ok g) (k : Fin N) :
    |val (g.elem k) - 2 * (∑ i, val (s.x.elem i) * val (s.w.elem i) - val s.y) * val (s.x.elem k)| ≤
      ((1 + u) ^ (2 * N + 12) - 1) *
        (2 * (∑ i, |val (s.x.elem i)| * |val (s.w.elem i)| + |val s.y|) * |val (s.x.elem k)|) := by
  have he : RingExpr (sseAdj : Node F) := by simp [RingExpr, sseAdj]
  have hn := (((sseImpl (F := F) N).near_spec hv he sse_regular s.ctx (envOf_conv_dims val s.ctx)
    (σ := envOf (convCtx (fun x => |val x|) s.ctx)) (nearT_envOf s.ctx)).1.2 g h).1
  rw [roundings_sse, ← convData_ctx, ← convData_ctx] at hn
  have h1 := exact_sse (F := F) (val := val) (convData val s)
  have h2 := positive_sse (F := F) (val := val) (convData (fun x => |val x|) s)
  obtain ⟨x, hx, hb⟩ := hn.2.2 [k.val] (by rw [h1.1]; exact .cons k.2 .nil)
  rw [show Buf.getU (.array [N]) g [k] = _ from NArr.getU_elem g k k.2, Option.some_inj] at hx
  subst hx
  rw [h1.2, h2.2] at hb
  have := hb.2
  simp only [dotXW, convData, map_elem] at this
  exact this

/-- One iteration: it never panics, and the computed weights are those of a step of gradient descent up
to `3 N + 15` roundings. -/
theorem linearStep_near (hv : Rounding val u)
    (η : F) (tw : NArr F [N]) (s : Data F N) (x : NArr F [N]) :
    ∃ s', linearStep η tw s x = .ok s' ∧ ∀ k,
      |val (s'.w.elem k) - lmsStep (val η) (fun i => val (tw.elem i)) (fun i => val (s.w.elem i))
          (fun i => val (x.elem i)) k| ≤
        ((1 + u) ^ (3 * N + 15) - 1) * (|val (s.w.elem k)| + |val η| * (2 *
          (∑ i, |val (x.elem i)| * |val (s.w.elem i)| + ∑ i, |val (x.elem i)| * |val (tw.elem i)|) *
            |val (x.elem k)|)) := by
  obtain ⟨g, hg⟩ := sse_total (⟨x, label x tw, s.w⟩ : Data F N)
  refine ⟨⟨x, label x tw, update (fun w g => w - η * g) s.w g⟩, ?_, fun k => ?_⟩
  · simp only [linearStep]
    rw [hg]
    rfl
  · have h1 := sse_near hv _ hg k
    have h2 := label_near hv x tw
    have hS : |∑ i, val (x.elem i) * val (s.w.elem i)| ≤ ∑ i, |val (x.elem i)| * |val (s.w.elem i)| :=
      (Finset.abs_sum_le_sum_abs _ _).trans (le_of_eq (Finset.sum_congr rfl fun i _ => abs_mul _ _))
    have h3 := near_trans_sub (c := 2 * val (x.elem k)) hv.nonneg hS (k := 2 * N + 12)
      (g := val (g.elem k)) (by
        rw [abs_mul, abs_two]
        refine le_trans (le_of_eq ?_) (le_trans h1 (le_of_eq ?_))
        · congr 1; ring
        · ring) h2
    have h4 := hv.nmul (near.exact u (val η)) h3
    have h5 := (hv.nsub (near.exact u (val (s.w.elem k))) h4).mono (l := 3 * N + 15) hv.nonneg
      (by omega)
    show |val ((update (fun w g => w - η * g) s.w g).elem k) - _| ≤ _
    rw [update_elem]
    refine le_trans (le_of_eq ?_) (le_trans h5.2 (le_of_eq ?_))
    · congr 1
      simp only [lmsStep, err, inner']
      ring
    · rw [abs_mul, abs_two]
      ring

/-! ### Lengths -/

/-- The length of a vector. -/
noncomputable def len (a : Fin N → ℝ) : ℝ := √(inner' a a)

theorem len_nonneg (a : Fin N → ℝ) : 0 ≤ len a := Real.sqrt_nonneg _

theorem len_sq (a : Fin N → ℝ) : len a ^ 2 = inner' a a := Real.sq_sqrt (inner_self_nonneg' a)

theorem inner_le_len (a b : Fin N → ℝ) : inner' a b ≤ len a * len b := by
  refine le_trans (le_abs_self _) (Real.abs_le_sqrt (inner_sq_le a b) |>.trans (le_of_eq ?_))
  exact Real.sqrt_mul (inner_self_nonneg' a) _

theorem len_add_le (a b : Fin N → ℝ) : len (fun i => a i + b i) ≤ len a + len b := by
  have h : inner' (fun i => a i + b i) (fun i => a i + b i) =
      inner' a a + 2 * inner' a b + inner' b b := by
    simp only [inner', Finset.mul_sum, ← Finset.sum_add_distrib]
    exact Finset.sum_congr rfl fun i _ => by ring
  refine Real.sqrt_le_iff.2 ⟨add_nonneg (len_nonneg _) (len_nonneg _), ?_⟩
  rw [h, add_sq, len_sq, len_sq]
  nlinarith [inner_le_len a b]

theorem len_mono {a b : Fin N → ℝ} (h : ∀ i, |a i| ≤ b i) : len a ≤ len b :=
  Real.sqrt_le_sqrt (Finset.sum_le_sum fun i _ => by
    rw [← abs_mul_abs_self (a i)]
    exact mul_self_le_mul_self (abs_nonneg _) (h i))

theorem len_abs (a : Fin N → ℝ) : len (fun i => |a i|) = len a := by
  simp [len, inner', abs_mul_abs_self]

theorem len_smul {c : ℝ} (hc : 0 ≤ c) (a : Fin N → ℝ) : len (fun i => c * a i) = c * len a := by
  have h : inner' (fun i => c * a i) (fun i => c * a i) = c ^ 2 * inner' a a := by
    simp only [inner', Finset.mul_sum]
    exact Finset.sum_congr rfl fun i _ => by ring
  rw [len, h, Real.sqrt_mul (sq_nonneg c), Real.sqrt_sq hc, len]

theorem dist_eq_len (w tw : Fin N → ℝ) : √(dist2 w tw) = len fun i => w i - tw i := by
  rw [len, dist2_eq]

/-- The distance after a step whose result is perturbed as in `linearStep_near`. -/
theorem perturbed_step {h r γ : ℝ} (hh : 0 ≤ h) (hγ : 0 ≤ γ) {tw w x w' : Fin N → ℝ}
    (hx : h * inner' x x ≤ r)
    (hw : ∀ k, |w' k - lmsStep h tw w x k| ≤ γ * (|w k| + |h| * (2 *
      (∑ i, |x i| * |w i| + ∑ i, |x i| * |tw i|) * |x k|))) :
    √(dist2 w' tw) ≤ √(dist2 (lmsStep h tw w x) tw) +
      γ * ((1 + 2 * r) * √(dist2 w tw) + (1 + 4 * r) * √(inner' tw tw)) := by
  have hT : √(inner' tw tw) = len tw := rfl
  rw [dist_eq_len, dist_eq_len, dist_eq_len, hT]
  set d := len fun i => w i - tw i with hd
  have hd0 : 0 ≤ d := len_nonneg _
  have ht0 : 0 ≤ len tw := len_nonneg _
  have hwl : len w ≤ d + len tw := by
    have := len_add_le (fun i => w i - tw i) tw
    simpa using this
  have hr : 0 ≤ r := le_trans (mul_nonneg hh (inner_self_nonneg' x)) hx
  have h1 : len (fun i => w' i - tw i) ≤ len (fun i => lmsStep h tw w x i - tw i) +
      len fun i => w' i - lmsStep h tw w x i := by
    refine le_trans (le_of_eq ?_) (len_add_le _ _)
    congr 1
    funext i
    ring
  refine le_trans h1 (add_le_add_right ?_ _)
  refine le_trans (len_mono hw) ?_
  rw [len_smul hγ]
  refine mul_le_mul_of_nonneg_left ?_ hγ
  refine le_trans (len_add_le _ _) ?_
  rw [len_abs, abs_of_nonneg hh]
  have hs1 : ∑ i, |x i| * |w i| ≤ len x * len w := by
    have := inner_le_len (fun i => |x i|) (fun i => |w i|)
    rwa [len_abs, len_abs] at this
  have hs2 : ∑ i, |x i| * |tw i| ≤ len x * len tw := by
    have := inner_le_len (fun i => |x i|) (fun i => |tw i|)
    rwa [len_abs, len_abs] at this
  set S := ∑ i, |x i| * |w i| + ∑ i, |x i| * |tw i| with hS
  have hS0 : 0 ≤ S := add_nonneg (Finset.sum_nonneg fun _ _ => by positivity)
    (Finset.sum_nonneg fun _ _ => by positivity)
  have h2 : (fun k => h * (2 * S * |x k|)) = fun k => (h * (2 * S)) * |x k| := by
    funext k; ring
  rw [h2, len_smul (by positivity), len_abs]
  have hx0 := len_nonneg x
  have h3 : h * (2 * S) * len x ≤ 2 * (h * len x ^ 2) * (len w + len tw) := by
    have : S ≤ len x * (len w + len tw) := by rw [mul_add]; linarith
    calc h * (2 * S) * len x ≤ h * (2 * (len x * (len w + len tw))) * len x := by gcongr
      _ = _ := by ring
  rw [len_sq] at h3
  have h4 : 2 * (h * inner' x x) * (len w + len tw) ≤ 2 * r * (d + len tw + len tw) := by
    have := len_nonneg w
    gcongr
  nlinarith

end Aegir.Examples
