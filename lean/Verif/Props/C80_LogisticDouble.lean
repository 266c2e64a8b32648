import Verif.Lemmas.LogisticFloat
import Verif.Props.C78_LinearDouble
/-!
# C80: the logistic regression example (`aegir/examples/logistic.rs`) in IEEE arithmetic

C54 and C79 compute with reals. Here every operation rounds, results may overflow or underflow, and
zero divided by zero is a NaN. As long as the log-odds stay moderate the program does what it does in
exact arithmetic, up to rounding; beyond that it does not.
-/

namespace Aegir.Examples

open Aegir.Spec

variable {F : Type} [Zero F] [One F] [Add F] [Sub F] [Mul F] [Div F] [Neg F] [ScalarFns F]
variable {N : Nat} {val : F → ℝ} {fin : F → Prop} {u v lo hi : ℝ}

/-! ### The pieces -/

/-- `ops::sigmoid` maps every finite number to a number between zero and one, and is off by at most
three roundings and the error of the exponential function. -/
theorem C80_sigmoid (hv : RangedExp val fin u v lo hi) (hlo : lo ≤ 1) {x : F} (hx : fin x) :
    fin (sigmoid x) ∧ 0 ≤ val (sigmoid x) ∧ val (sigmoid x) ≤ 1 ∧
      |val (sigmoid x) - 1 / (1 + Real.exp (-val x))| ≤ v + 3 * u :=
  sigmoid_float hv hlo hx

/-- `rng.gen_bool(ops::sigmoid(yy))` never panics for finite `yy`. -/
theorem C80_gen_bool (hv : RangedExp val fin u v lo hi) (hlo : lo ≤ 1) {yy : F} (hy : fin yy) (b : Bool) :
    genBool (sigmoid yy) b = .ok b := by
  obtain ⟨f, h0, h1, -⟩ := C80_sigmoid hv hlo hy
  obtain ⟨f1, e1⟩ := hv.one
  obtain ⟨f0, e0⟩ := hv.zero
  rw [genBool, if_pos]
  rw [Bool.and_eq_true]
  exact ⟨(hv.le _ _ f0 f).2 (by rw [e0]; exact h0), (hv.le _ _ f f1).2 (by rw [e1]; exact h1)⟩

/-- In IEEE arithmetic it panics exactly if `yy` is NaN; infinite log-odds give the probabilities zero and
one. -/
theorem C80_gen_bool_iff {p q E : ℕ} (hp : 1 ≤ p) (hlo : (2 : ℝ) ^ (p - q : ℤ) ≤ 1) (yy : Fp p q E) (b : Bool) :
    (yy = .nan → genBool (sigmoid yy) b = .panic) ∧ (yy ≠ .nan → genBool (sigmoid yy) b = .ok b) := by
  have hv := Fp.rangedExp (p := p) (q := q) (E := E) hp
  obtain ⟨f0, e0⟩ := hv.zero
  obtain ⟨f1, e1⟩ := hv.one
  cases yy with
  | num x h => exact ⟨(fun h => by cases h), fun _ => C80_gen_bool hv hlo (yy := .num x h) trivial b⟩
  | nan => exact ⟨fun _ => rfl, fun h => absurd rfl h⟩
  | inf s =>
    refine ⟨(fun h => by cases h), fun _ => ?_⟩
    have h2 := hv.two_le
    obtain ⟨fd, ed⟩ := exact_add hv f1 f0 f1 (by rw [e1, e0, add_zero]) (by rw [e1, abs_one]; linarith)
    rw [e1] at ed
    have key : ∀ a : Fp p q E, a.Finite → 0 ≤ a.val → a.val ≤ 1 → genBool (a / (1 + 0)) b = .ok b := fun a fa a0 a1 => by
      obtain ⟨fq, -, hk⟩ := hv.div a (1 + 0) fa fd (by rw [ed]; exact one_ne_zero) (by
        rw [ed, div_one, abs_of_nonneg a0]; linarith)
      rw [ed, div_one] at hk
      have h0 := (hk 0 f0).1 (by rw [e0]; exact a0)
      have h1 := (hk 1 f1).2 (by rw [e1]; exact a1)
      rw [genBool, if_pos]
      rw [Bool.and_eq_true]
      exact ⟨(hv.le _ _ f0 fq).2 h0, (hv.le _ _ fq f1).2 h1⟩
    cases s with
    | true => exact key 0 f0 e0.ge (e0.trans_le zero_le_one)
    | false => exact key 1 f1 (zero_le_one.trans e1.ge) e1.le

/-- Infinite log-odds, and infinity minus infinity. -/
example (b : Bool) : genBool (sigmoid (.inf true : Fp 52 1074 971)) b = .ok b ∧
    genBool (sigmoid (.inf true - .inf true : Fp 52 1074 971)) b = .panic := by
  have hlo : (2 : ℝ) ^ ((52 : ℕ) - (1074 : ℕ) : ℤ) ≤ 1 := zpow_le_one_of_nonpos₀ (by norm_num) (by norm_num)
  exact ⟨(C80_gen_bool_iff (by norm_num) hlo _ b).2 (fun h => by cases h),
    (C80_gen_bool_iff (by norm_num) hlo _ b).1 (if_pos rfl)⟩

/-- The sizes for which the analysis holds: weights of absolute value up to `Y` and log-odds up to `Z`,
which must not be so large that the smaller probability drowns in rounding errors. -/
structure LogisticSizes (N : ℕ) (u v lo hi Y Z : ℝ) : Prop where
  lo_le : lo ≤ 1
  u_le : u ≤ 1 / 3
  one_le : 1 ≤ Y
  odds : 2 * lo + v + 3 * u < Real.exp (-Z) / 2
  dot : (1 + u) ^ (N + 1) * (N * Y) ≤ hi
  weight : Y + 3 ≤ hi

/-- The computed gradient: all its entries are numbers, and differ from the exact gradient of the
log-likelihood by ten roundings and a quarter of what the inner product lost. -/
theorem C80_gradient (hv : RangedExp val fin u v lo hi) {Y Z : ℝ} (hs : LogisticSizes N u v lo hi Y Z)
    {x w : NArr F [N]} (hx : ∀ i, fin (x.elem i) ∧ |vals val x i| ≤ 1)
    (hw : ∀ i, fin (w.elem i) ∧ |vals val w i| ≤ Y)
    (hz : |prod' (vals val x) (vals val w)| + dotErr N u Y ≤ Z) (b : Bool) : ∃ g : NArr F [N],
    ((likelihoodImpl N).evaluate (Data.ctx ⟨x, if b then 1 else 0, w⟩)).1 = .ok g ∧
      ∀ k, fin (g.elem k) ∧
        |val (g.elem k) - ((if b then 1 else 0) - logistic (prod' (vals val x) (vals val w))) * vals val x k| ≤
          v + 9 * u + dotErr N u Y / 4 := by
  obtain ⟨f0, e0⟩ := hv.zero
  have hn0 := (hv.neg 0)
  obtain ⟨g, hg, h⟩ := likelihood_op (hv.zero_of 0 f0 e0)
    (hv.zero_of (-0) (hn0.1.2 f0) (by rw [hn0.2 f0, e0, neg_zero])) ⟨x, if b then 1 else 0, w⟩
  refine ⟨g, hg, fun k => ?_⟩
  obtain ⟨fl, hl⟩ := dot_float hv (hs.lo_le.trans hs.one_le) hx hw hs.dot
  have hlZ : |val (label x w)| ≤ Z := by
    have := abs_sub_abs_le_abs_sub (val (label x w)) (prod' (vals val x) (vals val w))
    linarith
  obtain ⟨fg, hg'⟩ := gradient_float hv hs.lo_le hs.u_le hs.odds fl hlZ (hx k).1 (hx k).2 b
  rw [h]
  refine ⟨fg, ?_⟩
  set c : ℝ := if b then 1 else 0
  have h1 : |(c - logistic (val (label x w))) * val (x.elem k) -
      (c - logistic (prod' (vals val x) (vals val w))) * vals val x k| ≤ dotErr N u Y / 4 := by
    rw [show (c - logistic (val (label x w))) * val (x.elem k) -
      (c - logistic (prod' (vals val x) (vals val w))) * vals val x k =
      vals val x k * (logistic (prod' (vals val x) (vals val w)) - logistic (val (label x w))) by
        simp only [vals]; ring]
    refine mul_small (hx k).2 ?_
    have h2 := abs_logistic_sub (prod' (vals val x) (vals val w)) (val (label x w))
    rw [abs_sub_comm] at hl
    linarith
  have := abs_add_le (val (gradEntry (label x w) (if b then 1 else 0) (x.elem k)) -
    (c - logistic (val (label x w))) * val (x.elem k))
    ((c - logistic (val (label x w))) * val (x.elem k) -
      (c - logistic (prod' (vals val x) (vals val w))) * vals val x k)
  rw [sub_add_sub_cancel] at this
  exact this.trans (by linarith)

/-- What one iteration may add to the error of a weight. -/
noncomputable def stepErr (N : ℕ) (u v η Y : ℝ) : ℝ :=
  η * (v + 9 * u + dotErr N u Y / 4) + u * (Y + 5)

/-- One iteration, as long as weights and log-odds are moderate: it never panics, all weights remain
numbers, and each is the one that a step of gradient ascent in exact arithmetic takes it to, up to
rounding. -/
theorem C80_step (hv : RangedExp val fin u v lo hi) {Y Z : ℝ} (hs : LogisticSizes N u v lo hi Y Z)
    {η : F} (hη : fin η ∧ 0 ≤ val η ∧ val η ≤ 1) {tw : NArr F [N]}
    (ht : ∀ i, fin (tw.elem i) ∧ |vals val tw i| ≤ Y) {s : Data F N}
    (hw : ∀ i, fin (s.w.elem i) ∧ |vals val s.w i| ≤ Y) {x : NArr F [N]}
    (hx : ∀ i, fin (x.elem i) ∧ |vals val x i| ≤ 1)
    (hz : |prod' (vals val x) (vals val s.w)| + dotErr N u Y ≤ Z) (hg1 : v + 9 * u + dotErr N u Y / 4 ≤ 1)
    (b : Bool) :
    ∃ s', logisticStep η tw s (x, b) = .ok s' ∧ ∀ k, fin (s'.w.elem k) ∧
      |vals val s'.w k - ascent (val η) (vals val s.w) (vals val x) b k| ≤ stepErr N u v (val η) Y := by
  obtain ⟨g, hg, h⟩ := C80_gradient hv hs hx hw hz b
  have hlab := dot_float hv (hs.lo_le.trans hs.one_le) hx ht hs.dot
  refine ⟨⟨x, if b then 1 else 0, update (fun w g => w + η * g) s.w g⟩, ?_, fun k => ?_⟩
  · simp only [logisticStep, C80_gen_bool hv hs.lo_le hlab.1, Res.bind]
    rw [hg]
    rfl
  · obtain ⟨fg, hk⟩ := h k
    have hu := hv.nonneg
    have hlo := hs.lo_le
    have h2 := hv.two_le
    set ε := v + 9 * u + dotErr N u Y / 4 with hε
    set t : ℝ := (if b then 1 else 0) - logistic (prod' (vals val x) (vals val s.w)) with htd
    have ht1 : |t| ≤ 1 := by
      have := logistic_range (prod' (vals val x) (vals val s.w))
      rw [htd, abs_le]
      cases b <;> simp only [Bool.false_eq_true, if_false, if_true] <;> constructor <;> linarith
    have htx : |t * vals val x k| ≤ 1 := mul_small ht1 (hx k).2
    have hgle : |val (g.elem k)| ≤ 2 := by
      have := abs_sub_abs_le_abs_sub (val (g.elem k)) (t * vals val x k)
      linarith
    have hηg : |val η * val (g.elem k)| ≤ 2 := mul_small (by rw [abs_of_nonneg hη.2.1]; exact hη.2.2) hgle
    have fm : fin (η * g.elem k) := hv.mul_fin _ _ hη.1 fg (hηg.trans h2)
    have hm : |val (η * g.elem k) - val η * val (g.elem k)| ≤ u * 2 := (hv.mul _ _ fm).2.2.1.trans
      (mul_le_mul_of_nonneg_left (max_le hηg (by linarith)) hu)
    have hu3 := hs.u_le
    have hm3 : |val (η * g.elem k)| ≤ 3 := by
      have := abs_sub_abs_le_abs_sub (val (η * g.elem k)) (val η * val (g.elem k))
      linarith
    have hsum : |val (s.w.elem k) + val (η * g.elem k)| ≤ Y + 3 := (abs_add_le _ _).trans
      (add_le_add (hw k).2 hm3)
    have fs : fin (s.w.elem k + η * g.elem k) := hv.add_fin _ _ (hw k).1 fm (hsum.trans hs.weight)
    have hs' := (hv.add _ _ fs).2.2
    have e : (update (fun w g => w + η * g) s.w g).elem k = s.w.elem k + η * g.elem k := update_elem _ _ _ k
    simp only [vals]
    rw [e]
    refine ⟨fs, ?_⟩
    have h3 : |val (s.w.elem k + η * g.elem k) - (val (s.w.elem k) + val (η * g.elem k))| ≤ u * (Y + 3) :=
      hs'.trans (mul_le_mul_of_nonneg_left hsum hu)
    have h4 : |val η * (val (g.elem k) - t * vals val x k)| ≤ val η * ε := by
      rw [abs_mul, abs_of_nonneg hη.2.1]
      exact mul_le_mul_of_nonneg_left hk hη.2.1
    have h5 : val (s.w.elem k + η * g.elem k) - ascent (val η) (vals val s.w) (vals val x) b k =
        (val (s.w.elem k + η * g.elem k) - (val (s.w.elem k) + val (η * g.elem k))) +
        ((val (η * g.elem k) - val η * val (g.elem k)) + val η * (val (g.elem k) - t * vals val x k)) := by
      simp only [ascent, vals, htd]; ring
    change |val (s.w.elem k + η * g.elem k) - ascent (val η) (vals val s.w) (vals val x) b k| ≤ _
    rw [h5]
    refine (abs_add_le _ _).trans ?_
    have h6 := abs_add_le (val (η * g.elem k) - val η * val (g.elem k)) (val η * (val (g.elem k) - t * vals val x k))
    unfold stepErr
    rw [← hε]
    linarith

/-! ### Runs -/

/-- Steps of gradient ascent on the same sample do not lead apart. -/
theorem ascent_nonexpansive {η : ℝ} (hη : 0 ≤ η) {x : Fin N → ℝ} (hx : η * prod' x x ≤ 8)
    (a c : Fin N → ℝ) (b : Bool) :
    sqDist (ascent η a x b) (ascent η c x b) ≤ sqDist a c := by
  have h1 := sq_le_gap (prod' x a) (prod' x c)
  have e : sqDist (ascent η a x b) (ascent η c x b) = sqDist a c -
      2 * η * gap (prod' x a) (prod' x c) +
      η ^ 2 * (logistic (prod' x a) - logistic (prod' x c)) ^ 2 * prod' x x := by
    have hd : prod' x a - prod' x c = ∑ i, x i * (a i - c i) := by
      simp only [prod', ← Finset.sum_sub_distrib, mul_sub]
    rw [gap, hd]
    set s := logistic (prod' x a) - logistic (prod' x c) with hs
    simp only [sqDist, prod', Finset.mul_sum, ← Finset.sum_sub_distrib, ← Finset.sum_add_distrib]
    refine Finset.sum_congr rfl fun i _ => ?_
    simp only [ascent]
    rw [show a i + η * (((if b then 1 else 0) - logistic (prod' x a)) * x i) -
      (c i + η * (((if b then 1 else 0) - logistic (prod' x c)) * x i)) = (a i - c i) - η * s * x i by
        rw [hs]; ring]
    ring
  rw [e]
  have h2 : η ^ 2 * (logistic (prod' x a) - logistic (prod' x c)) ^ 2 * prod' x x ≤
      8 * η * (logistic (prod' x a) - logistic (prod' x c)) ^ 2 := by
    have := mul_le_mul_of_nonneg_right hx (mul_nonneg hη (sq_nonneg (logistic (prod' x a) - logistic (prod' x c))))
    nlinarith
  nlinarith

/-- Along gradient ascent in exact arithmetic, weights stay below `Y` and log-odds below `Z`. -/
def Moderate (η Y Z : ℝ) : (Fin N → ℝ) → List ((Fin N → ℝ) × Bool) → Prop
  | _, [] => True
  | w, (x, b) :: ds => (∀ i, |w i| ≤ Y) ∧ |prod' x w| ≤ Z ∧ Moderate η Y Z (ascent η w x b) ds

omit [Zero F] [One F] [Add F] [Sub F] [Mul F] [Div F] [Neg F] [ScalarFns F] in
theorem prod_self_le {x : NArr F [N]} (hx : ∀ i, |vals val x i| ≤ 1) :
    prod' (vals val x) (vals val x) ≤ N := by
  have : ∀ i ∈ Finset.univ, vals val x i * vals val x i ≤ 1 := fun i _ => by
    rw [← abs_mul_abs_self]; nlinarith [hx i, abs_nonneg (vals val x i)]
  refine (Finset.sum_le_sum this).trans ?_
  simp

theorem run_float (hv : RangedExp val fin u v lo hi) {Y Z : ℝ} (hs : LogisticSizes N u v lo hi Y Z)
    {η : F} (hη : fin η ∧ 0 ≤ val η ∧ val η ≤ 1) (hηN : val η * N ≤ 8) {tw : NArr F [N]}
    (ht : ∀ i, fin (tw.elem i) ∧ |vals val tw i| ≤ Y) (hg1 : v + 9 * u + dotErr N u Y / 4 ≤ 1)
    {Y₀ Z₀ m : ℝ} (hY : Y₀ + m ≤ Y) (hZ : Z₀ + √N * m + dotErr N u Y ≤ Z)
    (ds : List (NArr F [N] × Bool)) (hx : ∀ d ∈ ds, ∀ i, fin (d.1.elem i) ∧ |vals val d.1 i| ≤ 1) :
    ∀ (s : Data F N) (w : Fin N → ℝ), (∀ i, fin (s.w.elem i)) →
      Moderate (val η) Y₀ Z₀ w (ds.map fun d => (vals val d.1, d.2)) →
      √(sqDist (vals val s.w) w) + ds.length * (√N * stepErr N u v (val η) Y) ≤ m →
      ∃ s', logisticRun η tw s ds = .ok s' ∧ (∀ i, fin (s'.w.elem i)) ∧
        √(sqDist (vals val s'.w) (ascents (val η) w (ds.map fun d => (vals val d.1, d.2)))) ≤
          √(sqDist (vals val s.w) w) + ds.length * (√N * stepErr N u v (val η) Y) := by
  have hu := hv.nonneg
  have hD : 0 ≤ dotErr N u Y := by
    have : 1 ≤ (1 + u) ^ (N + 1) := one_le_pow₀ (by linarith)
    have := hs.one_le
    unfold dotErr
    exact mul_nonneg (by linarith) (by positivity)
  have hβ : 0 ≤ stepErr N u v (val η) Y := by
    have h1 := hv.nonneg'
    have h2 := hs.one_le
    have h3 := hη.2.1
    unfold stepErr
    positivity
  set β := stepErr N u v (val η) Y
  induction ds with
  | nil => intro s w hf _ _; exact ⟨s, rfl, hf, by simp [ascents]⟩
  | cons d ds ih =>
    intro s w hf hmod hm
    obtain ⟨hwY, hwZ, hmod'⟩ := hmod
    have hxd := hx d List.mem_cons_self
    rw [List.length_cons] at hm ⊢
    push_cast at hm ⊢
    have hn : (0 : ℝ) ≤ ds.length := Nat.cast_nonneg _
    have hsN := Real.sqrt_nonneg (N : ℝ)
    have hstep : 0 ≤ √N * β := by positivity
    have hdm : √(sqDist (vals val s.w) w) ≤ m := by nlinarith
    have hlen : √(sqDist (vals val s.w) w) = len fun i => vals val s.w i - w i := dist_eq_len _ _
    have hdi : ∀ i, |vals val s.w i - w i| ≤ m := fun i =>
      (le_len (fun i => vals val s.w i - w i) i).trans (by rw [← hlen]; exact hdm)
    have hwi : ∀ i, |vals val s.w i| ≤ Y := fun i => by
      have := abs_sub_abs_le_abs_sub (vals val s.w i) (w i)
      linarith [hdi i, hwY i]
    have hxx : prod' (vals val d.1) (vals val d.1) ≤ N := prod_self_le fun i => (hxd i).2
    have hzz : |prod' (vals val d.1) (vals val s.w) - prod' (vals val d.1) w| ≤ √N * m := by
      have e : prod' (vals val d.1) (vals val s.w) - prod' (vals val d.1) w =
          inner' (vals val d.1) fun i => vals val s.w i - w i := by
        simp only [prod', inner', ← Finset.sum_sub_distrib, mul_sub]
      have h1 := inner_sq_le (vals val d.1) fun i => vals val s.w i - w i
      rw [← e] at h1
      rw [← Real.sqrt_sq_eq_abs]
      refine (Real.sqrt_le_sqrt h1).trans ?_
      rw [Real.sqrt_mul (inner_self_nonneg' _)]
      exact mul_le_mul (Real.sqrt_le_sqrt hxx) (by rw [hlen] at hdm; exact hdm) (Real.sqrt_nonneg _) hsN
    have hz : |prod' (vals val d.1) (vals val s.w)| + dotErr N u Y ≤ Z := by
      have := abs_sub_abs_le_abs_sub (prod' (vals val d.1) (vals val s.w)) (prod' (vals val d.1) w)
      have hwZ' : |prod' (vals val d.1) w| ≤ Z₀ := hwZ
      linarith
    obtain ⟨s₁, h₁, hk⟩ := C80_step hv hs hη ht (fun i => ⟨hf i, hwi i⟩) hxd hz hg1 d.2
    have hdist : √(sqDist (vals val s₁.w) (ascent (val η) w (vals val d.1) d.2)) ≤
        √(sqDist (vals val s.w) w) + √N * β := by
      have e1 : √(sqDist (vals val s₁.w) (ascent (val η) w (vals val d.1) d.2)) = _ := dist_eq_len _ _
      have h1 := len_add_le
        (fun i => vals val s₁.w i - ascent (val η) (vals val s.w) (vals val d.1) d.2 i)
        (fun i => ascent (val η) (vals val s.w) (vals val d.1) d.2 i - ascent (val η) w (vals val d.1) d.2 i)
      simp only [sub_add_sub_cancel] at h1
      have h2 : len (fun i => ascent (val η) (vals val s.w) (vals val d.1) d.2 i -
          ascent (val η) w (vals val d.1) d.2 i) ≤ √(sqDist (vals val s.w) w) := by
        rw [← dist_eq_len]
        refine Real.sqrt_le_sqrt (ascent_nonexpansive hη.2.1 ?_ (vals val s.w) w d.2)
        exact (mul_le_mul_of_nonneg_left hxx hη.2.1).trans hηN
      have h3 : len (fun i => vals val s₁.w i - ascent (val η) (vals val s.w) (vals val d.1) d.2 i) ≤ √N * β := by
        rw [← len_const hβ]
        exact len_mono fun i => (hk i).2
      rw [e1]
      linarith
    obtain ⟨s', h', hf', hd'⟩ := ih (fun d hd => hx d (List.mem_cons_of_mem _ hd)) s₁
      (ascent (val η) w (vals val d.1) d.2) (fun i => (hk i).1) hmod' (by linarith)
    refine ⟨s', ?_, hf', ?_⟩
    · rw [logisticRun, h₁]; exact h'
    · refine (show _ ≤ _ from hd').trans ?_
      linarith

/-- For any draws, as long as weights and log-odds of gradient ascent in exact arithmetic stay moderate
along them: the program never panics, no weight becomes infinite or NaN, and after `n` iterations the
weights are those of exact arithmetic up to `n` times the error of one step. -/
theorem C80_run (hv : RangedExp val fin u v lo hi) {Y Z : ℝ} (hs : LogisticSizes N u v lo hi Y Z)
    {η : F} (hη : fin η ∧ 0 ≤ val η ∧ val η ≤ 1) (hηN : val η * N ≤ 8) {tw : NArr F [N]}
    (ht : ∀ i, fin (tw.elem i) ∧ |vals val tw i| ≤ Y) (hg1 : v + 9 * u + dotErr N u Y / 4 ≤ 1)
    {Y₀ Z₀ m : ℝ} (hY : Y₀ + m ≤ Y) (hZ : Z₀ + √N * m + dotErr N u Y ≤ Z)
    (ds : List (NArr F [N] × Bool)) (hx : ∀ d ∈ ds, ∀ i, fin (d.1.elem i) ∧ |vals val d.1 i| ≤ 1)
    (s : Data F N) (hw : ∀ i, fin (s.w.elem i))
    (hmod : Moderate (val η) Y₀ Z₀ (vals val s.w) (ds.map fun d => (vals val d.1, d.2)))
    (hm : ds.length * (√N * stepErr N u v (val η) Y) ≤ m) :
    ∃ s', logisticRun η tw s ds = .ok s' ∧ (∀ i, fin (s'.w.elem i)) ∧
      ∀ i, |vals val s'.w i - ascents (val η) (vals val s.w) (ds.map fun d => (vals val d.1, d.2)) i| ≤
        ds.length * (√N * stepErr N u v (val η) Y) := by
  have h0 : √(sqDist (vals val s.w) (vals val s.w)) = 0 := by simp [sqDist]
  obtain ⟨s', h, hf, hd⟩ := run_float hv hs hη hηN ht hg1 hY hZ ds hx s (vals val s.w) hw hmod
    (by rw [h0]; linarith)
  refine ⟨s', h, hf, fun i => ?_⟩
  rw [h0, zero_add] at hd
  refine (le_len (fun i => vals val s'.w i - ascents (val η) (vals val s.w)
    (ds.map fun d => (vals val d.1, d.2)) i) i).trans ?_
  rw [← dist_eq_len]
  exact hd

/-! ### How far gradient ascent can go -/

/-- `t / (1 + exp t)` is at most `282 / 1000`. -/
theorem mul_logistic_le (t : ℝ) : t * logistic (-t) ≤ 282 / 1000 := by
  have hp := Real.exp_pos t
  rw [logistic, neg_neg, mul_one_div, div_le_iff₀ (by linarith)]
  rcases le_or_gt t (282 / 1000) with h | h
  · nlinarith
  · have h1 : (3547 / 1000 : ℝ) ≤ Real.exp (127 / 100) := by
      have h2 := Real.add_one_le_exp (27 / 1000 : ℝ)
      have h3 : (127 / 100 : ℝ) = 1 + (27 / 1000) * 10 := by norm_num
      have h4 : Real.exp ((27 / 1000) * 10) = Real.exp (27 / 1000) ^ 10 := by
        rw [← Real.exp_nat_mul]; congr 1; norm_num
      rw [h3, Real.exp_add, h4]
      have h5 : (1.027 : ℝ) ^ 10 ≤ Real.exp (27 / 1000) ^ 10 :=
        pow_le_pow_left₀ (by norm_num) (by linarith) _
      have h6 := Real.exp_one_gt_d9
      calc (3547 / 1000 : ℝ) ≤ 2.718 * 1.027 ^ 10 := by norm_num
        _ ≤ _ := mul_le_mul (by linarith) h5 (by positivity) (by positivity)
    have h2 := Real.add_one_le_exp (t - 127 / 100)
    have h3 : Real.exp t = Real.exp (127 / 100) * Real.exp (t - 127 / 100) := by
      rw [← Real.exp_add]; congr 1; ring
    have h4 : 3547 / 1000 * (t - 127 / 100 + 1) ≤ Real.exp t := by
      rw [h3]
      exact mul_le_mul h1 h2 (by linarith) (Real.exp_pos _).le
    linarith

theorem pull_le (z : ℝ) (b : Bool) : ((if b then 1 else 0) - logistic z) * z ≤ 282 / 1000 := by
  cases b
  · have := mul_logistic_le (-z)
    rw [neg_neg] at this
    simp only [Bool.false_eq_true, if_false]
    linarith
  · have := mul_logistic_le z
    rw [← one_sub_logistic] at this
    simp only [if_true]
    linarith

/-- One step of gradient ascent lengthens the weights by little, whatever the sample and its label. -/
theorem ascent_norm {η : ℝ} (hη : 0 ≤ η) {x : Fin N → ℝ} (hx : ∀ i, |x i| ≤ 1) (w : Fin N → ℝ) (b : Bool) :
    prod' (ascent η w x b) (ascent η w x b) ≤ prod' w w + (564 / 1000 * η + η ^ 2 * N) := by
  set r : ℝ := (if b then 1 else 0) - logistic (prod' x w) with hr
  have e : prod' (ascent η w x b) (ascent η w x b) =
      prod' w w + 2 * η * (r * prod' x w) + η ^ 2 * r ^ 2 * prod' x x := by
    rw [show prod' x w = ∑ i, x i * w i from rfl]
    simp only [prod', Finset.mul_sum, ← Finset.sum_add_distrib]
    refine Finset.sum_congr rfl fun i _ => ?_
    change (w i + η * (r * x i)) * (w i + η * (r * x i)) = _
    ring
  have hr1 : r ^ 2 ≤ 1 := by
    have := logistic_range (prod' x w)
    rw [sq_le_one_iff_abs_le_one, hr, abs_le]
    cases b <;> simp only [Bool.false_eq_true, if_false, if_true] <;> constructor <;> linarith
  have hxx : prod' x x ≤ N := by
    have : ∀ i ∈ Finset.univ, x i * x i ≤ 1 := fun i _ => by
      rw [← abs_mul_abs_self]; nlinarith [hx i, abs_nonneg (x i)]
    refine (Finset.sum_le_sum this).trans ?_
    simp
  have hx0 : 0 ≤ prod' x x := Finset.sum_nonneg fun i _ => mul_self_nonneg _
  have h1 := mul_le_mul_of_nonneg_left (pull_le (prod' x w) b) (mul_nonneg zero_le_two hη)
  have h2 : η ^ 2 * (r ^ 2 * prod' x x) ≤ η ^ 2 * N :=
    mul_le_mul_of_nonneg_left ((mul_le_of_le_one_left hx0 hr1).trans hxx) (sq_nonneg η)
  rw [e]
  linarith

/-- Gradient ascent cannot go far in few steps: the squared length of the weights grows by at most
`0.564 η + η² N` per step, for any samples of the unit cube and any labels. -/
theorem C80_moderate {η Y Z : ℝ} (hη : 0 ≤ η) (hY : 0 ≤ Y) (hZ : 0 ≤ Z) (hYZ : N * Y ^ 2 ≤ Z ^ 2)
    (ds : List ((Fin N → ℝ) × Bool)) (hx : ∀ d ∈ ds, ∀ i, |d.1 i| ≤ 1) :
    ∀ w : Fin N → ℝ, prod' w w + ds.length * (564 / 1000 * η + η ^ 2 * N) ≤ Y ^ 2 → Moderate η Y Z w ds := by
  induction ds with
  | nil => intro w _; trivial
  | cons d ds ih =>
    intro w hw
    have hK : 0 ≤ 564 / 1000 * η + η ^ 2 * N := by positivity
    rw [List.length_cons] at hw
    push_cast at hw
    have hn : (0 : ℝ) ≤ ds.length := Nat.cast_nonneg _
    have hww : prod' w w ≤ Y ^ 2 := by nlinarith
    have hxd := hx d List.mem_cons_self
    refine ⟨fun i => ?_, ?_, ih (fun d hd => hx d (List.mem_cons_of_mem _ hd)) _ ?_⟩
    · refine abs_le_of_sq_le_sq (le_trans ?_ hww) hY
      rw [sq]
      exact Finset.single_le_sum (f := fun i => w i * w i) (fun i _ => mul_self_nonneg _) (Finset.mem_univ i)
    · refine abs_le_of_sq_le_sq (le_trans ?_ hYZ) hZ
      have h1 : (prod' d.1 w) ^ 2 ≤ prod' d.1 d.1 * prod' w w := inner_sq_le d.1 w
      have h2 : prod' d.1 d.1 ≤ N := by
        have : ∀ i ∈ Finset.univ, d.1 i * d.1 i ≤ 1 := fun i _ => by
          rw [← abs_mul_abs_self]; nlinarith [hxd i, abs_nonneg (d.1 i)]
        refine (Finset.sum_le_sum this).trans ?_
        simp
      exact h1.trans (mul_le_mul h2 hww (Finset.sum_nonneg fun i _ => mul_self_nonneg _) (Nat.cast_nonneg _))
    · have := ascent_norm hη hxd w d.2
      change prod' (ascent η w d.1 d.2) (ascent η w d.1 d.2) + _ ≤ _
      linarith

/-! ### Double precision -/

theorem logistic_rate : (Fp.round (1 / 2000) : Double).Finite ∧
    |(Fp.round (1 / 2000) : Double).val - 1 / 2000| ≤ 1 / 2 ^ 53 / 2000 := by
  have ha : |(1 / 2000 : ℝ)| = 1 / 2000 := abs_of_pos (by norm_num)
  have hf : (Fp.round (1 / 2000) : Double).Finite := Fp.round_fin (by
    rw [ha]
    exact le_trans (by norm_num) (Fp.one_le_largest (p := 52) (E := 971)))
  have hl : (-11 : ℤ) ≤ Int.log 2 (1 / 2000 : ℝ) :=
    (Int.zpow_le_iff_le_log (by norm_num) (by norm_num)).1 (by norm_num)
  have h := fround_normal (p := 52) (q := 1074) (x := 1 / 2000) (by
    unfold place
    rw [ha, max_eq_left]
    push_cast
    omega) (by norm_num)
  rw [ha] at h
  rw [Fp.val_round hf]
  exact ⟨hf, h.trans (le_of_eq (by norm_num))⟩

theorem exp_34 : (3 / 2 ^ 51 : ℝ) < Real.exp (-34) := by
  have h : Real.exp 34 < 2 ^ 51 / 3 := by
    have : Real.exp 34 = Real.exp 1 ^ 34 := by rw [← Real.exp_nat_mul]; congr 1; norm_num
    rw [this]
    calc Real.exp 1 ^ 34 ≤ 2.7182818286 ^ 34 :=
          pow_le_pow_left₀ (Real.exp_pos 1).le Real.exp_one_lt_d9.le _
      _ < 2 ^ 51 / 3 := by norm_num
  rw [Real.exp_neg, ← inv_div]
  exact inv_strictAnti₀ (Real.exp_pos _) h

theorem large_logistic {a : ℝ} (h : a ≤ 2 ^ 52) : a ≤ largest 52 971 := by
  have h1 : ∀ k : ℕ, (2 : ℝ) ^ 52 * 1 ≤ (2 ^ (52 + 1) - 1) * 2 ^ k := fun k =>
    mul_le_mul (by norm_num) (one_le_pow₀ (by norm_num)) zero_le_one (by norm_num)
  exact h.trans ((mul_one _).ge.trans (h1 971))

theorem tiny_double : (2 : ℝ) ^ ((52 : ℕ) - (1074 : ℕ) : ℤ) ≤ 1 / 2 ^ 60 := by
  rw [one_div, ← zpow_natCast, ← zpow_neg]
  exact zpow_le_zpow_right₀ (by norm_num) (by norm_num)

theorem logistic_sizes_double : LogisticSizes 5 (1 / 2 ^ (52 + 1)) (1 / 2 ^ (52 + 1))
    (2 ^ ((52 : ℕ) - (1074 : ℕ) : ℤ)) (largest 52 971) 16 34 where
  lo_le := tiny_double.trans (by norm_num)
  u_le := by norm_num
  one_le := by norm_num
  odds := by
    have h1 := tiny_double
    have h2 := exp_34
    linarith
  dot := large_logistic (by norm_num)
  weight := large_logistic (by norm_num)

theorem dotErr_double : dotErr 5 (1 / 2 ^ (52 + 1)) 16 ≤ 1 / 2 ^ 44 := by
  unfold dotErr; norm_num

theorem stepErr_double {η : ℝ} (h1 : η ≤ 1 / 500) :
    stepErr 5 (1 / 2 ^ (52 + 1)) (1 / 2 ^ (52 + 1)) η 16 ≤ 22 / 2 ^ 53 := by
  have h2 : (1 / 2 ^ (52 + 1) : ℝ) + 9 * (1 / 2 ^ (52 + 1)) + dotErr 5 (1 / 2 ^ (52 + 1)) 16 / 4 ≤ 1 / 2 ^ 45 := by
    have := dotErr_double
    linarith
  have h3 : (0 : ℝ) ≤ 1 / 2 ^ (52 + 1) + 9 * (1 / 2 ^ (52 + 1)) + dotErr 5 (1 / 2 ^ (52 + 1)) 16 / 4 := by
    unfold dotErr; norm_num
  have := mul_le_mul h1 h2 h3 (by norm_num)
  unfold stepErr
  norm_num at this ⊢
  linarith

/-- The program in double precision, its first 800000 iterations, for any draws of the generator and any
true weights: it never panics, no weight becomes infinite or NaN, and the weights are those of gradient
ascent in exact arithmetic on the same samples and labels, up to `10 ^ -8`. What is missing are the
other 200000 iterations, see `C80_violation`. -/
theorem C80_double_partial {tw : NArr Double [5]} (ht : ∀ i, (tw.elem i).Finite ∧ |vals Fp.val tw i| ≤ 1)
    (ds : List (NArr Double [5] × Bool)) (hn : ds.length ≤ 800000)
    (hx : ∀ d ∈ ds, ∀ i, (d.1.elem i).Finite ∧ |vals Fp.val d.1 i| ≤ 1) :
    ∃ s', logisticRun (Fp.round (1 / 2000) : Double) tw (logisticInit 5) ds = .ok s' ∧
      (∀ i, (s'.w.elem i).Finite) ∧
      ∀ i, |vals Fp.val s'.w i - ascents (Fp.round (1 / 2000) : Double).val (fun _ => 0)
        (ds.map fun d => (vals Fp.val d.1, d.2)) i| ≤ 1 / 10 ^ 8 := by
  obtain ⟨hf, hη⟩ := logistic_rate
  set η : Double := Fp.round (1 / 2000)
  have hη1 : 1 / 2001 ≤ η.val ∧ η.val ≤ 5001 / 10000000 := by
    rw [abs_le] at hη
    constructor <;> norm_num at hη ⊢ <;> linarith
  have hη0 : 0 ≤ η.val := by linarith
  have hn' : (ds.length : ℝ) ≤ 800000 := by exact_mod_cast hn
  have h5 : √((5 : ℕ) : ℝ) ≤ 2.24 := Real.sqrt_le_iff.2 ⟨by norm_num, by norm_num⟩
  have h50 := Real.sqrt_nonneg ((5 : ℕ) : ℝ)
  have hs0 : 0 ≤ stepErr 5 (1 / 2 ^ (52 + 1)) (1 / 2 ^ (52 + 1)) η.val 16 := by
    unfold stepErr dotErr
    have : (0 : ℝ) ≤ (1 + 1 / 2 ^ (52 + 1)) ^ (5 + 1) - 1 := by norm_num
    positivity
  have hs := stepErr_double (η := η.val) (by linarith)
  have hm : ds.length * (√((5 : ℕ) : ℝ) * stepErr 5 (1 / 2 ^ (52 + 1)) (1 / 2 ^ (52 + 1)) η.val 16) ≤ 1 / 10 ^ 8 := by
    refine (mul_le_mul hn' (mul_le_mul h5 hs hs0 (by norm_num)) (by positivity) (by norm_num)).trans ?_
    norm_num
  have hi : ∀ i, (logisticInit (F := Double) 5).w.elem i = 0 := fun i => NArr.row_mkRows _ i
  have hv0 : vals Fp.val (logisticInit (F := Double) 5).w = fun _ => 0 := by
    funext i
    simp only [vals, hi]
    rfl
  have hmod := C80_moderate (N := 5) (η := η.val) (Y := 151 / 10) (Z := 338 / 10) hη0 (by norm_num) (by norm_num)
    (by norm_num) (ds.map fun d => (vals Fp.val d.1, d.2)) (fun d hd i => by
      obtain ⟨d', hd', rfl⟩ := List.mem_map.1 hd
      exact (hx d' hd' i).2) (fun _ => 0) (by
        have e : prod' (fun _ : Fin 5 => (0 : ℝ)) (fun _ => 0) = 0 := by simp [prod']
        rw [e, zero_add, List.length_map]
        have : 564 / 1000 * η.val + η.val ^ 2 * (5 : ℕ) ≤ 2834 / 10000000 := by
          push_cast
          nlinarith
        refine (mul_le_mul hn' this (by positivity) (by norm_num)).trans ?_
        norm_num)
  rw [← hv0] at hmod ⊢
  obtain ⟨s', h, h', h''⟩ := C80_run (Fp.rangedExp (p := 52) (q := 1074) (E := 971) (by norm_num))
    logistic_sizes_double (η := η) ⟨hf, hη0, by linarith⟩ (by push_cast; linarith) (tw := tw)
    (fun i => ⟨(ht i).1, (ht i).2.trans (by norm_num)⟩) (by have := dotErr_double; norm_num at this ⊢; linarith)
    (m := 1 / 10 ^ 8) (Y₀ := 151 / 10) (Z₀ := 338 / 10) (by norm_num) (by
      have := dotErr_double
      norm_num at this ⊢
      norm_num at h5
      linarith) ds hx (logisticInit 5) (fun i => by rw [hi]; trivial) hmod hm
  exact ⟨s', h, h', fun i => (h'' i).trans hm⟩

/-! ### Beyond moderate log-odds -/

theorem roundEven_near {x : ℝ} {m : ℤ} (h : |x - m| < 1 / 2) : roundEven x = m := by
  have h1 := abs_sub_roundEven x
  rw [abs_lt] at h
  rw [abs_le] at h1
  have h2 : ((roundEven x : ℤ) : ℝ) < ((m + 1 : ℤ) : ℝ) := by push_cast; linarith
  have h3 : ((m - 1 : ℤ) : ℝ) < ((roundEven x : ℤ) : ℝ) := by push_cast; linarith
  have := Int.cast_lt.1 h2
  have := Int.cast_lt.1 h3
  omega

theorem fround_one_add {e : ℝ} (h0 : 0 ≤ e) (h1 : e < 1 / 2 ^ 53) : fround 52 1074 (1 + e) = 1 := by
  have hl : Int.log 2 |1 + e| = 0 := by
    rw [abs_of_pos (by linarith)]
    have ha : (0 : ℤ) ≤ Int.log 2 (1 + e) :=
      (Int.zpow_le_iff_le_log (by norm_num) (by linarith)).1 (by norm_num; exact h0)
    have hb : Int.log 2 (1 + e) < 1 :=
      (Int.lt_zpow_iff_log_lt (by norm_num) (by linarith)).1 (by norm_num at h1 ⊢; linarith)
    omega
  have hp : place 52 1074 (1 + e) = -52 := by
    unfold place
    rw [hl]
    norm_num
  have hr : roundEven ((1 + e) / 2 ^ (-52 : ℤ)) = 2 ^ 52 := roundEven_near (by
    rw [zpow_neg, div_inv_eq_mul, abs_lt]
    norm_num at h1 ⊢
    constructor <;> linarith)
  rw [fround, hp, hr]
  norm_num [zpow_neg]

theorem Fp.round_eq {p q E : ℕ} {x y : ℝ} (h : Represents p q E y) (e : fround p q x = y) :
    (Fp.round x : Fp p q E) = .num y h := by
  subst e
  exact dif_pos h.2

theorem exp_37 : Real.exp (-37) < 1 / (10 / 9 * 2 ^ 53) := by
  have h : (10 / 9 * 2 ^ 53 : ℝ) < Real.exp 37 := by
    have : Real.exp 37 = Real.exp 1 ^ 37 := by rw [← Real.exp_nat_mul]; congr 1; norm_num
    rw [this]
    calc (10 / 9 * 2 ^ 53 : ℝ) < 2.7182818283 ^ 37 := by norm_num
      _ ≤ Real.exp 1 ^ 37 := pow_le_pow_left₀ (by norm_num) Real.exp_one_gt_d9.le _
  rw [Real.exp_neg, one_div]
  exact inv_strictAnti₀ (by norm_num) h

/-- From log-odds of 37 on, the computed probability is one. -/
theorem C80_saturates {z : Double} (hf : z.Finite) (hz : 37 ≤ z.val) : sigmoid z = 1 := by
  cases z with
  | inf s => exact absurd hf id
  | nan => exact absurd hf id
  | num z h =>
    replace hz : 37 ≤ z := hz
    have hleb : ScalarFns.leb (0 : Double) (.num z h) = true := decide_eq_true (by linarith : (0 : ℝ) ≤ z)
    have he : Real.exp (-z) < 1 / (10 / 9 * 2 ^ 53) := (Real.exp_le_exp.2 (by linarith)).trans_lt exp_37
    obtain ⟨fe, e0, -, eb⟩ := (Fp.rangedExp (p := 52) (q := 1074) (E := 971) (by norm_num)).exp
      (-(Fp.num z h : Double)) trivial (show -z ≤ 0 by linarith)
    replace eb : |(ScalarFns.exp (-.num z h : Double)).val - Real.exp (-z)| ≤
      1 / 2 ^ (52 + 1) * max (Real.exp (-z)) (2 ^ ((52 : ℕ) - (1074 : ℕ) : ℤ)) := eb
    have e1 : (ScalarFns.exp (-.num z h : Double)).val < 1 / 2 ^ 53 := by
      have h1 := (abs_le.1 eb).2
      have h2 : max (Real.exp (-z)) (2 ^ ((52 : ℕ) - (1074 : ℕ) : ℤ)) ≤ 1 / 2 ^ 53 :=
        max_le (he.le.trans (by norm_num)) (tiny_double.trans (by norm_num))
      generalize max (Real.exp (-z)) (2 ^ ((52 : ℕ) - (1074 : ℕ) : ℤ)) = M at h1 h2
      norm_num at h1 h2 he ⊢
      linarith
    rw [sigmoid, if_pos hleb]
    generalize (ScalarFns.exp (-.num z h : Double)) = e at fe e0 e1
    cases e with
    | inf s => exact absurd fe id
    | nan => exact absurd fe id
    | num e he =>
      have h1 : (1 + .num e he : Double) = 1 := Fp.round_eq Fp.represents_one (fround_one_add e0 e1)
      have h2 : (1 / 1 : Double) = 1 := by
        refine (if_neg one_ne_zero).trans (Fp.round_eq Fp.represents_one ?_)
        rw [div_one]
        exact (Fp.represents_one (E := 971)).1
      show (1 / (1 + .num e he) : Double) = 1
      rw [h1, h2]

theorem Fp.add_nan {p q E : ℕ} (x : Fp p q E) : x + .nan = .nan := by cases x <;> rfl
theorem Fp.nan_add {p q E : ℕ} (x : Fp p q E) : .nan + x = .nan := by cases x <;> rfl
theorem Fp.mul_nan {p q E : ℕ} (x : Fp p q E) : x * .nan = .nan := by cases x <;> rfl
theorem Fp.nan_mul {p q E : ℕ} (x : Fp p q E) : .nan * x = .nan := by cases x <;> rfl
theorem Fp.nan_div {p q E : ℕ} (x : Fp p q E) : .nan / x = .nan := by cases x <;> rfl

/-- A probability of one with label zero: the gradient is zero divided by zero. -/
theorem gradEntry_nan {z x : Double} (hf : z.Finite) (hz : 37 ≤ z.val) (hx : x.Finite) :
    gradEntry z 0 x = .nan := by
  have r0 : (Fp.round 0 : Double) = 0 := Fp.round_eq Fp.represents_zero fround_zero
  have r1 : (Fp.round 1 : Double) = 1 := Fp.round_eq Fp.represents_one (Fp.represents_one (E := 971)).1
  have s11 : (1 - 1 : Double) = 0 := by
    change (Fp.round (1 - 1) : Double) = 0
    rw [sub_self, r0]
  have s10 : (1 - 0 : Double) = 1 := by
    change (Fp.round (1 - 0) : Double) = 1
    rw [sub_zero, r1]
  have m0 : ∀ y : Double, y.Finite → y * 0 = 0 := fun y hy => by
    cases y with
    | num y h =>
      change (Fp.round (y * 0) : Double) = 0
      rw [mul_zero, r0]
    | inf s => exact absurd hy id
    | nan => exact absurd hy id
  have m1 : (0 * 1 : Double) = 0 := by
    change (Fp.round (0 * 1) : Double) = 0
    rw [zero_mul, r0]
  have a0 : (0 + 0 : Double) = 0 := by
    change (Fp.round (0 + 0) : Double) = 0
    rw [add_zero, r0]
  have n0 : (-0 : Double) = 0 := by
    change (Fp.num (-0) _ : Double) = .num 0 _
    congr 1
    exact neg_zero
  have hx1 : (x * 1 : Double).Finite := by
    cases x with
    | num x h =>
      change (Fp.round (x * 1) : Double).Finite
      rw [mul_one]
      exact Fp.round_fin h.2
    | inf s => exact absurd hx id
    | nan => exact absurd hx id
  have f0 : (0 : Double).Finite := trivial
  have f1 : (1 : Double).Finite := trivial
  have d0 : (0 / 0 : Double) = .nan := (if_pos rfl).trans (if_pos rfl)
  simp only [gradEntry, C80_saturates hf hz, s11, s10, m0 _ f1, m0 _ hx1, m0 _ f0, n0, m1, a0, d0]

/-- In double precision, a sample whose computed log-odds are 37 or more turns all weights into NaN if its
label is zero, whatever the learning rate; nothing reports an error. -/
theorem C80_nan {N : ℕ} {tw : NArr Double [N]} {s : Data Double N} {x : NArr Double [N]} (η : Double)
    (ht : (label x tw).Finite) (hx : ∀ i, (x.elem i).Finite) (hf : (label x s.w).Finite)
    (hz : 37 ≤ (label x s.w).val) :
    ∃ s', logisticStep η tw s (x, false) = .ok s' ∧ ∀ i, s'.w.elem i = .nan := by
  have hv := Fp.rangedExp (p := 52) (q := 1074) (E := 971) (by norm_num)
  obtain ⟨f0, e0⟩ := hv.zero
  have hn0 := hv.neg 0
  obtain ⟨g, hg, h⟩ := likelihood_op (hv.zero_of 0 f0 e0)
    (hv.zero_of (-0) (hn0.1.2 f0) (by rw [hn0.2 f0, e0, neg_zero])) (⟨x, 0, s.w⟩ : Data Double N)
  refine ⟨⟨x, 0, update (fun w g => w + η * g) s.w g⟩, ?_, fun i => ?_⟩
  · simp only [logisticStep, C80_gen_bool hv (tiny_double.trans (by norm_num)) ht, Res.bind,
      Bool.false_eq_true, if_false]
    rw [hg]
    rfl
  · refine (update_elem _ _ _ i).trans ?_
    rw [h, gradEntry_nan hf hz (hx i), Fp.mul_nan, Fp.add_nan]

theorem label_nan {N : ℕ} {x w : NArr Double [N]} (i : Fin N) (h : w.elem i = .nan) : label x w = .nan := by
  have key : ∀ (l : List (Fin N)) (acc : Double), i ∈ l ∨ acc = .nan →
      l.foldl (fun acc i => acc + x.elem i * w.elem i) acc = .nan := fun l => by
    induction l with
    | nil => intro acc h; simpa using h
    | cons j l ih =>
      intro acc hj
      rw [List.foldl_cons]
      refine ih _ ?_
      rcases hj with hj | hj
      · rcases List.mem_cons.1 hj with rfl | hj
        · right; rw [h, Fp.mul_nan, Fp.add_nan]
        · exact .inl hj
      · right; rw [hj, Fp.nan_add]
  exact key _ _ (.inl (List.mem_finRange i))

theorem gradEntry_of_nan (y x : Double) : gradEntry .nan y x = .nan := by
  have hs : sigmoid (.nan : Double) = .nan := rfl
  simp only [gradEntry, hs, Fp.nan_mul, Fp.mul_nan]
  have : (-Fp.nan : Double) = .nan := rfl
  simp only [this, Fp.nan_mul, Fp.nan_add, Fp.nan_div]

/-- One weight that is NaN makes all weights NaN in the next iteration, and they stay so, without any
error being reported. -/
theorem C80_poison {N : ℕ} {tw : NArr Double [N]} (η : Double) (i : Fin N) (ds : List (NArr Double [N] × Bool))
    (ht : ∀ d ∈ ds, (label d.1 tw).Finite) :
    ∀ s : Data Double N, s.w.elem i = .nan → ds ≠ [] →
      ∃ s', logisticRun η tw s ds = .ok s' ∧ ∀ k, s'.w.elem k = .nan := by
  have hv := Fp.rangedExp (p := 52) (q := 1074) (E := 971) (by norm_num)
  obtain ⟨f0, e0⟩ := hv.zero
  have hn0 := hv.neg 0
  induction ds with
  | nil => intro s _ h; exact absurd rfl h
  | cons d ds ih =>
    intro s hs _
    obtain ⟨g, hg, h⟩ := likelihood_op (hv.zero_of 0 f0 e0)
      (hv.zero_of (-0) (hn0.1.2 f0) (by rw [hn0.2 f0, e0, neg_zero]))
      (⟨d.1, if d.2 then 1 else 0, s.w⟩ : Data Double N)
    have h1 : logisticStep η tw s d =
        .ok ⟨d.1, if d.2 then 1 else 0, update (fun w g => w + η * g) s.w g⟩ := by
      simp only [logisticStep, C80_gen_bool hv (tiny_double.trans (by norm_num)) (ht d List.mem_cons_self),
        Res.bind]
      rw [hg]
      rfl
    have h2 : ∀ k, (update (fun w g => w + η * g) s.w g).elem k = .nan := fun k => by
      refine (update_elem _ _ _ k).trans ?_
      rw [h, label_nan i hs, gradEntry_of_nan, Fp.mul_nan, Fp.add_nan]
    rw [logisticRun, h1]
    by_cases hd : ds = []
    · subst hd
      exact ⟨_, rfl, h2⟩
    · exact ih (fun d hd => ht d (List.mem_cons_of_mem _ hd)) _ (h2 i) hd

/-! ### The program itself -/

theorem exp_1278 : Real.exp (1278 / 1000) ≤ 36 / 10 := by
  have h1 : Real.exp (1278 / 1000) = Real.exp 1 * Real.exp (139 / 10000) ^ 20 := by
    rw [← Real.exp_nat_mul, ← Real.exp_add]; congr 1; norm_num
  have h2 : Real.exp (139 / 10000) ≤ 10000 / 9861 := by
    have h := Real.add_one_le_exp (-(139 / 10000) : ℝ)
    rw [Real.exp_neg] at h
    have hp := Real.exp_pos (139 / 10000)
    rw [le_inv_comm₀ (by norm_num) hp] at h
    exact h.trans (by norm_num)
  rw [h1]
  calc Real.exp 1 * Real.exp (139 / 10000) ^ 20 ≤ 2.7182818286 * (10000 / 9861) ^ 20 :=
        mul_le_mul Real.exp_one_lt_d9.le (pow_le_pow_left₀ (Real.exp_pos _).le h2 _) (by positivity) (by norm_num)
    _ ≤ 36 / 10 := by norm_num

theorem exp_13 : Real.exp (13 / 10) ≤ 37 / 10 := by
  have h1 : Real.exp (13 / 10) = Real.exp (1278 / 1000) * Real.exp (22 / 1000) := by
    rw [← Real.exp_add]; congr 1; norm_num
  have h2 : Real.exp (22 / 1000) ≤ 1000 / 978 := by
    have h := Real.add_one_le_exp (-(22 / 1000) : ℝ)
    rw [Real.exp_neg] at h
    have hp := Real.exp_pos (22 / 1000)
    rw [le_inv_comm₀ (by norm_num) hp] at h
    exact h.trans (by norm_num)
  rw [h1]
  calc _ ≤ 36 / 10 * (1000 / 978 : ℝ) := mul_le_mul exp_1278 h2 (Real.exp_pos _).le (by norm_num)
    _ ≤ 37 / 10 := by norm_num

/-- Gradient ascent on a sample with equal entries and label one, from equal weights. -/
theorem ascent_const (η c s : ℝ) : ascent η (fun _ : Fin 5 => c) (fun _ => s) true =
    fun _ => c + η * ((1 - logistic (5 * (s * c))) * s) := by
  funext k
  have : prod' (fun _ : Fin 5 => s) (fun _ => c) = 5 * (s * c) := by simp [prod']
  simp only [ascent, this, if_true]

/-- How far `n` samples have led. -/
def Climbed (n : ℕ) (c : ℝ) : Prop :=
  (c < 26 / 100 ∧ n ≤ 10000 * c) ∨ (26 / 100 ≤ c ∧ 555 / 10000000 * n ≤ c ^ 2 + 15 / 100) ∨ 741 / 100 ≤ c

/-- Some sample with label one leads on. -/
theorem climb_step {η : ℝ} (h0 : 4999 / 10000000 ≤ η) (h1 : η ≤ 1 / 500) {n : ℕ} {c : ℝ} (hc : 0 ≤ c)
    (hc' : c ≤ 742 / 100) (hn : Climbed n c) : ∃ j : ℕ, j < 2 ^ 53 ∧ 5 * (j / 2 ^ 53 * c) ≤ 13 / 10 ∧
      0 ≤ c + η * ((1 - logistic (5 * (j / 2 ^ 53 * c))) * (j / 2 ^ 53)) ∧
      c + η * ((1 - logistic (5 * (j / 2 ^ 53 * c))) * (j / 2 ^ 53)) ≤ 742 / 100 ∧
      Climbed (n + 1) (c + η * ((1 - logistic (5 * (j / 2 ^ 53 * c))) * (j / 2 ^ 53))) := by
  have key : ∀ t : ℝ, 1 - logistic t = 1 / (1 + Real.exp t) := fun t => by
    rw [one_sub_logistic, logistic, neg_neg]
  by_cases hbig : 741 / 100 ≤ c
  · refine ⟨0, by norm_num, ?_⟩
    simp only [Nat.cast_zero, zero_div, zero_mul, mul_zero, add_zero]
    exact ⟨by norm_num, hc, hc', .inr (.inr hbig)⟩
  have hstep : ∀ j : ℕ, j < 2 ^ 53 → 0 ≤ η * ((1 - logistic (5 * (j / 2 ^ 53 * c))) * (j / 2 ^ 53)) ∧
      η * ((1 - logistic (5 * (j / 2 ^ 53 * c))) * (j / 2 ^ 53)) ≤ 1 / 100 := fun j hj => by
    have hr := logistic_range (5 * (j / 2 ^ 53 * c))
    have hj1 : (j : ℝ) / 2 ^ 53 ≤ 1 := (div_le_one (by positivity)).2 (by exact_mod_cast hj.le)
    have hj0 : 0 ≤ (j : ℝ) / 2 ^ 53 := by positivity
    have h2 : 0 ≤ (1 - logistic (5 * (j / 2 ^ 53 * c))) * (j / 2 ^ 53) := mul_nonneg (by linarith) hj0
    have h3 : (1 - logistic (5 * (j / 2 ^ 53 * c))) * (j / 2 ^ 53) ≤ 1 := mul_le_one₀ (by linarith) hj0 hj1
    have hη : 0 ≤ η := by linarith
    exact ⟨mul_nonneg hη h2, by nlinarith⟩
  by_cases hsmall : c < 26 / 100
  · refine ⟨2 ^ 53 - 1, by norm_num, ?_⟩
    obtain ⟨a, b⟩ := hstep (2 ^ 53 - 1) (by norm_num)
    have hs : ((2 ^ 53 - 1 : ℕ) : ℝ) / 2 ^ 53 ≤ 1 ∧ 9999 / 10000 ≤ ((2 ^ 53 - 1 : ℕ) : ℝ) / 2 ^ 53 := by norm_num
    set s : ℝ := ((2 ^ 53 - 1 : ℕ) : ℝ) / 2 ^ 53
    have hz : 5 * (s * c) ≤ 13 / 10 := by nlinarith
    refine ⟨hz, by linarith, by linarith, ?_⟩
    have hn' : (n : ℝ) ≤ 10000 * c := by
      rcases hn with h | h | h
      · exact h.2
      · linarith
      · linarith
    have hp : 10 / 47 ≤ 1 - logistic (5 * (s * c)) := by
      rw [key, div_le_div_iff₀ (by norm_num) (by positivity)]
      have := (Real.exp_le_exp.2 hz).trans exp_13
      generalize Real.exp (5 * (s * c)) = E at this
      linarith
    have h3 : 4999 / 10000000 * (10 / 47 * (9999 / 10000)) ≤ η * ((1 - logistic (5 * (s * c))) * s) :=
      mul_le_mul h0 (mul_le_mul hp hs.2 (by norm_num) (le_trans (by norm_num) hp)) (by norm_num) (by linarith)
    generalize η * ((1 - logistic (5 * (s * c))) * s) = d at *
    have h4 : 1 / 10000 ≤ d := le_trans (by norm_num) h3
    by_cases hd : c + d < 26 / 100
    · left
      push_cast
      exact ⟨hd, by linarith⟩
    · right; left
      push_cast
      refine ⟨not_lt.1 hd, ?_⟩
      nlinarith [sq_nonneg (c + d - 1 / 4)]
  · have hc26 : 26 / 100 ≤ c := not_lt.1 hsmall
    have hcp : 0 < c := by linarith
    set t : ℝ := 1278 / 1000 / (5 * c) * 2 ^ 53 with ht
    have ht0 : 0 ≤ t := by positivity
    have ht1 : t < 2 ^ 53 := by
      have : 1278 / 1000 / (5 * c) < 1 := (div_lt_one (by positivity)).2 (by linarith)
      rw [ht]
      exact mul_lt_of_lt_one_left (by positivity) this
    refine ⟨⌊t⌋₊, ?_, ?_⟩
    · have h2 := Nat.floor_le ht0
      have : ((⌊t⌋₊ : ℕ) : ℝ) < ((2 ^ 53 : ℕ) : ℝ) := by push_cast; linarith
      exact_mod_cast this
    have hj : ⌊t⌋₊ < 2 ^ 53 := by
      have h2 := Nat.floor_le ht0
      have : ((⌊t⌋₊ : ℕ) : ℝ) < ((2 ^ 53 : ℕ) : ℝ) := by push_cast; linarith
      exact_mod_cast this
    obtain ⟨a, b⟩ := hstep _ hj
    have hl : (⌊t⌋₊ : ℝ) / 2 ^ 53 ≤ 1278 / 1000 / (5 * c) := by
      rw [div_le_iff₀ (by positivity)]
      exact Nat.floor_le ht0
    have hu : 1278 / 1000 / (5 * c) - 1 / 2 ^ 53 ≤ (⌊t⌋₊ : ℝ) / 2 ^ 53 := by
      rw [le_div_iff₀ (by positivity), sub_mul]
      have := (Nat.lt_floor_add_one t).le
      norm_num at ht this ⊢
      linarith
    set s : ℝ := (⌊t⌋₊ : ℝ) / 2 ^ 53
    have hz1 : 5 * (s * c) ≤ 1278 / 1000 := by
      rw [le_div_iff₀ (by positivity)] at hl
      linarith
    have hz0 : 12779 / 10000 ≤ 5 * (s * c) := by
      have := mul_le_mul_of_nonneg_right hu (by positivity : 0 ≤ 5 * c)
      rw [sub_mul, div_mul_cancel₀ _ (by positivity)] at this
      norm_num at this
      linarith
    refine ⟨hz1.trans (by norm_num), by linarith, by linarith, ?_⟩
    have hn' : 555 / 10000000 * n ≤ c ^ 2 + 15 / 100 := by
      rcases hn with h | h | h
      · linarith [h.1]
      · exact h.2
      · linarith
    have hp : 10 / 46 ≤ 1 - logistic (5 * (s * c)) := by
      rw [key, div_le_div_iff₀ (by norm_num) (by positivity)]
      have := (Real.exp_le_exp.2 hz1).trans exp_1278
      linarith
    right; left
    push_cast
    refine ⟨by linarith, ?_⟩
    have h3 : 4999 / 10000000 * (10 / 46 * (12779 / 10000)) ≤ η * ((1 - logistic (5 * (s * c))) * (5 * (s * c))) :=
      mul_le_mul h0 (mul_le_mul hp hz0 (by norm_num) (le_trans (by norm_num) hp)) (by norm_num) (by linarith)
    have e : η * ((1 - logistic (5 * (s * c))) * (5 * (s * c))) = 5 * (c * (η * ((1 - logistic (5 * (s * c))) * s))) := by
      ring
    rw [e] at h3
    generalize η * ((1 - logistic (5 * (s * c))) * s) = d at *
    nlinarith [sq_nonneg d]

/-- A sample with five equal entries. -/
noncomputable def equal (j : ℕ) : NArr Double [5] := NArr.ofElems fun _ => Fp.round ((j : ℝ) / 2 ^ 53)

theorem equal_elem (j : ℕ) (i : Fin 5) : (equal j).elem i = Fp.round ((j : ℝ) / 2 ^ 53) := by
  unfold equal
  exact NArr.row_mkRows _ i

theorem equal_vals {j : ℕ} (hj : j < 2 ^ 53) : vals Fp.val (equal j) = fun _ => (j : ℝ) / 2 ^ 53 := by
  funext i
  simp only [vals, equal_elem]
  exact (C78_drawn j hj).2

/-- `n` samples lead there. -/
theorem climb {η : ℝ} (h0 : 4999 / 10000000 ≤ η) (h1 : η ≤ 1 / 500) (k : ℕ) :
    ∀ (n : ℕ) (c : ℝ), 0 ≤ c → c ≤ 742 / 100 → Climbed n c → ∃ (js : List ℕ) (c' : ℝ), js.length = k ∧
      (∀ j ∈ js, j < 2 ^ 53) ∧ 0 ≤ c' ∧ c' ≤ 742 / 100 ∧ Climbed (n + k) c' ∧
      Moderate η 8 2 (fun _ : Fin 5 => c) (js.map fun j : ℕ => (fun _ => (j : ℝ) / 2 ^ 53, true)) ∧
      ascents η (fun _ : Fin 5 => c) (js.map fun j : ℕ => (fun _ => (j : ℝ) / 2 ^ 53, true)) = fun _ => c' := by
  induction k with
  | zero => intro n c hc hc' hn; exact ⟨[], c, rfl, by simp, hc, hc', hn, trivial, rfl⟩
  | succ k ih =>
    intro n c hc hc' hn
    obtain ⟨j, hj, hz, a, b, hn'⟩ := climb_step h0 h1 hc hc' hn
    obtain ⟨js, c', hl, hjs, a', b', hn'', hm, he⟩ := ih (n + 1) _ a b hn'
    have hs : 0 ≤ (j : ℝ) / 2 ^ 53 := by positivity
    refine ⟨j :: js, c', by rw [List.length_cons, hl], ?_, a', b', by rwa [show n + (k + 1) = n + 1 + k by omega], ?_, ?_⟩
    · intro i hi
      rcases List.mem_cons.1 hi with rfl | hi
      · exact hj
      · exact hjs i hi
    · rw [List.map_cons]
      refine ⟨fun i => ?_, ?_, ?_⟩
      · rw [abs_of_nonneg hc]; linarith
      · have e : prod' (fun _ : Fin 5 => (j : ℝ) / 2 ^ 53) (fun _ => c) = 5 * (j / 2 ^ 53 * c) := by simp [prod']
        change |prod' (fun _ : Fin 5 => (j : ℝ) / 2 ^ 53) (fun _ => c)| ≤ 2
        rw [e, abs_of_nonneg (by positivity)]
        linarith
      · change Moderate η 8 2 (ascent η (fun _ : Fin 5 => c) (fun _ => (j : ℝ) / 2 ^ 53) true) _
        rw [ascent_const]
        exact hm
    · rw [List.map_cons]
      change ascents η (ascent η (fun _ : Fin 5 => c) (fun _ => (j : ℝ) / 2 ^ 53) true) _ = _
      rw [ascent_const]
      exact he

theorem run_append {N : ℕ} (η : F) (tw : NArr F [N]) (ds ds' : List (NArr F [N] × Bool)) :
    ∀ s : Data F N, logisticRun η tw s (ds ++ ds') = (logisticRun η tw s ds).bind fun s' => logisticRun η tw s' ds' := by
  induction ds with
  | nil => intro s; rfl
  | cons d ds ih =>
    intro s
    simp only [List.cons_append, logisticRun]
    cases logisticStep η tw s d with
    | ok s' => exact ih s'
    | err e => rfl
    | panic => rfl

/-- In double precision, for all rates from one in two thousand on, there are draws for which all weights
end as NaN. -/
theorem nan_of_rate {η : Double} (hf : η.Finite) (hη1 : 4999 / 10000000 ≤ η.val ∧ η.val ≤ 1 / 500) {tw : NArr Double [5]} (ht : ∀ i, (tw.elem i).Finite ∧ |vals Fp.val tw i| ≤ 1) :
    ∃ ds : List (NArr Double [5] × Bool), ds.length = 1000000 ∧
      (∀ d ∈ ds, ∀ i, ∃ j : ℕ, j < 2 ^ 53 ∧ d.1.elem i = Fp.round ((j : ℝ) / 2 ^ 53)) ∧
      ∃ s', logisticRun η tw (logisticInit 5) ds = .ok s' ∧
        ∀ i, s'.w.elem i = .nan := by
  have hη0 : 0 ≤ η.val := by linarith
  have hv := Fp.rangedExp (p := 52) (q := 1074) (E := 971) (by norm_num)
  obtain ⟨js, c, hlen, hjs, c0, c1, hc, hmod, hasc⟩ := climb hη1.1 hη1.2 999999 0 0 le_rfl (by norm_num)
    (.inl ⟨by norm_num, by norm_num⟩)
  have hcl : 741 / 100 ≤ c := by
    rcases hc with h | h | h
    · have := h.2
      push_cast at this
      linarith [h.1]
    · have := h.2
      push_cast at this
      by_contra hlt
      nlinarith [h.1]
    · exact h
  let ds : List (NArr Double [5] × Bool) := js.map fun j => (equal j, true)
  have hdl : ds.length = 999999 := by rw [List.length_map, hlen]
  have hmap : ds.map (fun d => (vals Fp.val d.1, d.2)) =
      js.map fun j : ℕ => ((fun _ : Fin 5 => (j : ℝ) / 2 ^ 53), true) := by
    rw [List.map_map]
    refine List.map_congr_left fun j hj => ?_
    exact congrArg (fun x => (x, true)) (equal_vals (hjs j hj))
  have hx : ∀ d ∈ ds, ∀ i, (d.1.elem i).Finite ∧ |vals Fp.val d.1 i| ≤ 1 := fun d hd i => by
    obtain ⟨j, hj, rfl⟩ := List.mem_map.1 hd
    have h := C78_drawn j (hjs j hj)
    have hj' : (j : ℝ) / 2 ^ 53 ≤ 1 := (div_le_one (by positivity)).2 (by exact_mod_cast (hjs j hj).le)
    refine ⟨by rw [equal_elem]; exact h.1, ?_⟩
    rw [equal_vals (hjs j hj), abs_of_nonneg (by positivity)]
    exact hj'
  have h5 : √((5 : ℕ) : ℝ) ≤ 2.24 := Real.sqrt_le_iff.2 ⟨by norm_num, by norm_num⟩
  have h50 := Real.sqrt_nonneg ((5 : ℕ) : ℝ)
  have hs0 : 0 ≤ stepErr 5 (1 / 2 ^ (52 + 1)) (1 / 2 ^ (52 + 1)) η.val 16 := by
    unfold stepErr dotErr
    have : (0 : ℝ) ≤ (1 + 1 / 2 ^ (52 + 1)) ^ (5 + 1) - 1 := by norm_num
    positivity
  have hs := stepErr_double (η := η.val) (by linarith)
  have hm : ds.length * (√((5 : ℕ) : ℝ) * stepErr 5 (1 / 2 ^ (52 + 1)) (1 / 2 ^ (52 + 1)) η.val 16) ≤ 1 / 10 ^ 8 := by
    have hn' : (ds.length : ℝ) ≤ 1000000 := by rw [hdl]; norm_num
    refine (mul_le_mul hn' (mul_le_mul h5 hs hs0 (by norm_num)) (by positivity) (by norm_num)).trans ?_
    norm_num
  have hi : ∀ i, (logisticInit (F := Double) 5).w.elem i = 0 := fun i => NArr.row_mkRows _ i
  have hv0 : vals Fp.val (logisticInit (F := Double) 5).w = fun _ => 0 := by
    funext i
    simp only [vals, hi]
    rfl
  rw [← hmap] at hmod hasc
  rw [← hv0] at hmod hasc
  have hD := dotErr_double
  obtain ⟨s, h, hsf, hsw⟩ := C80_run hv
    logistic_sizes_double (η := η) ⟨hf, hη0, by linarith⟩ (by push_cast; linarith) (tw := tw)
    (fun i => ⟨(ht i).1, (ht i).2.trans (by norm_num)⟩) (by norm_num at hD ⊢; linarith)
    (m := 1 / 10 ^ 8) (Y₀ := 8) (Z₀ := 2) (by norm_num) (by
      norm_num at hD ⊢
      norm_num at h5
      linarith) ds hx (logisticInit 5) (fun i => by rw [hi]; trivial) hmod hm
  rw [hasc] at hsw
  have hj : 2 ^ 53 - 1 < 2 ^ 53 := by norm_num
  have hxe : ∀ i, ((equal (2 ^ 53 - 1)).elem i).Finite ∧ |vals Fp.val (equal (2 ^ 53 - 1)) i| ≤ 1 := fun i => by
    refine ⟨by rw [equal_elem]; exact (C78_drawn _ hj).1, ?_⟩
    rw [equal_vals hj, abs_of_nonneg (by positivity)]
    norm_num
  have hwi : ∀ i, c - 1 / 10 ^ 8 ≤ vals Fp.val s.w i ∧ vals Fp.val s.w i ≤ c + 1 / 10 ^ 8 := fun i => by
    have := abs_le.1 ((hsw i).trans hm)
    constructor <;> linarith
  have hone : (2 : ℝ) ^ ((52 : ℕ) - (1074 : ℕ) : ℤ) ≤ 16 := tiny_double.trans (by norm_num)
  obtain ⟨fl, hl⟩ := dot_float hv hone hxe (w := s.w) (fun i => ⟨hsf i, by
    have h1 : c - 1 / 10 ^ 8 ≤ (s.w.elem i).val := (hwi i).1
    have h2 : (s.w.elem i).val ≤ c + 1 / 10 ^ 8 := (hwi i).2
    rw [abs_le]
    constructor <;> norm_num at h1 h2 ⊢ <;> linarith⟩) logistic_sizes_double.dot
  obtain ⟨ft, -⟩ := dot_float hv hone hxe (w := tw) (fun i => ⟨(ht i).1, (ht i).2.trans (by norm_num)⟩)
    logistic_sizes_double.dot
  have h37 : 37 ≤ (label (equal (2 ^ 53 - 1)) s.w).val := by
    have hp : 5 * (((2 ^ 53 - 1 : ℕ) : ℝ) / 2 ^ 53 * (c - 1 / 10 ^ 8)) ≤
        prod' (vals Fp.val (equal (2 ^ 53 - 1))) (vals Fp.val s.w) := by
      rw [equal_vals hj]
      have : ∀ i ∈ (Finset.univ : Finset (Fin 5)), ((2 ^ 53 - 1 : ℕ) : ℝ) / 2 ^ 53 * (c - 1 / 10 ^ 8) ≤
          ((2 ^ 53 - 1 : ℕ) : ℝ) / 2 ^ 53 * vals Fp.val s.w i := fun i _ =>
        mul_le_mul_of_nonneg_left (hwi i).1 (by positivity)
      refine le_trans (le_of_eq ?_) (Finset.sum_le_sum this)
      simp
    have hle := (abs_le.1 hl).1
    have hq : 3704 / 100 ≤ 5 * (((2 ^ 53 - 1 : ℕ) : ℝ) / 2 ^ 53 * (c - 1 / 10 ^ 8)) := by norm_num; linarith
    have hD' : dotErr 5 (1 / 2 ^ (52 + 1)) 16 ≤ 1 / 100 := hD.trans (by norm_num)
    have fin : ∀ {a b D q : ℝ}, -D ≤ a - b → q ≤ b → D ≤ 1 / 100 → 3704 / 100 ≤ q → 37 ≤ a :=
      fun h1 h2 h3 h4 => by linarith
    exact fin hle hp hD' hq
  obtain ⟨s', h', hn⟩ := C80_nan (s := s) η ft (fun i => (hxe i).1) fl h37
  refine ⟨ds ++ [(equal (2 ^ 53 - 1), false)], by rw [List.length_append, hdl]; rfl, fun d hd i => ?_, s', ?_, hn⟩
  · rcases List.mem_append.1 hd with hd | hd
    · obtain ⟨j, hj, rfl⟩ := List.mem_map.1 hd
      exact ⟨j, hjs j hj, equal_elem j i⟩
    · obtain rfl := List.mem_singleton.1 hd
      exact ⟨_, hj, equal_elem _ i⟩
  · rw [run_append, h]
    change (logisticStep η tw s (equal (2 ^ 53 - 1), false)).bind _ = _
    rw [h']
    rfl

/-- The program itself, in double precision: with its own rate, dimension and number of iterations there
are, for any true weights, draws within the range of the generator for which all weights end as NaN. -/
theorem C80_violation {tw : NArr Double [5]} (ht : ∀ i, (tw.elem i).Finite ∧ |vals Fp.val tw i| ≤ 1) :
    ∃ ds : List (NArr Double [5] × Bool), ds.length = 1000000 ∧
      (∀ d ∈ ds, ∀ i, ∃ j : ℕ, j < 2 ^ 53 ∧ d.1.elem i = Fp.round ((j : ℝ) / 2 ^ 53)) ∧
      ∃ s', logisticRun (Fp.round (1 / 2000) : Double) tw (logisticInit 5) ds = .ok s' ∧
        ∀ i, s'.w.elem i = .nan := by
  obtain ⟨hf, hη⟩ := logistic_rate
  refine nan_of_rate hf ?_ ht
  rw [abs_le] at hη
  constructor <;> norm_num at hη ⊢ <;> linarith

/-! ### Cases meeting the hypotheses -/

/-- One iteration from weights zero. -/
example : ∃ s', logisticRun (Fp.round (1 / 2000) : Double) (equal 7) (logisticInit 5)
    [(equal (2 ^ 52), true), (equal 1, false)] = .ok s' ∧ ∀ i, (s'.w.elem i).Finite := by
  have h : ∀ j < 2 ^ 53, ∀ i, ((equal j).elem i).Finite ∧ |vals Fp.val (equal j) i| ≤ 1 := fun j hj i => by
    refine ⟨by rw [equal_elem]; exact (C78_drawn _ hj).1, ?_⟩
    rw [equal_vals hj, abs_of_nonneg (by positivity)]
    exact (div_le_one (by positivity)).2 (by exact_mod_cast hj.le)
  obtain ⟨s', h1, h2, -⟩ := C80_double_partial (h 7 (by norm_num)) [(equal (2 ^ 52), true), (equal 1, false)]
    (by simp) (fun d hd i => by
      rcases List.mem_cons.1 hd with rfl | hd
      · exact h _ (by norm_num) i
      · obtain rfl := List.mem_singleton.1 hd
        exact h _ (by norm_num) i)
  exact ⟨s', h1, h2⟩

/-- A run that ends in NaN. -/
example : ∃ ds : List (NArr Double [5] × Bool), ds.length = 1000000 ∧
    ∃ s', logisticRun (Fp.round (1 / 2000) : Double) (equal 7) (logisticInit 5) ds = .ok s' ∧
      ∀ i, s'.w.elem i = .nan := by
  obtain ⟨ds, h1, -, h2⟩ := C80_violation (tw := equal 7) fun i => by
    have hj : 7 < 2 ^ 53 := by norm_num
    refine ⟨by rw [equal_elem]; exact (C78_drawn _ hj).1, ?_⟩
    rw [equal_vals hj, abs_of_nonneg (by positivity)]
    norm_num
  exact ⟨ds, h1, h2⟩

/-- NaN spreads. -/
example : ∃ s', logisticRun (1 : Double) (NArr.ofElems fun _ : Fin 2 => 0)
    ⟨NArr.ofElems fun _ => 0, 0, NArr.ofElems fun i => if i = 0 then .nan else 0⟩
      [(NArr.ofElems fun _ => 0, true)] = .ok s' ∧ ∀ k, s'.w.elem k = .nan := by
  have e : ∀ f : Fin 2 → Double, ∀ i, (NArr.ofElems f).elem i = f i := fun f i => NArr.row_mkRows _ i
  refine C80_poison 1 0 _ (fun d hd => ?_) _ (by rw [e]; rfl) (by simp)
  obtain rfl := List.mem_singleton.1 hd
  have hv := Fp.rangedExp (p := 52) (q := 1074) (E := 971) (by norm_num)
  refine (dot_float hv (Y := 1) (tiny_double.trans (by norm_num)) (fun i => ?_) (fun i => ?_)
    (large_logistic (by norm_num))).1 <;>
  · rw [e]
    exact ⟨trivial, by change |(0 : ℝ)| ≤ 1; norm_num⟩
end Aegir.Examples
