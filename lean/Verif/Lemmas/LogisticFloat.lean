import Verif.Lemmas.LogisticOp
import Verif.Lemmas.IeeeExp
import Verif.Props.C79_LogisticLearns
import Verif.Props.C78_LinearDouble
/-!
# The logistic regression example in floating-point arithmetic
-/

namespace Aegir.Examples
open Aegir.Spec

variable {F : Type} [Zero F] [One F] [Add F] [Sub F] [Mul F] [Div F] [Neg F] [ScalarFns F] {N : Nat}
variable {val : F → ℝ} {fin : F → Prop} {u v lo hi : ℝ}

omit [Zero F] [One F] [Add F] [Sub F] [Mul F] [Div F] [Neg F] [ScalarFns F] in
theorem nearby_eq {r z : F} {t : ℝ} (h : Nearby val fin r t) (hz : fin z) (e : val z = t) : val r = t :=
  le_antisymm (by rw [← e]; exact (h z hz).2 e.ge) (by conv_lhs => rw [← e]
                                                       exact (h z hz).1 e.le)

theorem exact_add (hv : RangedExp val fin u v lo hi) {x y z : F} (hx : fin x) (hy : fin y) (hz : fin z)
    (e : val z = val x + val y) (h : |val z| ≤ hi) : fin (x + y) ∧ val (x + y) = val z := by
  have hf := hv.add_fin x y hx hy (by rw [← e]; exact h)
  exact ⟨hf, (nearby_eq (hv.add_nearby x y hf) hz e).trans e.symm⟩

theorem exact_sub (hv : RangedExp val fin u v lo hi) {x y z : F} (hx : fin x) (hy : fin y) (hz : fin z)
    (e : val z = val x - val y) (h : |val z| ≤ hi) : fin (x - y) ∧ val (x - y) = val z := by
  have hf := hv.sub_fin x y hx hy (by rw [← e]; exact h)
  exact ⟨hf, (nearby_eq (hv.sub_nearby x y hf) hz e).trans e.symm⟩

theorem exact_mul (hv : RangedExp val fin u v lo hi) {x y z : F} (hx : fin x) (hy : fin y) (hz : fin z)
    (e : val z = val x * val y) (h : |val z| ≤ hi) : fin (x * y) ∧ val (x * y) = val z := by
  have hf := hv.mul_fin x y hx hy (by rw [← e]; exact h)
  exact ⟨hf, (nearby_eq (hv.mul_nearby x y hf) hz e).trans e.symm⟩

/-! ### The logistic function -/

theorem sigmoid_float (hv : RangedExp val fin u v lo hi) (hlo : lo ≤ 1) {x : F} (hx : fin x) :
    fin (sigmoid x) ∧ 0 ≤ val (sigmoid x) ∧ val (sigmoid x) ≤ 1 ∧
      |val (sigmoid x) - logistic (val x)| ≤ v + 3 * u := by
  have h2 := hv.two_le
  have hu := hv.nonneg
  have hv0 := hv.nonneg'
  obtain ⟨f1, e1⟩ := hv.one
  obtain ⟨f0, e0⟩ := hv.zero
  -- the denominator
  have den : ∀ e : F, fin e → 0 ≤ val e → val e ≤ 1 → fin (1 + e) ∧ 1 ≤ val (1 + e) ∧
      val e ≤ val (1 + e) ∧ |val (1 + e) - (1 + val e)| ≤ 2 * u := fun e fe he0 he1 => by
    have hf : fin (1 + e) := hv.add_fin 1 e f1 fe (by rw [e1, abs_of_nonneg (by linarith)]; linarith)
    have hk := hv.add_nearby 1 e hf
    have h3 := (hv.add 1 e hf).2.2
    rw [e1] at hk h3
    refine ⟨hf, ?_, ?_, h3.trans ?_⟩
    · have := (hk 1 f1).1 (by rw [e1]; linarith)
      rwa [e1] at this
    · exact (hk e fe).1 (by linarith)
    · rw [abs_of_nonneg (by linarith)]
      nlinarith
  by_cases hneg : ScalarFns.leb 0 x = true
  · have h0 : 0 ≤ val x := by
      have := (hv.le 0 x f0 hx).1 hneg
      rwa [e0] at this
    have hn := hv.neg x
    have hvn : val (-x) = -val x := hn.2 hx
    obtain ⟨fe, ee0, ee1, ee⟩ := hv.exp (-x) (hn.1.2 hx) (by rw [hvn]; linarith)
    rw [hvn] at ee
    obtain ⟨fd, hd1, -, hd⟩ := den _ fe ee0 ee1
    have es : sigmoid x = 1 / (1 + ScalarFns.exp (-x)) := by simp only [sigmoid, hneg, if_true]
    rw [es]
    set e := ScalarFns.exp (-x)
    set d := val (1 + e)
    have hd0 : 0 < d := by linarith
    have hq1 : val 1 / d ≤ 1 := by rw [e1, div_le_one hd0]; exact hd1
    have hq0 : 0 ≤ val 1 / d := by rw [e1]; positivity
    obtain ⟨fp, hp, hk⟩ := hv.div 1 (1 + e) f1 fd hd0.ne' (by rw [abs_of_nonneg hq0]; linarith)
    refine ⟨fp, ?_, ?_, ?_⟩
    · have := (hk 0 f0).1 (by rw [e0]; exact hq0)
      rwa [e0] at this
    · have := (hk 1 f1).2 (by rw [e1] at hq1 ⊢; exact hq1)
      rwa [e1] at this
    · have hE0 := Real.exp_pos (-val x)
      have hE1 : Real.exp (-val x) ≤ 1 := Real.exp_le_one_iff.2 (by linarith)
      have h3 : |d - (1 + Real.exp (-val x))| ≤ 2 * u + v := by
        have h4 : |val e - Real.exp (-val x)| ≤ v :=
          ee.trans (by nlinarith [max_le hE1 hlo])
        have := abs_add_le (d - (1 + val e)) (val e - Real.exp (-val x))
        rw [show d - (1 + val e) + (val e - Real.exp (-val x)) = d - (1 + Real.exp (-val x)) by ring] at this
        linarith
      have h5 : |val 1 / d - logistic (val x)| ≤ 2 * u + v := by
        have : val 1 / d - logistic (val x) = -(d - (1 + Real.exp (-val x))) /
            (d * (1 + Real.exp (-val x))) := by
          rw [e1, logistic]; field_simp; ring
        rw [this, abs_div, abs_neg, abs_of_pos (by positivity : 0 < d * (1 + Real.exp (-val x)))]
        exact (div_le_self (abs_nonneg _) (by nlinarith)).trans h3
      have h6 : |val (1 / (1 + e)) - val 1 / d| ≤ u := hp.trans (by
        rw [abs_of_nonneg hq0]
        nlinarith [max_le hq1 hlo])
      have := abs_add_le (val (1 / (1 + e)) - val 1 / d) (val 1 / d - logistic (val x))
      rw [sub_add_sub_cancel] at this
      linarith
  · have h0 : val x < 0 := by
      by_contra h
      exact hneg ((hv.le 0 x f0 hx).2 (by rw [e0]; linarith))
    obtain ⟨fe, ee0, ee1, ee⟩ := hv.exp x hx h0.le
    obtain ⟨fd, hd1, hed, hd⟩ := den _ fe ee0 ee1
    have hdr := (hv.add 1 (ScalarFns.exp x) fd).2.2
    rw [e1] at hdr
    have es : sigmoid x = ScalarFns.exp x / (1 + ScalarFns.exp x) := by
      simp only [sigmoid, hneg, if_false, Bool.false_eq_true]
    rw [es]
    set e := ScalarFns.exp x
    set d := val (1 + e)
    have hd0 : 0 < d := by linarith
    have hq1 : val e / d ≤ 1 := by rw [div_le_one hd0]; exact hed
    have hq0 : 0 ≤ val e / d := by positivity
    obtain ⟨fp, hp, hk⟩ := hv.div e (1 + e) fe fd hd0.ne' (by rw [abs_of_nonneg hq0]; linarith)
    refine ⟨fp, ?_, ?_, ?_⟩
    · have := (hk 0 f0).1 (by rw [e0]; exact hq0)
      rwa [e0] at this
    · have := (hk 1 f1).2 (by rw [e1]; exact hq1)
      rwa [e1] at this
    · have hE0 := Real.exp_pos (val x)
      have hE1 : Real.exp (val x) ≤ 1 := Real.exp_le_one_iff.2 (by linarith)
      set E := Real.exp (val x) with hE
      have h4 : |val e - E| ≤ v := ee.trans (by nlinarith [max_le hE1 hlo])
      have hlog : logistic (val x) = E / (1 + E) := by
        rw [logistic, Real.exp_neg, ← hE]; field_simp; ring
      have h5 : |val e / d - logistic (val x)| ≤ 2 * u + v := by
        have : val e / d - logistic (val x) = ((val e - E) - E * (d - (1 + val e))) / (d * (1 + E)) := by
          rw [hlog]; field_simp; ring
        rw [this, abs_div, abs_of_pos (by positivity : 0 < d * (1 + E))]
        refine (div_le_self (abs_nonneg _) (by nlinarith)).trans ?_
        have h7 := abs_sub (val e - E) (E * (d - (1 + val e)))
        rw [abs_mul, abs_of_pos hE0] at h7
        have h8 : E * |d - (1 + val e)| ≤ 1 * (2 * u) := mul_le_mul hE1 hd (abs_nonneg _) zero_le_one
        linarith
      have h6 : |val (e / (1 + e)) - val e / d| ≤ u := hp.trans (by
        rw [abs_of_nonneg hq0]
        nlinarith [max_le hq1 hlo])
      have := abs_add_le (val (e / (1 + e)) - val e / d) (val e / d - logistic (val x))
      rw [sub_add_sub_cancel] at this
      linarith

/-- The slope of the logistic function is at most a quarter. -/
theorem abs_logistic_sub (a b : ℝ) : |logistic a - logistic b| ≤ |a - b| / 4 := by
  rcases le_total b a with h | h
  · rw [abs_of_nonneg (by linarith [logistic_mono h]), abs_of_nonneg (by linarith)]
    linarith [logistic_sub_le h]
  · rw [abs_of_nonpos (by linarith [logistic_mono h]), abs_of_nonpos (by linarith)]
    linarith [logistic_sub_le h]

/-! ### The gradient -/

theorem mul_small {a b c : ℝ} (ha : |a| ≤ 1) (hb : |b| ≤ c) : |a * b| ≤ c := by
  rw [abs_mul]
  exact (mul_le_of_le_one_left (abs_nonneg b) ha).trans hb

/-- The bounds of a sigmoid away from its ends. -/
theorem logistic_low {t Z : ℝ} (ht : |t| ≤ Z) : Real.exp (-Z) / 2 ≤ logistic t := by
  have h1 := logistic_mono (abs_le.1 ht).1
  refine le_trans ?_ h1
  have hZ0 : 0 ≤ Z := (abs_nonneg t).trans ht
  have h3 : Real.exp (-Z) ≤ 1 := Real.exp_le_one_iff.2 (by linarith)
  have h4 := Real.exp_pos (-Z)
  rw [logistic, neg_neg, show Z = - -Z by ring, Real.exp_neg (-Z), neg_neg]
  rw [div_le_div_iff₀ (by norm_num) (by positivity)]
  rw [mul_add, mul_inv_cancel₀ h4.ne']
  linarith

/-- One quotient: `fl(fl(x r) / d)` with `r = fl(d s)` is about `x s`. -/
theorem quotient_float (hv : RangedExp val fin u v lo hi) (hlo : lo ≤ 1) (hu : u ≤ 1 / 3)
    {x r d a : F} {s : ℝ} (fd : fin d) (hx1 : |val x| ≤ 1) (hs0 : 0 ≤ s)
    (hs1 : s ≤ 1) (hd0 : 0 < val d) (hld : lo ≤ val d)
    (hr : |val r - val d * s| ≤ u * max (val d * s) lo)
    (fa : fin a) (ha : |val a - val x * val r| ≤ u * max |val x * val r| lo) :
    fin (a / d) ∧ |val (a / d) - val x * s| ≤ 5 * u := by
  have hu0 := hv.nonneg
  have h2 := hv.two_le
  set D := val d
  have hr' : |val r - D * s| ≤ u * D := hr.trans (mul_le_mul_of_nonneg_left
    (max_le (by nlinarith) hld) hu0)
  have hr2 : |val r| ≤ 2 * D := by
    have := abs_sub_abs_le_abs_sub (val r) (D * s)
    rw [abs_of_nonneg (by positivity : 0 ≤ D * s)] at this
    nlinarith
  have ha' : |val a - val x * val r| ≤ 2 * u * D := ha.trans (by
    rw [abs_mul, mul_comm 2 u, mul_assoc]
    refine mul_le_mul_of_nonneg_left (max_le ?_ (by linarith)) hu0
    nlinarith [abs_nonneg (val x), abs_nonneg (val r)])
  have h3 : |val a / D - val x * s| ≤ 3 * u := by
    have e : val a / D - val x * s = ((val a - val x * val r) + val x * (val r - D * s)) / D := by
      field_simp; ring
    rw [e, abs_div, abs_of_pos hd0, div_le_iff₀ hd0]
    refine (abs_add_le _ _).trans ?_
    rw [abs_mul]
    nlinarith [abs_nonneg (val x), abs_nonneg (val r - D * s)]
  have h4 : |val a / D| ≤ 2 := by
    have := abs_sub_abs_le_abs_sub (val a / D) (val x * s)
    rw [abs_mul, abs_of_nonneg hs0] at this
    nlinarith [abs_nonneg (val x)]
  obtain ⟨fq, hq, -⟩ := hv.div a d fa fd hd0.ne' (h4.trans h2)
  refine ⟨fq, ?_⟩
  have h5 : |val (a / d) - val a / D| ≤ 2 * u := hq.trans (by
    rw [mul_comm 2 u]
    exact mul_le_mul_of_nonneg_left (max_le h4 (by linarith)) hu0)
  have := abs_add_le (val (a / d) - val a / D) (val a / D - val x * s)
  rw [sub_add_sub_cancel] at this
  linarith

theorem gradient_float (hv : RangedExp val fin u v lo hi) (hlo : lo ≤ 1) (hu : u ≤ 1 / 3)
    {z x : F} {Z : ℝ} (hZ : 2 * lo + v + 3 * u < Real.exp (-Z) / 2) (fz : fin z)
    (hz : |val z| ≤ Z) (fx : fin x) (hx1 : |val x| ≤ 1) (b : Bool) :
    fin (gradEntry z (if b then 1 else 0) x) ∧
      |val (gradEntry z (if b then 1 else 0) x) -
        ((if b then 1 else 0) - logistic (val z)) * val x| ≤ v + 9 * u := by
  have h2 := hv.two_le
  have hu0 := hv.nonneg
  have hv0 := hv.nonneg'
  have hlo0 := hv.lo_nonneg
  obtain ⟨f1, e1⟩ := hv.one
  obtain ⟨f0, e0⟩ := hv.zero
  obtain ⟨fp, hp0, hp1, hp⟩ := sigmoid_float hv hlo fz
  set p := sigmoid z with hpz
  have hs := logistic_range (val z)
  have hlz := logistic_low hz
  have hlz' : Real.exp (-Z) / 2 ≤ 1 - logistic (val z) := by
    rw [one_sub_logistic]
    exact logistic_low (by rwa [abs_neg])
  set σ := logistic (val z)
  have hp' := abs_le.1 hp
  -- `1 - p`
  have fq : fin (1 - p) := hv.sub_fin 1 p f1 fp (by rw [e1, abs_of_nonneg (by linarith)]; linarith)
  have hq := (hv.sub 1 p fq).2.2
  have hqk := hv.sub_nearby 1 p fq
  rw [e1] at hq hqk
  rw [abs_of_nonneg (by linarith : 0 ≤ 1 - val p)] at hq
  have hq1 : val (1 - p) ≤ 1 := by
    have := (hqk 1 f1).2 (by rw [e1]; linarith)
    rwa [e1] at this
  have hq' := abs_le.1 hq
  have hqlow : lo < val (1 - p) ∧ 0 < val (1 - p) := by
    have h5 : 2 * lo < 1 - val p := by linarith
    constructor <;> nlinarith
  have hplow : lo < val p ∧ 0 < val p := by constructor <;> linarith
  -- `p * (1 - p)`
  have fr : fin (p * (1 - p)) := hv.mul_fin _ _ fp fq (by
    rw [abs_of_nonneg (mul_nonneg hp0 hqlow.2.le)]; nlinarith)
  have hr := (hv.mul _ _ fr).2.2.1
  rw [abs_of_nonneg (mul_nonneg hp0 hqlow.2.le)] at hr
  -- `x * 1 * (p * (1 - p))`
  obtain ⟨fx1, ex1⟩ := exact_mul hv fx f1 fx (by rw [e1, mul_one]) (by linarith)
  have hpq : val p * val (1 - p) ≤ 1 := by nlinarith
  have hpq0 : 0 ≤ val p * val (1 - p) := mul_nonneg hp0 hqlow.2.le
  have hrle : |val (p * (1 - p))| ≤ 1 + u := by
    have := abs_sub_abs_le_abs_sub (val (p * (1 - p))) (val p * val (1 - p))
    rw [abs_of_nonneg hpq0] at this
    have : u * max (val p * val (1 - p)) lo ≤ u * 1 := mul_le_mul_of_nonneg_left (max_le hpq hlo) hu0
    linarith
  have hxr : |val (x * 1) * val (p * (1 - p))| ≤ 1 + u := by
    rw [ex1]; exact mul_small hx1 hrle
  have fa : fin (x * 1 * (p * (1 - p))) := hv.mul_fin _ _ fx1 fr (by linarith)
  have ha := (hv.mul _ _ fa).2.2.1
  rw [ex1] at ha hxr
  set a := x * 1 * (p * (1 - p)) with haz
  have ha2 : |val a| ≤ 2 := by
    have h6 := abs_sub_abs_le_abs_sub (val a) (val x * val (p * (1 - p)))
    have : u * max |val x * val (p * (1 - p))| lo ≤ u * (1 + u) :=
      mul_le_mul_of_nonneg_left (max_le hxr (by linarith)) hu0
    nlinarith
  obtain ⟨fna, ena⟩ : fin (-a) ∧ val (-a) = -val a := ⟨(hv.neg a).1.2 fa, (hv.neg a).2 fa⟩
  have h0hi : |val (0 : F)| ≤ hi := by rw [e0, abs_zero]; linarith
  have h1hi : |val (1 : F)| ≤ hi := by rw [e1, abs_one]; linarith
  have hahi : |val a| ≤ hi := by linarith
  have hnahi : |val (-a)| ≤ hi := by rw [ena, abs_neg]; exact hahi
  have hphi : |val p| ≤ hi := by rw [abs_of_nonneg hp0]; linarith
  have hqhi : |val (1 - p)| ≤ hi := by rw [abs_of_pos hqlow.2]; linarith
  cases b
  · simp only [Bool.false_eq_true, if_false]
    obtain ⟨g1, g1'⟩ := exact_sub hv f1 f0 f1 (by rw [e1, e0, sub_zero]) h1hi
    obtain ⟨g2, g2'⟩ := exact_mul hv fa f0 f0 (by rw [e0, mul_zero]) h0hi
    obtain ⟨g3, g3'⟩ := exact_mul hv fna g1 fna (by rw [g1', e1, mul_one]) hnahi
    obtain ⟨g4, g4'⟩ := exact_add hv g2 g3 fna (by rw [g2', g3', e0, zero_add]) hnahi
    obtain ⟨g5, g5'⟩ := exact_mul hv fp f0 f0 (by rw [e0, mul_zero]) h0hi
    obtain ⟨g6, g6'⟩ := exact_mul hv fq g1 fq (by rw [g1', e1, mul_one]) hqhi
    obtain ⟨g7, g7'⟩ := exact_add hv g5 g6 fq (by rw [g5', g6', e0, zero_add]) hqhi
    have fnx := (hv.neg x).1.2 fx
    have enx := (hv.neg x).2 fx
    obtain ⟨fg, hg⟩ := quotient_float hv hlo hu (x := -x) (r := p * (1 - p)) (s := val p) g7
      (by rw [enx, abs_neg]; exact hx1) hp0 hp1 (by rw [g7']; exact hqlow.2) (by rw [g7']; exact hqlow.1.le)
      (by rw [g7', mul_comm (val (1 - p))]; exact hr) g4
      (by rw [g4', ena, enx, neg_mul, abs_neg, neg_sub_neg, abs_sub_comm]; exact ha)
    refine ⟨fg, ?_⟩
    have h8 : |val (-x) * val p - (0 - σ) * val x| ≤ v + 3 * u := by
      rw [enx, show -val x * val p - (0 - σ) * val x = -(val x * (val p - σ)) by ring, abs_neg]
      exact mul_small hx1 hp
    have := abs_add_le (val (gradEntry z 0 x) - val (-x) * val p) (val (-x) * val p - (0 - σ) * val x)
    rw [sub_add_sub_cancel] at this
    refine this.trans ?_
    have hg' : |val (gradEntry z 0 x) - val (-x) * val p| ≤ 5 * u := hg
    linarith
  · simp only [if_true]
    obtain ⟨g1, g1'⟩ := exact_sub hv f1 f1 f0 (by rw [e1, e0, sub_self]) h0hi
    obtain ⟨g2, g2'⟩ := exact_mul hv fa f1 fa (by rw [e1, mul_one]) hahi
    obtain ⟨g3, g3'⟩ := exact_mul hv fna g1 f0 (by rw [g1', e0, mul_zero]) h0hi
    obtain ⟨g4, g4'⟩ := exact_add hv g2 g3 fa (by rw [g2', g3', e0, add_zero]) hahi
    obtain ⟨g5, g5'⟩ := exact_mul hv fp f1 fp (by rw [e1, mul_one]) hphi
    obtain ⟨g6, g6'⟩ := exact_mul hv fq g1 f0 (by rw [g1', e0, mul_zero]) h0hi
    obtain ⟨g7, g7'⟩ := exact_add hv g5 g6 fp (by rw [g5', g6', e0, add_zero]) hphi
    obtain ⟨fg, hg⟩ := quotient_float hv hlo hu (x := x) (r := p * (1 - p)) (s := val (1 - p)) g7
      hx1 hqlow.2.le hq1 (by rw [g7']; exact hplow.2) (by rw [g7']; exact hplow.1.le)
      (by rw [g7']; exact hr) g4 (by rw [g4']; exact ha)
    refine ⟨fg, ?_⟩
    have h8 : |val x * val (1 - p) - (1 - σ) * val x| ≤ v + 4 * u := by
      rw [show val x * val (1 - p) - (1 - σ) * val x =
        val x * ((val (1 - p) - (1 - val p)) - (val p - σ)) by ring]
      have h9 := abs_sub (val (1 - p) - (1 - val p)) (val p - σ)
      have h10 : u * (1 - val p) ≤ u * 1 := mul_le_mul_of_nonneg_left (by linarith) hu0
      exact mul_small hx1 (by linarith)
    have := abs_add_le (val (gradEntry z 1 x) - val x * val (1 - p)) (val x * val (1 - p) - (1 - σ) * val x)
    rw [sub_add_sub_cancel] at this
    refine this.trans ?_
    have hg' : |val (gradEntry z 1 x) - val x * val (1 - p)| ≤ 5 * u := hg
    linarith

/-! ### Inner products -/

theorem foldl_float (hv : RangedExp val fin u v lo hi) {ι : Type} {f g : ι → F} {Y : ℝ} (hlo : lo ≤ Y)
    (hf : ∀ i, fin (f i) ∧ |val (f i)| ≤ 1) (hg : ∀ i, fin (g i) ∧ |val (g i)| ≤ Y) (l : List ι) :
    ∀ (acc : F) (A M : ℝ) (k : ℕ), 1 ≤ k → fin acc → |A| ≤ M →
      |val acc - A| ≤ ((1 + u) ^ k - 1) * M → (1 + u) ^ (k + l.length) * (M + l.length * Y) ≤ hi →
      fin (l.foldl (fun acc i => acc + f i * g i) acc) ∧
        |val (l.foldl (fun acc i => acc + f i * g i) acc) - (A + (l.map fun i => val (f i) * val (g i)).sum)| ≤
          ((1 + u) ^ (k + l.length) - 1) * (M + l.length * Y) := by
  have hu := hv.nonneg
  have hY : 0 ≤ Y := hv.lo_nonneg.trans hlo
  induction l with
  | nil =>
    intro acc A M k _ fa hA hacc _
    simpa using ⟨fa, hacc⟩
  | cons i l ih =>
    intro acc A M k hk fa hA hacc hhi
    have hM : 0 ≤ M := (abs_nonneg A).trans hA
    have hp1 : 1 ≤ (1 + u) ^ k := one_le_pow₀ (by linarith)
    have hpu : 1 + u ≤ (1 + u) ^ k := by
      calc 1 + u = (1 + u) ^ 1 := (pow_one _).symm
        _ ≤ _ := pow_le_pow_right₀ (by linarith) hk
    have hlen : (((i :: l).length : ℕ) : ℝ) = l.length + 1 := by push_cast [List.length_cons]; ring
    have hln : (0 : ℝ) ≤ l.length := Nat.cast_nonneg _
    have hbig : (1 + u) ^ k * (M + Y) ≤ hi := by
      refine le_trans (mul_le_mul (pow_le_pow_right₀ (by linarith) (Nat.le_add_right _ _)) ?_
        (by linarith) (by positivity)) hhi
      rw [hlen]; nlinarith
    obtain ⟨fi, hi1⟩ := hf i
    obtain ⟨gi, gi1⟩ := hg i
    have hprod : |val (f i) * val (g i)| ≤ Y := mul_small hi1 gi1
    have ft : fin (f i * g i) := hv.mul_fin _ _ fi gi (hprod.trans (by nlinarith))
    have ht : |val (f i * g i) - val (f i) * val (g i)| ≤ u * Y := (hv.mul _ _ ft).2.2.1.trans
      (mul_le_mul_of_nonneg_left (max_le hprod hlo) hu)
    set t := val (f i * g i)
    set T := val (f i) * val (g i)
    have hvacc : |val acc| ≤ (1 + u) ^ k * M := by
      have := abs_sub_abs_le_abs_sub (val acc) A
      linarith
    have hvt : |t| ≤ (1 + u) ^ k * Y := by
      have := abs_sub_abs_le_abs_sub t T
      nlinarith
    have hsum : |val acc + t| ≤ (1 + u) ^ k * (M + Y) := by
      rw [mul_add]; exact (abs_add_le _ _).trans (add_le_add hvacc hvt)
    have fs : fin (acc + f i * g i) := hv.add_fin _ _ fa ft (hsum.trans hbig)
    have hs := (hv.add _ _ fs).2.2
    have hE : |val (acc + f i * g i) - (A + T)| ≤ ((1 + u) ^ (k + 1) - 1) * (M + Y) := by
      have h1 := abs_add_le (val (acc + f i * g i) - (val acc + t)) ((val acc - A) + (t - T))
      have h2 := abs_add_le (val acc - A) (t - T)
      rw [show val (acc + f i * g i) - (val acc + t) + ((val acc - A) + (t - T)) =
        val (acc + f i * g i) - (A + T) by ring] at h1
      have h3 : u * |val acc + t| ≤ u * ((1 + u) ^ k * (M + Y)) := mul_le_mul_of_nonneg_left hsum hu
      have h4 : u * Y ≤ ((1 + u) ^ k - 1) * Y := mul_le_mul_of_nonneg_right (by linarith) hY
      rw [pow_succ]
      nlinarith
    have key := ih (acc + f i * g i) (A + T) (M + Y) (k + 1) (by omega) fs
      ((abs_add_le _ _).trans (add_le_add hA hprod)) hE (by
        rw [show k + 1 + l.length = k + (i :: l).length by simp; omega,
          show M + Y + l.length * Y = M + ((i :: l).length : ℕ) * Y by rw [hlen]; ring]
        exact hhi)
    rw [show k + 1 + l.length = k + (i :: l).length by simp; omega,
      show M + Y + l.length * Y = M + ((i :: l).length : ℕ) * Y by rw [hlen]; ring] at key
    refine ⟨key.1, ?_⟩
    simp only [List.map_cons, List.sum_cons, List.foldl_cons]
    rw [← add_assoc]
    exact key.2

/-- What the inner product of `N` terms of size at most `Y` loses. -/
noncomputable def dotErr (N : ℕ) (u Y : ℝ) : ℝ := ((1 + u) ^ (N + 1) - 1) * (N * Y)

theorem dot_float (hv : RangedExp val fin u v lo hi) {x w : NArr F [N]} {Y : ℝ} (hlo : lo ≤ Y)
    (hx : ∀ i, fin (x.elem i) ∧ |val (x.elem i)| ≤ 1) (hw : ∀ i, fin (w.elem i) ∧ |val (w.elem i)| ≤ Y)
    (hhi : (1 + u) ^ (N + 1) * (N * Y) ≤ hi) :
    fin (label x w) ∧ |val (label x w) - prod' (vals val x) (vals val w)| ≤ dotErr N u Y := by
  obtain ⟨f0, e0⟩ := hv.zero
  have h := foldl_float hv hlo hx hw (List.finRange N) 0 0 0 1 le_rfl f0 (by simp) (by simp [e0])
    (by rw [List.length_finRange, zero_add, add_comm 1 N]; exact hhi)
  rw [List.length_finRange, zero_add, zero_add, add_comm 1 N] at h
  refine ⟨h.1, ?_⟩
  have e : ((List.finRange N).map fun i => val (x.elem i) * val (w.elem i)).sum =
      prod' (vals val x) (vals val w) := by
    rw [← List.ofFn_eq_map, List.sum_ofFn]; rfl
  rw [← e]
  exact h.2

end Aegir.Examples
