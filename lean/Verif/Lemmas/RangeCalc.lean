import Verif.Lemmas.RoundingExpr
/-!
# Rounding errors in arithmetic of limited range
-/

namespace Aegir

open Spec

theorem near.round_floor {u : ℝ} {k : ℕ} {r s a m : ℝ} (h : near u k r a m)
    (hs : |s - r| ≤ u * ((1 + u) ^ k * m)) : near u (k + 1) s a m := by
  refine ⟨h.1, ?_⟩
  have e : s - a = (s - r) + (r - a) := by ring
  calc |s - a| ≤ |s - r| + |r - a| := by rw [e]; exact abs_add_le _ _
    _ ≤ u * ((1 + u) ^ k * m) + ((1 + u) ^ k - 1) * m := add_le_add hs h.2
    _ = ((1 + u) ^ (k + 1) - 1) * m := by ring

theorem near.le_pow {u : ℝ} {k : ℕ} {r a m : ℝ} (hu : 0 ≤ u) (h : near u k r a m) :
    m ≤ (1 + u) ^ k * m := le_mul_of_one_le_left h.mag (near.pow_one hu k)

theorem near.eq_zero {u : ℝ} {k : ℕ} {r a : ℝ} (h : near u k r a 0) : r = 0 := by
  have := h.le_mag
  rw [mul_zero] at this
  exact abs_nonpos_iff.1 this

section
variable {F : Type} [Zero F] [One F] [Add F] [Sub F] [Mul F] [Neg F] [ScalarFns F]
variable {val : F → ℝ} {fin : F → Prop} {u lo hi θ : ℝ} {k l : ℕ} {x y : F} {a b m n : ℝ}

/-- Zero or at least `θ ^ (k + 1)`. -/
def Floor (θ : ℝ) (k : ℕ) (m : ℝ) : Prop := m = 0 ∨ θ ^ (k + 1) ≤ m

namespace Floor

theorem mono (h0 : 0 < θ) (h1 : θ ≤ 1) (h : Floor θ k m) (hk : k ≤ l) : Floor θ l m :=
  h.imp_right fun h => (pow_le_pow_of_le_one h0.le h1 (by omega)).trans h

theorem add (h : Floor θ k m) (h' : Floor θ k n) (hm : 0 ≤ m) (hn : 0 ≤ n) :
    Floor θ k (m + n) := by
  rcases h with rfl | h
  · rwa [zero_add]
  · exact .inr (by linarith)

theorem mul (h0 : 0 < θ) (h : Floor θ k m) (h' : Floor θ l n) : Floor θ (k + l + 1) (m * n) := by
  rcases h with rfl | h
  · exact .inl (zero_mul _)
  rcases h' with rfl | h'
  · exact .inl (mul_zero _)
  · refine .inr ?_
    rw [show k + l + 1 + 1 = (k + 1) + (l + 1) by omega, pow_add]
    exact mul_le_mul h h' (by positivity) ((pow_pos h0 _).le.trans h)

theorem sum {M : ℕ → ℝ} {N : ℕ} (h : ∀ i, i < N → Floor θ k (M i))
    (hm : ∀ i, i < N → 0 ≤ M i) : Floor θ k (∑ i ∈ Finset.range N, M i) := by
  induction N with
  | zero => exact .inl (by simp)
  | succ N ih =>
    rw [Finset.sum_range_succ]
    exact (ih (fun i hi => h i (by omega)) fun i hi => hm i (by omega)).add (h N (by omega))
      (Finset.sum_nonneg fun i hi => hm i (by have := Finset.mem_range.1 hi; omega)) (hm N (by omega))

/-- Underflow does not matter for such numbers. -/
theorem above (h : Floor θ k m) (hl : lo ≤ θ ^ (k + 1)) : m = 0 ∨ lo ≤ m := h.imp_right hl.trans

end Floor

namespace Spec.Ranged

theorem nadd (hv : Ranged val fin u lo hi) (hf : fin (x + y)) (h : near u k (val x) a m)
    (h' : near u l (val y) b n) : near u (max k l + 1) (val (x + y)) (a + b) (m + n) := by
  have h2 := h.add hv.nonneg h'
  exact h2.round_floor ((hv.add x y hf).2.2.trans
    (mul_le_mul_of_nonneg_left h2.le_mag hv.nonneg))

theorem nsub (hv : Ranged val fin u lo hi) (hf : fin (x - y)) (h : near u k (val x) a m)
    (h' : near u l (val y) b n) : near u (max k l + 1) (val (x - y)) (a - b) (m + n) := by
  have h2 := h.sub hv.nonneg h'
  exact h2.round_floor ((hv.sub x y hf).2.2.trans
    (mul_le_mul_of_nonneg_left h2.le_mag hv.nonneg))

theorem nprod (hv : Ranged val fin u lo hi) (hf : fin (x * y)) (h : near u k (val x * val y) a m)
    (hm : m = 0 ∨ lo ≤ m) : near u (k + 1) (val (x * y)) a m := by
  obtain ⟨-, -, h1, h2⟩ := hv.mul x y hf
  rcases hm with rfl | hm
  · have h3 := h.eq_zero
    rw [h2 h3]
    rw [h3] at h
    exact h.mono hv.nonneg (by omega)
  · exact h.round_floor (h1.trans (mul_le_mul_of_nonneg_left
      (max_le h.le_mag (hm.trans (h.le_pow hv.nonneg))) hv.nonneg))

theorem nsquare (hv : Ranged val fin u lo hi) (hf : fin (ScalarFns.pow x (1 + 1)))
    (h : near u k (val x) a m) (hm : m ^ 2 = 0 ∨ lo ≤ m ^ 2) :
    near u (2 * k + 1) (val (ScalarFns.pow x (1 + 1))) (a ^ 2) (m ^ 2) := by
  obtain ⟨-, h1, h2⟩ := hv.square x hf
  have h4 := (h.mul hv.nonneg h).mono hv.nonneg (show k + k ≤ 2 * k by omega)
  rw [← pow_two, ← pow_two, ← pow_two] at h4
  rcases hm with hm | hm
  · rw [hm] at h4 ⊢
    have h3 := h4.eq_zero
    rw [h2 (by simpa using h3)]
    rw [h3] at h4
    exact h4.mono hv.nonneg (by omega)
  · refine h4.round_floor (h1.trans (mul_le_mul_of_nonneg_left
      (max_le ?_ (hm.trans (h4.le_pow hv.nonneg))) hv.nonneg))
    exact (le_abs_self _).trans h4.le_mag

theorem nscale (hv : Ranged val fin u lo hi) {K : F} {N : ℕ} {A M : ℕ → ℝ}
    (hK : ScalarFns.fromUsize N = some K) (hf : fin (K * x))
    (h : ∀ i, i < N → near u k (val x) (A i) (M i))
    (hm : ∑ i ∈ Finset.range N, M i = 0 ∨ lo ≤ ∑ i ∈ Finset.range N, M i) :
    near u (k + 2) (val (K * x)) (∑ i ∈ Finset.range N, A i) (∑ i ∈ Finset.range N, M i) := by
  obtain ⟨-, δ, hδ, e⟩ := hv.fromUsize N K hK
  have h1 := near.sum (s := Finset.range N) (r := fun _ => val x) fun i hi => h i (Finset.mem_range.1 hi)
  rw [Finset.sum_const, Finset.card_range, nsmul_eq_mul] at h1
  have h2 := h1.round hv.nonneg hδ
  rw [show (N : ℝ) * val x * (1 + δ) = val K * val x by rw [e]; ring] at h2
  exact hv.nprod hf h2 hm

theorem ntimes_mid (hv : Ranged val fin u lo hi) {K : F} {N : ℕ} {A B M M' : ℕ → ℝ}
    (hK : ScalarFns.fromUsize N = some K) (hf : fin (K * x))
    (h : ∀ i, i < N → near u k (val x) (A i) (M i)) (h' : ∀ i, i < N → near u l (val y) (B i) (M' i))
    (hm : ∀ i, i < N → M i = 0 ∨ lo ≤ M i) :
    near u (k + l + 2) (val (K * x) * val y) (∑ i ∈ Finset.range N, A i * B i)
      (∑ i ∈ Finset.range N, M i * M' i) := by
  have hu := hv.nonneg
  obtain ⟨-, δ, hδ, e⟩ := hv.fromUsize N K hK
  have h1 := near.sum (s := Finset.range N) (r := fun _ => val x * val y) fun i hi =>
    (h i (Finset.mem_range.1 hi)).mul hu (h' i (Finset.mem_range.1 hi))
  rw [Finset.sum_const, Finset.card_range, nsmul_eq_mul] at h1
  have h2 := h1.round hu hδ
  rw [show (N : ℝ) * (val x * val y) * (1 + δ) = val K * val x * val y by rw [e]; ring] at h2
  obtain ⟨-, -, h3, h4⟩ := hv.mul K x hf
  set S := ∑ i ∈ Finset.range N, M i * M' i with hS
  by_cases hx : val K * val x = 0
  · rw [h4 hx, zero_mul]
    rw [hx, zero_mul] at h2
    exact h2.mono hu (by omega)
  · refine h2.round_floor ?_
    rw [← sub_mul, abs_mul]
    refine (mul_le_mul_of_nonneg_right h3 (abs_nonneg _)).trans ?_
    rw [mul_assoc]
    refine mul_le_mul_of_nonneg_left ?_ hu
    rw [max_mul_of_nonneg _ _ (abs_nonneg _), ← abs_mul]
    refine max_le h2.le_mag ?_
    have hN : 0 < N := by
      rcases Nat.eq_zero_or_pos N with rfl | hN
      · exact absurd (by rw [e]; simp) hx
      · exact hN
    have hM : lo ≤ M 0 := by
      refine (hm 0 hN).resolve_left fun h0 => hx ?_
      have := h 0 hN
      rw [h0] at this
      rw [this.eq_zero, mul_zero]
    have hy := (h' 0 hN).le_mag
    have hp := near.pow_one hu
    calc lo * |val y| ≤ M 0 * ((1 + u) ^ l * M' 0) :=
          mul_le_mul hM hy (abs_nonneg _) (h 0 hN).mag
      _ = (1 + u) ^ l * (M 0 * M' 0) := by ring
      _ ≤ (1 + u) ^ l * S := by
          refine mul_le_mul_of_nonneg_left ?_ (zero_le_one.trans (hp l))
          exact le_sum_range (f := fun i => M i * M' i)
            (fun j hj => mul_nonneg (h j hj).mag (h' j hj).mag) hN
      _ ≤ (1 + u) ^ (k + l + 1) * S :=
          mul_le_mul_of_nonneg_right (pow_le_pow_right₀ (by linarith) (by omega)) h2.mag

theorem ntimes (hv : Ranged val fin u lo hi) {K : F} {N : ℕ} {A B M M' : ℕ → ℝ}
    (hK : ScalarFns.fromUsize N = some K) (hf : fin (K * x * y))
    (h : ∀ i, i < N → near u k (val x) (A i) (M i)) (h' : ∀ i, i < N → near u l (val y) (B i) (M' i))
    (hm : ∀ i, i < N → M i = 0 ∨ lo ≤ M i)
    (hmm : ∑ i ∈ Finset.range N, M i * M' i = 0 ∨ lo ≤ ∑ i ∈ Finset.range N, M i * M' i) :
    near u (k + l + 3) (val (K * x * y)) (∑ i ∈ Finset.range N, A i * B i)
      (∑ i ∈ Finset.range N, M i * M' i) :=
  hv.nprod (k := k + l + 2) hf (hv.ntimes_mid hK (hv.mul _ _ hf).1 h h' hm) hmm

end Spec.Ranged

/-- If `x` is finite, it is the number `a` up to `k` roundings relative to the magnitude `m`. -/
def finiteJ (val : F → ℝ) (fin : F → Prop) (u lo θ : ℝ) : ℕ → F → ℝ → ℝ → Prop := fun k x a m =>
  |a| ≤ m ∧ Floor θ k m ∧ (fin x → lo ≤ θ ^ (k + 1) → near u k (val x) a m)

/-- `x` is finite and the number `a` up to `k` roundings relative to the magnitude `m`. -/
def rangedJ (val : F → ℝ) (fin : F → Prop) (u θ : ℝ) : ℕ → F → ℝ → ℝ → Prop := fun k x a m =>
  Floor θ k m ∧ fin x ∧ near u k (val x) a m

theorem low_of_le (h0 : 0 < θ) (h1 : θ ≤ 1) (h : lo ≤ θ ^ (l + 1)) (hk : k ≤ l) : lo ≤ θ ^ (k + 1) :=
  h.trans (pow_le_pow_of_le_one h0.le h1 (by omega))

theorem Spec.Ranged.calc_finite (hv : Ranged val fin u lo hi) (h0 : 0 < θ) (h1 : θ ≤ 1) :
    Calc (finiteJ val fin u lo θ) (fun _ _ => True) True := by
  have hu := hv.nonneg
  have lw : ∀ {k l : ℕ}, lo ≤ θ ^ (l + 1) → k ≤ l → lo ≤ θ ^ (k + 1) := fun h hk => low_of_le h0 h1 h hk
  have mg : ∀ {k x a m}, finiteJ val fin u lo θ k x a m → 0 ≤ m := fun h => (abs_nonneg _).trans h.1
  have zr : ∀ {k : ℕ} {a m : ℝ}, finiteJ val fin u lo θ k 0 a m → lo ≤ θ ^ (k + 1) →
      near u k 0 a m := fun {k a m} h hl => by
    have := h.2.2 hv.zero.1 hl
    rwa [hv.zero.2] at this
  have sums : ∀ {N : ℕ} {A M : ℕ → ℝ}, (∀ i, i < N → |A i| ≤ M i) →
      |∑ i ∈ Finset.range N, A i| ≤ ∑ i ∈ Finset.range N, M i := fun h =>
    (Finset.abs_sum_le_sum_abs _ _).trans (Finset.sum_le_sum fun i hi => h i (Finset.mem_range.1 hi))
  exact {
    anti := fun _ _ _ => trivial
    mag := fun h => h.1
    mono := fun h hk => ⟨h.1, h.2.1.mono h0 h1 hk, fun hf hl => (h.2.2 hf (lw hl hk)).mono hu hk⟩
    zero := ⟨by simp, .inl rfl, fun _ _ => by
      show near u 0 (val 0) 0 0
      rw [hv.zero.2]; exact ⟨by simp, by simp⟩⟩
    one := ⟨by simp, .inr (by simpa using h1), fun _ _ => by
      show near u 0 (val 1) 1 1
      rw [hv.one.2]; exact ⟨by simp, by simp⟩⟩
    two := ⟨by norm_num [abs_of_nonneg], .inr (by
        have : θ ^ (1 + 1) ≤ 1 := pow_le_one₀ h0.le h1
        linarith), fun hf _ => by
      have h : near u 0 (val (1 : F)) 1 1 := by rw [hv.one.2]; exact ⟨by simp, by simp⟩
      exact hv.nadd hf h h⟩
    isZero := fun {k x a m} hx h => ⟨h.1, h.2.1, fun _ hl => by
      have h2 := h.2.2 (hv.isZero x hx).1 hl
      rw [(hv.isZero x hx).2] at h2
      rwa [hv.zero.2]⟩
    neg := fun {k x a m} h => ⟨by rw [abs_neg]; exact h.1, h.2.1, fun hf hl => by
      have hf := (hv.neg x).1.1 hf
      rw [(hv.neg x).2 hf]
      exact (h.2.2 hf hl).neg⟩
    add := fun {k l x y a b m n} h h' _ =>
      ⟨(abs_add_le _ _).trans (add_le_add h.1 h'.1),
        (h.2.1.mono h0 h1 (by omega)).add (h'.2.1.mono h0 h1 (by omega)) (mg h) (mg h'),
        fun hf hl => hv.nadd hf (h.2.2 (hv.add x y hf).1 (lw hl (by omega)))
          (h'.2.2 (hv.add x y hf).2.1 (lw hl (by omega)))⟩
    sub := fun {k l x y a b m n} h h' _ =>
      ⟨(abs_sub _ _).trans (add_le_add h.1 h'.1),
        (h.2.1.mono h0 h1 (by omega)).add (h'.2.1.mono h0 h1 (by omega)) (mg h) (mg h'),
        fun hf hl => hv.nsub hf (h.2.2 (hv.sub x y hf).1 (lw hl (by omega)))
          (h'.2.2 (hv.sub x y hf).2.1 (lw hl (by omega)))⟩
    mul := fun {k l x y a b m n} h h' _ =>
      ⟨by rw [abs_mul]; exact mul_le_mul h.1 h'.1 (abs_nonneg _) (mg h), h.2.1.mul h0 h'.2.1,
        fun hf hl => hv.nprod hf ((h.2.2 (hv.mul x y hf).1 (lw hl (by omega))).mul hu
          (h'.2.2 (hv.mul x y hf).2.1 (lw hl (by omega)))) ((h.2.1.mul h0 h'.2.1).above hl)⟩
    square := fun {k x a m} h _ => by
      have hfl : Floor θ (2 * k + 1) (m ^ 2) := by
        have := h.2.1.mul h0 h.2.1
        rw [← pow_two] at this
        exact this.mono h0 h1 (by omega)
      exact ⟨by rw [abs_pow]; exact pow_le_pow_left₀ (abs_nonneg _) h.1 2, hfl,
        fun hf hl => hv.nsquare hf (h.2.2 (hv.square x hf).1 (lw hl (by omega))) (hfl.above hl)⟩
    addz := fun {k x a b m n} h h' =>
      ⟨(abs_add_le _ _).trans (add_le_add h.1 h'.1), h.2.1.add h'.2.1 (mg h) (mg h'), fun hf hl => by
        have := (h.2.2 hf hl).add hu (zr h' hl)
        rwa [add_zero, max_self] at this⟩
    subz := fun {k x a b m n} h h' =>
      ⟨(abs_sub _ _).trans (add_le_add h.1 h'.1), h.2.1.add h'.2.1 (mg h) (mg h'), fun hf hl => by
        have := (h.2.2 hf hl).sub hu (zr h' hl)
        rwa [sub_zero, max_self] at this⟩
    mulz := fun {k l y a b m n} h h' =>
      ⟨by rw [abs_mul]; exact mul_le_mul h.1 h'.1 (abs_nonneg _) (mg h), h.2.1.mul h0 h'.2.1,
        fun _ hl => by
          have h2 : near u l b b n := ⟨h'.1, by
            rw [sub_self, abs_zero]
            exact mul_nonneg (by linarith [near.pow_one hu l]) (mg h')⟩
          have := (zr h (lw hl (by omega))).mul hu h2
          rw [zero_mul] at this
          rw [hv.zero.2]
          exact this.mono hu (by omega)⟩
    scale := fun {k x K n A M} hK h _ _ => by
      have hfl := Floor.sum (fun i hi => (h i hi).2.1) fun i hi => mg (h i hi)
      refine ⟨sums fun i hi => (h i hi).1, hfl.mono h0 h1 (by omega), fun hf hl => ?_⟩
      exact hv.nscale hK hf (fun i hi => (h i hi).2.2 (hv.mul _ _ hf).2.1 (lw hl (by omega)))
        (hfl.above (lw hl (by omega)))
    times := fun {k l x y K n A B M N} hK h h' _ _ _ => by
      have hfl := Floor.sum (fun i hi => (h i hi).2.1.mul h0 (h' i hi).2.1)
        fun i hi => mul_nonneg (mg (h i hi)) (mg (h' i hi))
      refine ⟨sums fun i hi => ?_, hfl.mono h0 h1 (by omega), fun hf hl => ?_⟩
      · rw [abs_mul]
        exact mul_le_mul (h i hi).1 (h' i hi).1 (abs_nonneg _) (mg (h i hi))
      · obtain ⟨hf1, hf2, -⟩ := hv.mul _ _ hf
        exact hv.ntimes hK hf
          (fun i hi => (h i hi).2.2 (hv.mul _ _ hf1).2.1 (lw hl (by omega)))
          (fun i hi => (h' i hi).2.2 hf2 (lw hl (by omega)))
          (fun i hi => (h i hi).2.1.above (lw hl (by omega))) (hfl.above (lw hl (by omega))) }

theorem Spec.Ranged.calc_ranged (hv : Ranged val fin u lo hi) (h0 : 0 < θ) (h1 : θ ≤ 1) :
    Calc (rangedJ val fin u θ) (inRange u lo hi θ) False := by
  have hu := hv.nonneg
  have hpow : ∀ k : ℕ, (0 : ℝ) < (1 + u) ^ k := fun k => pow_pos (by linarith) k
  have lw : ∀ {k l : ℕ}, lo ≤ θ ^ (l + 1) → k ≤ l → lo ≤ θ ^ (k + 1) := fun h hk => low_of_le h0 h1 h hk
  have bd : ∀ {k l : ℕ} {r a m : ℝ}, near u k r a m → inRange u lo hi θ l m → k ≤ l → |r| ≤ hi :=
    fun {k l r a m} h hR hk => by
      have := (le_div_iff₀ (hpow l)).1 hR.2
      calc |r| ≤ (1 + u) ^ l * m := (h.mono hu hk).le_mag
        _ ≤ hi := by rwa [mul_comm]
  have zr : ∀ {k : ℕ} {a m : ℝ}, rangedJ val fin u θ k 0 a m → near u k 0 a m := fun {k a m} h => by
    have := h.2.2
    rwa [hv.zero.2] at this
  have nz : near u 0 (val (0 : F)) 0 0 := by rw [hv.zero.2]; exact ⟨by simp, by simp⟩
  have no : near u 0 (val (1 : F)) 1 1 := by rw [hv.one.2]; exact ⟨by simp, by simp⟩
  exact {
    anti := fun {k l m n} h hk hm => ⟨lw h.1 hk, hm.trans (h.2.trans (div_le_div_of_nonneg_left
      (by linarith [hv.two_le]) (hpow k) (pow_le_pow_right₀ (by linarith) hk)))⟩
    mag := fun h => h.2.2.1
    mono := fun h hk => ⟨h.1.mono h0 h1 hk, h.2.1, h.2.2.mono hu hk⟩
    zero := ⟨.inl rfl, hv.zero.1, nz⟩
    one := ⟨.inr (by simpa using h1), hv.one.1, no⟩
    two := by
      have hf : fin ((1 : F) + 1) := hv.add_fin _ _ hv.one.1 hv.one.1 (by
        rw [hv.one.2]; norm_num; exact hv.two_le)
      refine ⟨.inr ?_, hf, hv.nadd hf no no⟩
      have : θ ^ (1 + 1) ≤ 1 := pow_le_one₀ h0.le h1
      linarith
    isZero := fun {k x a m} hx h => ⟨h.1, hv.zero.1, by
      have h2 := h.2.2
      rw [(hv.isZero x hx).2] at h2
      rwa [hv.zero.2]⟩
    neg := fun {k x a m} h => ⟨h.1, (hv.neg x).1.2 h.2.1, by
      rw [(hv.neg x).2 h.2.1]; exact h.2.2.neg⟩
    add := fun {k l x y a b m n} h h' hR => by
      have hf := hv.add_fin x y h.2.1 h'.2.1 (bd (h.2.2.add hu h'.2.2) hR (by omega))
      exact ⟨(h.1.mono h0 h1 (by omega)).add (h'.1.mono h0 h1 (by omega)) h.2.2.mag h'.2.2.mag, hf,
        hv.nadd hf h.2.2 h'.2.2⟩
    sub := fun {k l x y a b m n} h h' hR => by
      have hf := hv.sub_fin x y h.2.1 h'.2.1 (bd (h.2.2.sub hu h'.2.2) hR (by omega))
      exact ⟨(h.1.mono h0 h1 (by omega)).add (h'.1.mono h0 h1 (by omega)) h.2.2.mag h'.2.2.mag, hf,
        hv.nsub hf h.2.2 h'.2.2⟩
    mul := fun {k l x y a b m n} h h' hR => by
      have h2 := h.2.2.mul hu h'.2.2
      have hf := hv.mul_fin x y h.2.1 h'.2.1 (bd h2 hR (by omega))
      exact ⟨h.1.mul h0 h'.1, hf, hv.nprod hf h2 ((h.1.mul h0 h'.1).above hR.1)⟩
    square := fun {k x a m} h hR => by
      have hfl : Floor θ (2 * k + 1) (m ^ 2) := by
        have := h.1.mul h0 h.1
        rw [← pow_two] at this
        exact this.mono h0 h1 (by omega)
      have h2 := h.2.2.mul hu h.2.2
      rw [← pow_two, ← pow_two, ← pow_two] at h2
      have hf := hv.square_fin x h.2.1 ((le_abs_self _).trans (bd h2 hR (by omega)))
      exact ⟨hfl, hf, hv.nsquare hf h.2.2 (hfl.above hR.1)⟩
    addz := fun {k x a b m n} h h' => ⟨h.1.add h'.1 h.2.2.mag h'.2.2.mag, h.2.1, by
      have := h.2.2.add hu (zr h')
      rwa [add_zero, max_self] at this⟩
    subz := fun {k x a b m n} h h' => ⟨h.1.add h'.1 h.2.2.mag h'.2.2.mag, h.2.1, by
      have := h.2.2.sub hu (zr h')
      rwa [sub_zero, max_self] at this⟩
    mulz := fun {k l y a b m n} h h' => ⟨h.1.mul h0 h'.1, hv.zero.1, by
      have := (zr h).mul hu h'.2.2
      rw [zero_mul] at this
      rw [hv.zero.2]
      exact this.mono hu (by omega)⟩
    scale := fun {k x K n A M} hK h hn hR => by
      have hn : 0 < n := Nat.pos_of_ne_zero (hn.resolve_right id)
      have hfl := Floor.sum (fun i hi => (h i hi).1) fun i hi => (h i hi).2.2.mag
      obtain ⟨hKf, δ, hδ, e⟩ := hv.fromUsize n K hK
      have h2 := near.sum (s := Finset.range n) (r := fun _ => val x) fun i hi =>
        (h i (Finset.mem_range.1 hi)).2.2
      rw [Finset.sum_const, Finset.card_range, nsmul_eq_mul] at h2
      have h2 := h2.round hu hδ
      rw [show (n : ℝ) * val x * (1 + δ) = val K * val x by rw [e]; ring] at h2
      have hf := hv.mul_fin K x hKf (h 0 hn).2.1 (bd h2 hR (by omega))
      exact ⟨hfl.mono h0 h1 (by omega), hf, hv.nscale hK hf (fun i hi => (h i hi).2.2)
        (hfl.above (lw hR.1 (by omega)))⟩
    times := fun {k l x y K n A B M N} hK h h' hn hR hR' => by
      have hn : 0 < n := Nat.pos_of_ne_zero (hn.resolve_right id)
      have hfs := Floor.sum (fun i hi => (h i hi).1) fun i hi => (h i hi).2.2.mag
      have hfl := Floor.sum (fun i hi => (h i hi).1.mul h0 (h' i hi).1)
        fun i hi => mul_nonneg (h i hi).2.2.mag (h' i hi).2.2.mag
      obtain ⟨hKf, δ, hδ, e⟩ := hv.fromUsize n K hK
      have h2 := near.sum (s := Finset.range n) (r := fun _ => val x) fun i hi =>
        (h i (Finset.mem_range.1 hi)).2.2
      rw [Finset.sum_const, Finset.card_range, nsmul_eq_mul] at h2
      have h2 := h2.round hu hδ
      rw [show (n : ℝ) * val x * (1 + δ) = val K * val x by rw [e]; ring] at h2
      have hf := hv.mul_fin K x hKf (h 0 hn).2.1 (bd h2 hR (by omega))
      have h3 := hv.ntimes_mid hK hf (fun i hi => (h i hi).2.2) (fun i hi => (h' i hi).2.2)
        (fun i hi => (h i hi).1.above (lw hR.1 (by omega)))
      have hf' := hv.mul_fin _ y hf (h' 0 hn).2.1 (bd h3 hR' (by omega))
      exact ⟨hfl.mono h0 h1 (by omega), hf', hv.nprod hf' h3 (hfl.above (lw hR'.1 (by omega)))⟩ }

end

end Aegir
