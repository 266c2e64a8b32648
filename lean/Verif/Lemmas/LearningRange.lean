import Verif.Lemmas.LearningRounded
import Verif.Lemmas.RangeBound
/-!
# One iteration of the linear regression example in arithmetic of limited range
-/

namespace Aegir

open Spec

section
variable {F : Type} [Zero F] [One F] [Add F] [Sub F] [Mul F] [Neg F] [ScalarFns F]
variable {J : ℕ → F → ℝ → ℝ → Prop} {R : ℕ → ℝ → Prop} {lax : Prop}

/-- A left fold of additions of products. -/
theorem Calc.foldl (hv : Calc J R lax) {ι : Type} {f g : ι → F} {A B M M' : ι → ℝ}
    (hf : ∀ i, J 0 (f i) (A i) (M i)) (hg : ∀ i, J 0 (g i) (B i) (M' i)) (l : List ι) (acc : F)
    {k : ℕ} {a m : ℝ} (h : J (k + 1) acc a m)
    (hR : R (k + 1 + l.length) (m + (l.map fun i => M i * M' i).sum)) :
    J (k + 1 + l.length) (l.foldl (fun acc i => acc + f i * g i) acc)
      (a + (l.map fun i => A i * B i).sum) (m + (l.map fun i => M i * M' i).sum) := by
  induction l generalizing acc k a m with
  | nil => simpa using h
  | cons i l ih =>
    simp only [List.foldl_cons, List.map_cons, List.sum_cons, List.length_cons] at hR ⊢
    have hp : ∀ i, 0 ≤ M i * M' i := fun i => mul_nonneg (hv.pos (hf i)) (hv.pos (hg i))
    have hs : 0 ≤ (l.map fun i => M i * M' i).sum :=
      List.sum_nonneg fun x hx => by
        obtain ⟨i, -, rfl⟩ := List.mem_map.1 hx
        exact hp i
    have hm := hv.pos h
    have h1 := hv.mul (hf i) (hg i) (hv.anti hR (by omega) (by linarith [hp i]))
    have h2 := hv.mono (hv.add h h1 (hv.anti hR (by omega) (by linarith))) (l := k + 1 + 1) (by omega)
    rw [← add_assoc m, show k + 1 + (l.length + 1) = k + 1 + 1 + l.length by omega] at hR ⊢
    rw [← add_assoc a]
    exact ih _ h2 hR

end

namespace Examples

variable {F : Type} [Zero F] [One F] [Add F] [Sub F] [Mul F] [Div F] [Neg F] [ScalarFns F]
variable {N : Nat} {val : F → ℝ} {fin : F → Prop} {u lo hi θ A Y : ℝ}

/-- Sizes for which an iteration with `N` weights stays in range: samples and true weights up to `A`,
labels, weights and the rate up to `Y`. Numbers smaller than `θ` are counted as `θ`. -/
structure Sizes (N : ℕ) (u lo hi θ A Y : ℝ) : Prop where
  pos : 0 < θ
  le_one : θ ≤ 1
  two_le : 2 ≤ Y
  floor : θ ≤ A
  le : A ≤ Y
  label : (1 + u) ^ (N + 1) * (N * A ^ 2) ≤ Y
  low : lo ≤ θ ^ (3 * N + 16)
  high : Y ^ (3 * N + 16) * (1 + u) ^ (3 * N + 15) ≤ hi

theorem Sizes.inRange (h : Sizes N u lo hi θ A Y) (hu : 0 ≤ u) {k : ℕ} {m : ℝ} (hk : k ≤ 3 * N + 15)
    (hm : m ≤ Y ^ (3 * N + 16)) : inRange u lo hi θ k m := by
  have hpow : ∀ k : ℕ, (0 : ℝ) < (1 + u) ^ k := fun k => pow_pos (by linarith) k
  refine ⟨h.low.trans (pow_le_pow_of_le_one h.pos.le h.le_one (by omega)), ?_⟩
  rw [le_div_iff₀ (hpow k)]
  have hY : (0 : ℝ) ≤ Y ^ (3 * N + 16) := pow_nonneg (by linarith [h.two_le]) _
  calc m * (1 + u) ^ k ≤ Y ^ (3 * N + 16) * (1 + u) ^ k := mul_le_mul_of_nonneg_right hm (hpow k).le
    _ ≤ Y ^ (3 * N + 16) * (1 + u) ^ (3 * N + 15) :=
      mul_le_mul_of_nonneg_left (pow_le_pow_right₀ (by linarith) hk) hY
    _ ≤ hi := h.high

/-- The size of a number, at least `θ`. -/
local notation "hat" => atLeast θ val

omit [Zero F] [One F] [Add F] [Sub F] [Mul F] [Div F] [Neg F] [ScalarFns F] in
theorem hat_leaf (h0 : 0 < θ) {x : F} (hx : fin x) : rangedJ val fin u θ 0 x (val x) (hat x) := by
  have := rangedJ_leaf (val := val) (u := u) h0 x hx
  rwa [show |hat x| = hat x from abs_of_nonneg (h0.le.trans (le_max_left _ _))] at this

omit [Div F] in
/-- The computed label. -/
theorem label_ranged (hv : Ranged val fin u lo hi) (hs : Sizes N u lo hi θ A Y) {x tw : NArr F [N]}
    (hx : ∀ i, fin (x.elem i)) (ht : ∀ i, fin (tw.elem i))
    (hT : ∑ i, hat (x.elem i) * hat (tw.elem i) ≤ Y ^ (3 * N + 16)) :
    rangedJ val fin u θ (N + 1) (label x tw) (∑ i, val (x.elem i) * val (tw.elem i))
      (∑ i, hat (x.elem i) * hat (tw.elem i)) := by
  have hc := hv.calc_ranged hs.pos hs.le_one
  have e : ∀ f : Fin N → ℝ, ((List.finRange N).map f).sum = ∑ i, f i := fun f => by
    rw [← List.sum_ofFn, List.ofFn_eq_map]
  have h := hc.foldl (fun i => hat_leaf hs.pos (hx i)) (fun i => hat_leaf hs.pos (ht i))
    (List.finRange N) 0 (k := 0) (hc.mono hc.zero (Nat.zero_le _)) (by
      rw [e, zero_add, List.length_finRange]
      exact hs.inRange hv.nonneg (by omega) (by rwa [zero_add]))
  rw [e, e, zero_add, zero_add, zero_add, List.length_finRange] at h
  exact hc.mono h (by omega)

/-- The computed gradient. -/
theorem sse_ranged (hv : Ranged val fin u lo hi) (hs : Sizes N u lo hi θ A Y) (hN : N ≠ 0)
    (s : Data F N) (hx : ∀ i, fin (s.x.elem i) ∧ |val (s.x.elem i)| ≤ Y)
    (hw : ∀ i, fin (s.w.elem i) ∧ |val (s.w.elem i)| ≤ Y) (hy : fin s.y ∧ |val s.y| ≤ Y)
    {g : NArr F [N]} (h : ((sseImpl N).evaluate s.ctx).1 = .ok g) (k : Fin N) :
    rangedJ val fin u θ (2 * N + 12) (g.elem k)
      (2 * (∑ i, val (s.x.elem i) * val (s.w.elem i) - val s.y) * val (s.x.elem k))
      (2 * (∑ i, hat (s.x.elem i) * hat (s.w.elem i) + hat s.y) * hat (s.x.elem k)) := by
  have he : RingExpr (sseAdj : Node F) := by simp [RingExpr, sseAdj]
  have hvec : ∀ {P : F → Prop} (a : NArr F [N]), (∀ i, P (a.elem i)) →
      ∀ ix z, Buf.getU (.array [N]) a ix = some z → P z := fun {P} a ha ix z hz => by
    have hb := (Buf.getU_isSome_iff (τ := .array [N]) a ix).1 (by rw [hz]; rfl)
    obtain ⟨i, rfl, hi⟩ : ∃ i, ix = [i] ∧ i < N := by
      cases hb with | cons hi hb =>
      cases hb
      exact ⟨_, rfl, hi⟩
    · rw [show Buf.getU (.array [N]) a [i] = _ from NArr.getU_elem a i hi, Option.some_inj] at hz
      rw [← hz]
      exact ha _
  have hc : CtxAll (fun z => fin z ∧ |val z| ≤ Y) s.ctx := fun i b hb => by
    match i, b, hb with
    | 0, b, hb => cases hb; exact hvec s.x hx
    | 1, b, hb =>
      cases hb
      intro ix z hz
      match ix, hz with
      | [], hz => cases hz; exact hy
    | 2, b, hb => cases hb; exact hvec s.w hw
    | _ + 3, b, hb => cases hb
  have hK : ∀ n, SubExpr n (sseAdj : Node F) → roundings (ctxDims s.ctx) n ≤ 2 * N + 12 := fun n hn => by
    rw [← roundings_sse s]
    refine roundings_sub hn he fun n t h => ?_
    simp [sseAdj] at h
  have hR := ranges_of_moderate (fin := fin) (lo := lo) (hi := hi) (θ := θ) (val := val) (K := 2 * N + 12)
    hv.nonneg hs.pos hs.le_one hs.two_le
    (hs.low.trans (pow_le_pow_of_le_one hs.pos.le hs.le_one (by omega))) (by
      have h1 : (0 : ℝ) ≤ 1 + u := by linarith [hv.nonneg]
      have h2 : (1 : ℝ) ≤ Y := by linarith [hs.two_le]
      refine le_trans (mul_le_mul (pow_le_pow_right₀ h2 (by omega))
        (pow_le_pow_right₀ (by linarith [hv.nonneg]) (by omega)) (pow_nonneg h1 _)
        (pow_nonneg (by linarith) _)) hs.high) he s.ctx
    (fun i b hb ix z hz => (hc i b hb ix z hz).2) (by simp [sseAdj, ConstsAll]) (by
      have hW : ctxDims s.ctx W = [N] := rfl
      simp [sseAdj, NonemptySums, extents, hW, hN]) hK
  have hn := (((sseImpl (F := F) N).ranged_spec hv hs.pos hs.le_one he sse_regular s.ctx
    (fun i b hb ix z hz => (hc i b hb ix z hz).1) hR).1.2 g h).1
  rw [roundings_sse, ← convData_ctx, ← convData_ctx] at hn
  have h1 := exact_sse (F := F) (val := val) (convData val s)
  have h2 := positive_sse (F := F) (val := hat) (convData hat s)
  obtain ⟨z, hz, hb⟩ := hn.2.2 [k.val] (by rw [h1.1]; exact .cons k.2 .nil)
  rw [show Buf.getU (.array [N]) g [k] = _ from NArr.getU_elem g k k.2, Option.some_inj] at hz
  subst hz
  rw [h1.2, h2.2] at hb
  simp only [dotXW, convData, map_elem] at hb
  exact hb

/-- `near` through an operand that is itself only near, and counts as at least `θ`. -/
theorem near_trans_floor {k l : ℕ} {g S M y t m c C : ℝ} (hu : 0 ≤ u) (h0 : 0 ≤ θ) (hC : |c| ≤ C)
    (hS : |S| ≤ M) (hg : |g - c * (S - y)| ≤ ((1 + u) ^ k - 1) * (C * (M + max θ |y|)))
    (hy : near u l y t m) : near u (k + l) g (c * (S - t)) (C * (M + θ + m)) := by
  have hm := hy.mag
  have hM : 0 ≤ M := (abs_nonneg _).trans hS
  have hC0 : 0 ≤ C := (abs_nonneg _).trans hC
  have hk : 1 ≤ (1 + u) ^ k := one_le_pow₀ (by linarith)
  have hl : 1 ≤ (1 + u) ^ l := one_le_pow₀ (by linarith)
  refine ⟨?_, ?_⟩
  · rw [abs_mul]
    refine mul_le_mul hC ((abs_sub _ _).trans ?_) (abs_nonneg _) hC0
    linarith [hy.1]
  · have h1 := hy.le_mag
    have h2 : |g - c * (S - t)| ≤ |g - c * (S - y)| + |c| * |y - t| := by
      rw [← abs_mul]
      refine le_trans (le_of_eq ?_) (abs_sub _ _)
      congr 1
      ring
    have hmax : max θ |y| ≤ θ + (1 + u) ^ l * m :=
      max_le (by nlinarith [mul_nonneg (zero_le_one.trans hl) hm]) (by linarith)
    have h3 : ((1 + u) ^ k - 1) * (C * (M + max θ |y|)) ≤
        ((1 + u) ^ k - 1) * (C * (M + (θ + (1 + u) ^ l * m))) := by
      have : 0 ≤ (1 + u) ^ k - 1 := by linarith
      gcongr
    have h4 : |c| * |y - t| ≤ C * (((1 + u) ^ l - 1) * m) := mul_le_mul hC hy.2 (abs_nonneg _) hC0
    have h5 : ((1 + u) ^ k - 1) * (C * (M + θ)) ≤ ((1 + u) ^ (k + l) - 1) * (C * (M + θ)) := by
      have : (1 + u) ^ k ≤ (1 + u) ^ (k + l) := pow_le_pow_right₀ (by linarith) (by omega)
      have : 0 ≤ C * (M + θ) := by positivity
      gcongr
    have h6 : (1 + u) ^ (k + l) = (1 + u) ^ k * (1 + u) ^ l := pow_add _ _ _
    have e : ((1 + u) ^ (k + l) - 1) * (C * (M + θ + m)) =
      ((1 + u) ^ (k + l) - 1) * (C * (M + θ)) +
        (((1 + u) ^ k - 1) * (C * ((1 + u) ^ l * m)) + C * (((1 + u) ^ l - 1) * m)) := by
      rw [h6]; ring
    have e2 : ((1 + u) ^ k - 1) * (C * (M + (θ + (1 + u) ^ l * m))) =
      ((1 + u) ^ k - 1) * (C * (M + θ)) + ((1 + u) ^ k - 1) * (C * ((1 + u) ^ l * m)) := by ring
    linarith

/-- One iteration: it never panics, the weights remain numbers, and they are those of a step of
gradient descent up to `3 N + 15` roundings, when numbers less than `θ` count as `θ`. -/
theorem linearStep_ranged (hv : Ranged val fin u lo hi) (hs : Sizes N u lo hi θ A Y) (hN : N ≠ 0)
    {η : F} (hη : fin η ∧ |val η| ≤ Y) {tw : NArr F [N]}
    (ht : ∀ i, fin (tw.elem i) ∧ |val (tw.elem i)| ≤ A) {s : Data F N}
    (hw : ∀ i, fin (s.w.elem i) ∧ |val (s.w.elem i)| ≤ Y) {x : NArr F [N]}
    (hx : ∀ i, fin (x.elem i) ∧ |val (x.elem i)| ≤ A) :
    ∃ s', linearStep η tw s x = .ok s' ∧ ∀ k, fin (s'.w.elem k) ∧
      |val (s'.w.elem k) - lmsStep (val η) (fun i => val (tw.elem i)) (fun i => val (s.w.elem i))
          (fun i => val (x.elem i)) k| ≤
        ((1 + u) ^ (3 * N + 15) - 1) * (hat (s.w.elem k) + hat η * (2 * hat (x.elem k) *
          (∑ i, hat (x.elem i) * hat (s.w.elem i) + θ + ∑ i, hat (x.elem i) * hat (tw.elem i)))) := by
  have hu := hv.nonneg
  have hc := hv.calc_ranged hs.pos hs.le_one
  have hY2 := hs.two_le
  have hY1 : (1 : ℝ) ≤ Y := by linarith
  have h0 := hs.pos
  have hθY : θ ≤ Y := hs.floor.trans hs.le
  have hA0 : 0 < A := h0.trans_le hs.floor
  have hp : ∀ z : F, θ ≤ hat z := fun z => le_max_left _ _
  have hp0 : ∀ z : F, 0 ≤ hat z := fun z => h0.le.trans (hp z)
  have hhA : ∀ {z : F}, |val z| ≤ A → hat z ≤ A := fun h => max_le hs.floor h
  have hhY : ∀ {z : F}, |val z| ≤ Y → hat z ≤ Y := fun h => max_le hθY h
  -- the label
  set T := ∑ i, hat (x.elem i) * hat (tw.elem i) with hT
  have hTA : T ≤ N * A ^ 2 := by
    calc T ≤ ∑ _i : Fin N, A ^ 2 := Finset.sum_le_sum fun i _ => by
          rw [pow_two]
          exact mul_le_mul (hhA (hx i).2) (hhA (ht i).2) (hp0 _) hA0.le
      _ = N * A ^ 2 := by simp
  have hT0 : 0 ≤ T := Finset.sum_nonneg fun i _ => mul_nonneg (hp0 _) (hp0 _)
  have hTY : (1 + u) ^ (N + 1) * T ≤ Y :=
    (mul_le_mul_of_nonneg_left hTA (pow_nonneg (by linarith) _)).trans hs.label
  have hTY' : T ≤ Y := le_trans (le_mul_of_one_le_left hT0 (one_le_pow₀ (by linarith))) hTY
  have hYp : ∀ n : ℕ, n ≤ 3 * N + 16 → Y ^ n ≤ Y ^ (3 * N + 16) := fun n hn => pow_le_pow_right₀ hY1 hn
  have hlab := label_ranged (val := val) hv hs (fun i => (hx i).1) (fun i => (ht i).1)
    (by have := hYp 1 (by omega); rw [pow_one] at this; exact hTY'.trans this)
  have hlabY : |val (label x tw)| ≤ Y := hlab.2.2.le_mag.trans hTY
  -- the gradient
  obtain ⟨g, hg⟩ := sse_total (⟨x, label x tw, s.w⟩ : Data F N)
  refine ⟨⟨x, label x tw, update (fun w g => w - η * g) s.w g⟩, ?_, fun k => ?_⟩
  · simp only [linearStep]
    rw [hg]
    rfl
  set S := ∑ i, hat (x.elem i) * hat (s.w.elem i) with hS
  have hS0 : 0 ≤ S := Finset.sum_nonneg fun i _ => mul_nonneg (hp0 _) (hp0 _)
  have hSY : S ≤ Y ^ (N + 2) := by
    calc S ≤ ∑ _i : Fin N, Y ^ 2 := Finset.sum_le_sum fun i _ => by
          rw [pow_two]
          exact mul_le_mul (hhY ((hx i).2.trans hs.le)) (hhY (hw i).2) (hp0 _) (by linarith)
      _ = N * Y ^ 2 := by simp
      _ ≤ Y ^ N * Y ^ 2 := mul_le_mul_of_nonneg_right (natCast_le_pow hY2 N) (by positivity)
      _ = Y ^ (N + 2) := (pow_add _ _ _).symm
  have h1 := sse_ranged (val := val) hv hs hN (⟨x, label x tw, s.w⟩ : Data F N)
    (fun i => ⟨(hx i).1, (hx i).2.trans hs.le⟩) hw ⟨hlab.2.1, hlabY⟩ hg k
  simp only at h1
  have hSS : |∑ i, val (x.elem i) * val (s.w.elem i)| ≤ S :=
    (Finset.abs_sum_le_sum_abs _ _).trans (Finset.sum_le_sum fun i _ => by
      rw [abs_mul]
      exact mul_le_mul (le_max_right _ _) (le_max_right _ _) (abs_nonneg _) (hp0 _))
  have h2 := near_trans_floor (c := 2 * val (x.elem k)) (C := 2 * hat (x.elem k)) hu h0.le
    (by rw [abs_mul, abs_two]; exact mul_le_mul_of_nonneg_left (le_max_right _ _) (by norm_num))
    hSS (k := 2 * N + 12) (g := val (g.elem k)) (by
      refine le_trans (le_of_eq ?_) (le_trans h1.2.2.2 (le_of_eq ?_))
      · congr 1; ring
      · rw [show hat (label x tw) = max θ |val (label x tw)| from rfl]; ring) hlab.2.2
  have hgJ : rangedJ val fin u θ (3 * N + 13) (g.elem k)
      (2 * val (x.elem k) * (∑ i, val (x.elem i) * val (s.w.elem i) - ∑ i, val (x.elem i) * val (tw.elem i)))
      (2 * hat (x.elem k) * (S + θ + T)) := by
    refine ⟨.inr ?_, h1.2.1, h2.mono hu (by omega)⟩
    calc θ ^ (3 * N + 13 + 1) ≤ θ ^ 2 := pow_le_pow_of_le_one h0.le hs.le_one (by omega)
      _ = θ * θ := pow_two _
      _ ≤ (2 * hat (x.elem k)) * (S + θ + T) :=
        mul_le_mul (by linarith [hp (x.elem k)]) (by linarith) h0.le (by linarith [hp0 (x.elem k)])
  -- the update
  have hb1 : S + θ + T ≤ Y ^ (N + 3) := by
    have e1 : Y + Y ≤ Y ^ (N + 2) := by
      calc Y + Y ≤ Y * Y := by nlinarith
        _ = Y ^ 2 := (pow_two _).symm
        _ ≤ Y ^ (N + 2) := pow_le_pow_right₀ hY1 (by omega)
    have := two_mul_pow hY2 (N + 2)
    linarith
  have hb2 : hat η * (2 * hat (x.elem k) * (S + θ + T)) ≤ Y ^ (N + 6) := by
    have e1 : 2 * hat (x.elem k) ≤ Y * Y := mul_le_mul hY2 (hhY ((hx k).2.trans hs.le)) (hp0 _) (by linarith)
    calc hat η * (2 * hat (x.elem k) * (S + θ + T)) ≤ Y * (Y * Y * Y ^ (N + 3)) :=
          mul_le_mul (hhY hη.2) (mul_le_mul e1 hb1 (by linarith) (by positivity))
            (mul_nonneg (by linarith [hp0 (x.elem k)]) (by linarith)) (by linarith)
      _ = Y ^ (N + 6) := by ring
  have hb3 : hat (s.w.elem k) + hat η * (2 * hat (x.elem k) * (S + θ + T)) ≤ Y ^ (N + 7) := by
    have e1 : Y ≤ Y ^ (N + 6) := by
      calc Y = Y ^ 1 := (pow_one _).symm
        _ ≤ _ := pow_le_pow_right₀ hY1 (by omega)
    have := two_mul_pow hY2 (N + 6)
    linarith [hhY (hw k).2]
  have h4 := hc.mul (hat_leaf h0 hη.1) hgJ (hs.inRange hu (by omega) (hb2.trans (hYp _ (by omega))))
  have h5 := hc.mono (hc.sub (hat_leaf h0 (hw k).1) h4
    (hs.inRange hu (by omega) (hb3.trans (hYp _ (by omega))))) (l := 3 * N + 15) (by omega)
  show fin ((update (fun w g => w - η * g) s.w g).elem k) ∧
    |val ((update (fun w g => w - η * g) s.w g).elem k) - _| ≤ _
  rw [update_elem]
  refine ⟨h5.2.1, le_trans (le_of_eq ?_) h5.2.2.2⟩
  congr 1
  simp only [lmsStep, err, inner']
  ring

/-! ### Lengths -/

theorem len_const (h0 : 0 ≤ θ) : len (fun _ : Fin N => θ) = √N * θ := by
  have : inner' (fun _ : Fin N => θ) (fun _ => θ) = N * θ ^ 2 := by simp [inner', pow_two]
  rw [len, this, Real.sqrt_mul (Nat.cast_nonneg N), Real.sqrt_sq h0]

theorem len_floor (h0 : 0 ≤ θ) (a : Fin N → ℝ) : len (fun i => max θ |a i|) ≤ len a + √N * θ := by
  rw [← len_const h0, ← len_abs a]
  refine le_trans (len_mono fun i => ?_) (len_add_le _ _)
  rw [abs_of_nonneg (h0.trans (le_max_left _ _))]
  exact max_le (by linarith [abs_nonneg (a i)]) (by linarith)

theorem le_len (a : Fin N → ℝ) (i : Fin N) : |a i| ≤ len a := by
  refine Real.abs_le_sqrt ?_
  rw [pow_two]
  exact Finset.single_le_sum (f := fun i => a i * a i) (fun j _ => mul_self_nonneg _)
    (Finset.mem_univ i)

/-- The distance after a step whose result is perturbed as in `linearStep_ranged`. -/
theorem perturbed_floor (hN : N ≠ 0) {h H r γ : ℝ} (h0 : 0 ≤ θ) (hH : 0 ≤ H) (hγ : 0 ≤ γ)
    {tw w x w' : Fin N → ℝ}
    (hx : H * inner' (fun i => max θ |x i|) (fun i => max θ |x i|) ≤ r)
    (hw : ∀ k, |w' k - lmsStep h tw w x k| ≤ γ * (max θ |w k| + H * (2 * max θ |x k| *
      (∑ i, max θ |x i| * max θ |w i| + θ + ∑ i, max θ |x i| * max θ |tw i|)))) :
    √(dist2 w' tw) ≤ √(dist2 (lmsStep h tw w x) tw) +
      γ * ((1 + 2 * r) * √(dist2 w tw) +
        ((1 + 4 * r) * (√(inner' tw tw) + √N * θ) + 2 * r)) := by
  have hT : √(inner' tw tw) = len tw := rfl
  rw [dist_eq_len, dist_eq_len, dist_eq_len, hT]
  set d := len fun i => w i - tw i with hd
  set q := √N * θ with hq
  have hq0 : 0 ≤ q := mul_nonneg (Real.sqrt_nonneg _) h0
  have hd0 : 0 ≤ d := len_nonneg _
  have ht0 : 0 ≤ len tw := len_nonneg _
  have hwl : len w ≤ d + len tw := by
    have := len_add_le (fun i => w i - tw i) tw
    simpa using this
  have hr : 0 ≤ r := le_trans (mul_nonneg hH (inner_self_nonneg' _)) hx
  have h1 : len (fun i => w' i - tw i) ≤ len (fun i => lmsStep h tw w x i - tw i) +
      len fun i => w' i - lmsStep h tw w x i := by
    refine le_trans (le_of_eq ?_) (len_add_le _ _)
    congr 1
    funext i
    ring
  refine le_trans h1 (add_le_add_right ?_ _)
  refine le_trans (len_mono hw) ?_
  rw [len_smul hγ]
  refine mul_le_mul_of_nonneg_left ?_ hγ
  refine le_trans (len_add_le _ _) ?_
  have hW := len_floor h0 w
  have hTW := len_floor h0 tw
  set xh : Fin N → ℝ := fun i => max θ |x i| with hxh
  set wh : Fin N → ℝ := fun i => max θ |w i| with hwh
  set th : Fin N → ℝ := fun i => max θ |tw i| with hth
  have hs1 : ∑ i, max θ |x i| * max θ |w i| ≤ len xh * len wh := inner_le_len xh wh
  have hs2 : ∑ i, max θ |x i| * max θ |tw i| ≤ len xh * len th := inner_le_len xh th
  have hs3 : θ ≤ len xh := by
    refine le_trans ?_ (le_len xh ⟨0, Nat.pos_of_ne_zero hN⟩)
    exact (le_max_left _ _).trans (le_abs_self _)
  set S := ∑ i, max θ |x i| * max θ |w i| + θ + ∑ i, max θ |x i| * max θ |tw i| with hS
  have hS0 : 0 ≤ S := by
    have : ∀ a b : Fin N → ℝ, 0 ≤ ∑ i, max θ |a i| * max θ |b i| := fun a b =>
      Finset.sum_nonneg fun i _ => mul_nonneg (h0.trans (le_max_left _ _)) (h0.trans (le_max_left _ _))
    have h1 := this x w
    have h2 := this x tw
    linarith
  have h2 : (fun k => H * (2 * max θ |x k| * S)) = fun k => (H * (2 * S)) * xh k := by
    funext k; simp only [hxh]; ring
  rw [h2, len_smul (by positivity)]
  have hx0 := len_nonneg xh
  have h3 : H * (2 * S) * len xh ≤ 2 * (H * len xh ^ 2) * (len wh + len th + 1) := by
    have : S ≤ len xh * (len wh + len th + 1) := by rw [mul_add, mul_add]; linarith
    calc H * (2 * S) * len xh ≤ H * (2 * (len xh * (len wh + len th + 1))) * len xh := by gcongr
      _ = _ := by ring
  rw [len_sq] at h3
  have hw0 := len_nonneg wh
  have hth0 := len_nonneg th
  have h4 : 2 * (H * inner' xh xh) * (len wh + len th + 1) ≤
      2 * r * (d + len tw + q + (len tw + q) + 1) := by
    gcongr
    linarith
  nlinarith

end Examples
end Aegir
