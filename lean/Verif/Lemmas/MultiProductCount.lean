import Verif.Lemmas.MultiProduct
/-! Helper lemmas about `count` and `size_hint`. -/

namespace Aegir.MultiProduct

open Spec

theorem at_axes_snoc (ds : Dims) (d k : Nat) :
    (at_ (ds ++ [d]) k).axes = (at_ ds (k / d)).axes ++ [onIx (k % d) d] := by
  simp [at_, stR, dec]

theorem fold_count_at (ds : Dims) (k : Nat) (hk : k < ds.prod) :
    (at_ ds k).axes.foldl (fun acc a => acc * a.iterOrig.count + a.iter.count) 0
      = ds.prod - (k + 1) := by
  induction ds using List.reverseRecOn generalizing k with
  | nil =>
    have : k = 0 := by simpa using hk
    subst this; rfl
  | append_singleton ds d ih =>
    rw [List.prod_append, List.prod_singleton] at hk ⊢
    have hd : 0 < d := Nat.pos_of_ne_zero (by rintro rfl; simp at hk)
    have hq : k / d < ds.prod := Nat.div_lt_of_lt_mul (by rwa [Nat.mul_comm])
    rw [at_axes_snoc, List.foldl_append, ih _ hq]
    simp only [List.foldl_cons, List.foldl_nil, onIx, Range.count, Nat.sub_zero]
    obtain ⟨r, hr⟩ : ∃ r, ds.prod = (k / d + 1) + r := ⟨ds.prod - (k / d + 1), by omega⟩
    have hm := Nat.mod_lt k hd
    have hkd := Nat.div_add_mod k d
    have e : (k / d + 1 + r) * d = d * (k / d) + d + r * d := by ring
    rw [hr, e, Nat.add_sub_cancel_left]
    omega

theorem inProgress_at (ds : Dims) (hne : ds ≠ []) (k : Nat) : inProgress (at_ ds k) = true := by
  induction ds using List.reverseRecOn with
  | nil => exact absurd rfl hne
  | append_singleton ds d _ => simp [inProgress, at_axes_snoc, onIx, Axis.inProgress]

theorem at_axes_ne (ds : Dims) (hne : ds ≠ []) (k : Nat) : (at_ ds k).axes.isEmpty = false := by
  induction ds using List.reverseRecOn with
  | nil => exact absurd rfl hne
  | append_singleton ds d _ => simp [at_axes_snoc]

theorem count_at (ds : Dims) (hne : ds ≠ []) (k : Nat) (hk : k < ds.prod) :
    count (at_ ds k) = ds.prod - (k + 1) := by
  rw [count, at_axes_ne ds hne, inProgress_at ds hne]
  simpa using fold_count_at ds k hk

theorem count_new (ds : Dims) (hne : ds ≠ []) : count (new ds) = ds.prod := by
  have h1 : (new ds).axes.isEmpty = false := by cases ds <;> simp_all [new]
  have h2 : inProgress (new ds) = false := by
    induction ds using List.reverseRecOn with
    | nil => exact absurd rfl hne
    | append_singleton ds d _ => simp [inProgress, new, Axis.inProgress]
  have h3 : ∀ acc, (new ds).axes.foldl (fun acc a => acc * a.iter.count) acc = acc * ds.prod := by
    clear h1 h2 hne
    intro acc
    induction ds generalizing acc with
    | nil => simp [new]
    | cons d ds ih =>
      simp only [new] at ih
      simp only [new, List.map_cons, List.foldl_cons, ih, List.prod_cons, ← Nat.mul_assoc]
      rfl
  rw [count, h1, h2, h3]; simp

theorem count_finished (ds : Dims) (hne : ds ≠ []) : count (finished ds) = 0 := by
  have h1 : (finished ds).axes.isEmpty = false := by cases ds <;> simp_all [finished]
  have h2 : inProgress (finished ds) = false := by
    induction ds using List.reverseRecOn with
    | nil => exact absurd rfl hne
    | append_singleton ds d _ => simp [inProgress, finished, Axis.inProgress, exh]
  rw [count, h1, h2]
  induction ds using List.reverseRecOn with
  | nil => exact absurd rfl hne
  | append_singleton ds d _ => simp [finished, exh, Range.count]

/-- The size hint of a quantity whose exact value is `v`. -/
def exactHint (W v : Nat) : SizeHint := (min W v, if v ≤ W then some v else none)

theorem mul_exact (W v d : Nat) :
    sizeHintMul W (exactHint W v) (d, some d) = exactHint W (v * d) := by
  have hlow : satMul W (min W v) d = min W (v * d) := by
    unfold satMul
    rcases Nat.eq_zero_or_pos d with rfl | hd
    · simp
    · rcases Nat.le_total W v with h | h
      · have h1 : W ≤ W * d := Nat.le_mul_of_pos_right W hd
        have h2 : W ≤ v * d := h.trans (Nat.le_mul_of_pos_right v hd)
        rw [Nat.min_eq_left h, Nat.min_eq_left h1, Nat.min_eq_left h2]
      · rw [Nat.min_eq_right h]
  unfold sizeHintMul exactHint
  refine Prod.ext hlow ?_
  by_cases hv : v ≤ W
  · simp [hv, chkMul]
  · simp only [hv, if_false]
    rcases Nat.eq_zero_or_pos d with rfl | hd
    · simp
    · have h2 : ¬ v * d ≤ W := by
        have := Nat.le_mul_of_pos_right v hd
        omega
      obtain ⟨e, rfl⟩ : ∃ e, d = e + 1 := ⟨d - 1, by omega⟩
      simp [h2]

theorem add_exact (W v d : Nat) :
    sizeHintAdd W (exactHint W v) (d, some d) = exactHint W (v + d) := by
  unfold sizeHintAdd exactHint satAdd chkAdd
  refine Prod.ext ?_ ?_
  · simp only; omega
  · by_cases hv : v ≤ W
    · simp [hv]
    · have : ¬ v + d ≤ W := by omega
      simp [hv, this]

theorem sizeHint_eq (W : Nat) (hW : 1 ≤ W) (m : MIter) :
    sizeHint W m = exactHint W (count m) := by
  unfold sizeHint count
  by_cases he : m.axes.isEmpty
  · simp [he, exactHint]
  · by_cases hp : inProgress m
    · simp only [he, hp, Bool.not_true, Bool.false_eq_true, if_false]
      have : ∀ (l : List Axis) (v : Nat),
          l.foldl (fun acc a => sizeHintAdd W (sizeHintMul W acc a.iterOrig.sizeHint)
            a.iter.sizeHint) (exactHint W v) =
          exactHint W (l.foldl (fun acc a => acc * a.iterOrig.count + a.iter.count) v) := by
        intro l
        induction l with
        | nil => intro v; rfl
        | cons a l ih =>
          intro v
          simp only [List.foldl_cons]
          rw [← ih]
          congr 1
          rw [Range.sizeHint, mul_exact, Range.sizeHint, add_exact]
      have h0 : ((0, some 0) : SizeHint) = exactHint W 0 := by simp [exactHint]
      rw [h0, this]
    · simp only [he, hp, Bool.not_false, if_true, if_false, Bool.false_eq_true]
      have : ∀ (l : List Axis) (v : Nat),
          l.foldl (fun acc a => sizeHintMul W acc a.iter.sizeHint) (exactHint W v) =
          exactHint W (l.foldl (fun acc a => acc * a.iter.count) v) := by
        intro l
        induction l with
        | nil => intro v; rfl
        | cons a l ih =>
          intro v
          simp only [List.foldl_cons]
          rw [← ih]
          congr 1
          rw [Range.sizeHint, mul_exact]
      have h0 : ((1, some 1) : SizeHint) = exactHint W 1 := by simp [exactHint, hW]
      rw [h0, this]

end Aegir.MultiProduct
