import Verif.Lemmas.MultiProductCount
/-!
# C02, C03, C04: the runtime index iterator
-/

namespace Aegir.Props

open Spec MultiProduct

/-! ## C02 Runtime-shape index iterator is exact -/

/-- `Yields m l`: calling `next()` repeatedly on `m` returns the elements of `l` one after the
other and then `None`. -/
def Yields (m : MIter) (l : List Idx) : Prop :=
  (∀ k (h : k < l.length), nth k m = .item l[k]) ∧ nth l.length m = .done

/-- `DIM >= 1`: a fresh iterator yields the row-major enumeration of the indices in bounds, each
once, then `None`; the number yielded is `cardinality()`. Missing for the full statement: `DIM = 0`
(see `C02_dim0_violation`). -/
theorem C02_iterator_exact_partial (ds : Dims) (hdim : ds ≠ []) :
    ∃ l, IsRowMajor ds l ∧ Yields (new ds) l ∧ l.length = Shape.cardinality ds := by
  refine ⟨Shape.indices ds, ⟨fun _ => mem_indices, pairwise_indices ds⟩, ⟨?_, ?_⟩,
    length_indices ds⟩
  · intro k hk
    exact nth_idle ds hdim _ (idle_new ds) k (by rwa [length_indices, cardinality_eq_prod] at hk)
  · rw [length_indices, cardinality_eq_prod]
    rcases Nat.eq_zero_or_pos ds.prod with h | h
    · rw [h]; exact nth_blocked 0 _ (blocked_new ds h)
    · exact (nth_idle_done ds hdim h _ (idle_new ds)).1

/-- `next` never panics (the `unwrap`s in `curr_iterator` are safe) on any reachable state. -/
theorem C02_never_panics (ds : Dims) (k : Nat) : nth k (new ds) ≠ .panic := by
  rcases ds.eq_nil_or_concat with rfl | hne
  · have : ∀ k, nth k (new []) = .done := by
      intro k
      induction k with
      | zero => rfl
      | succ k ih => exact ih
    rw [this]; simp
  · have hne : ds ≠ [] := by rintro rfl; simp at hne
    rcases Nat.eq_zero_or_pos ds.prod with h | h
    · rw [nth_blocked k _ (blocked_new ds h)]; simp
    · suffices ∀ (k : Nat) (m : MIter), Idle ds m → nth k m ≠ .panic from
        this k _ (idle_new ds)
      intro k
      induction k using Nat.strong_induction_on with
      | _ k ih =>
        intro m hm
        rcases lt_trichotomy k ds.prod with hk | hk | hk
        · rw [nth_idle ds hne m hm k hk]; simp
        · rw [hk, (nth_idle_done ds hne h m hm).1]; simp
        · obtain ⟨j, rfl⟩ : ∃ j, k = ds.prod + 1 + j := ⟨k - (ds.prod + 1), by omega⟩
          rw [nth_add, (nth_idle_done ds hne h m hm).2]
          exact ih j (by omega) _ (idle_finished ds)

/-- The rank-0 runtime shape has one (empty) index and cardinality 1, but its iterator yields
nothing: the property fails for `DIM = 0`. -/
theorem C02_dim0_violation :
    Shape.contains [] [] = true ∧ Shape.cardinality [] = 1 ∧ nth 0 (new []) = .done := by
  refine ⟨rfl, rfl, rfl⟩

example : Yields (new [2, 2]) [[0,0],[0,1],[1,0],[1,1]] := by
  refine ⟨?_, by decide⟩
  intro k hk
  have : k = 0 ∨ k = 1 ∨ k = 2 ∨ k = 3 := by simp at hk; omega
  rcases this with rfl | rfl | rfl | rfl <;> rfl

/-! ## C03 `count` and `size_hint` match what remains -/

/-- `Remaining m n`: `next()` yields exactly `n` more items before the next `None`. -/
def Remaining (m : MIter) (n : Nat) : Prop :=
  (∀ k < n, ∃ ix, nth k m = .item ix) ∧ nth n m = .done

/-- At every point of an iteration up to its `None`, `count()` is the number of items that `next()`
would still yield, namely `cardinality - (number already yielded)`. -/
theorem C03_count_remaining (ds : Dims) (hdim : ds ≠ []) (k : Nat)
    (hk : k ≤ Shape.cardinality ds) :
    Remaining (after k (new ds)) (count (after k (new ds))) ∧
      count (after k (new ds)) = Shape.cardinality ds - k := by
  rw [cardinality_eq_prod] at hk ⊢
  have hcount : count (after k (new ds)) = ds.prod - k := by
    cases k with
    | zero => simpa [after] using count_new ds hdim
    | succ k => rw [after_idle ds hdim _ (idle_new ds) k hk, count_at ds hdim k hk]
  refine ⟨?_, hcount⟩
  rw [hcount]
  constructor
  · intro j hj
    rw [← nth_add, nth_idle ds hdim _ (idle_new ds) (k + j) (by omega)]
    exact ⟨_, rfl⟩
  · rw [← nth_add, Nat.add_sub_cancel' hk]
    rcases Nat.eq_zero_or_pos ds.prod with h | h
    · rw [h]; exact nth_blocked 0 _ (blocked_new ds h)
    · exact (nth_idle_done ds hdim h _ (idle_new ds)).1

/-- In *every* state, for machine words of any size, `size_hint()` is `count()` clamped to
`usize::MAX` below, and above it is exact or absent precisely when `count()` does not fit. -/
theorem C03_sizeHint_exact (W : Nat) (hW : 1 ≤ W) (m : MIter) :
    (sizeHint W m).1 = min W (count m) ∧
      (count m ≤ W → (sizeHint W m).2 = some (count m)) ∧
      (W < count m → (sizeHint W m).2 = none) := by
  rw [sizeHint_eq W hW m, exactHint]
  refine ⟨rfl, fun h => by simp [h], fun h => by simp [Nat.not_le.2 h]⟩

/-- `size_hint()` brackets what remains, at every point of an iteration up to its `None`, also when
`usize` arithmetic saturates or overflows. -/
theorem C03_sizeHint_brackets (W : Nat) (hW : 1 ≤ W) (ds : Dims) (hdim : ds ≠ []) (k n : Nat)
    (hk : k ≤ Shape.cardinality ds) (hrem : Remaining (after k (new ds)) n) :
    (sizeHint W (after k (new ds))).1 ≤ n ∧
      ∀ u, (sizeHint W (after k (new ds))).2 = some u → n ≤ u := by
  obtain ⟨hr, -⟩ := C03_count_remaining ds hdim k hk
  have hn : n = count (after k (new ds)) := by
    rcases lt_trichotomy n (count (after k (new ds))) with h | h | h
    · obtain ⟨ix, hix⟩ := hr.1 n h
      rw [hrem.2] at hix; simp at hix
    · exact h
    · obtain ⟨ix, hix⟩ := hrem.1 _ h
      rw [hr.2] at hix; simp at hix
  obtain ⟨h1, h2, h3⟩ := C03_sizeHint_exact W hW (after k (new ds))
  refine ⟨by rw [h1, hn]; exact Nat.min_le_right _ _, ?_⟩
  intro u hu
  by_cases hc : count (after k (new ds)) ≤ W
  · rw [h2 hc] at hu; simp at hu; omega
  · rw [h3 (by omega)] at hu; simp at hu

example : Remaining (after 2 (new [2, 3])) 4 ∧ sizeHint 100 (after 2 (new [2, 3])) = (4, some 4) ∧
    sizeHint 3 (after 2 (new [2, 3])) = (3, none) := by
  refine ⟨⟨?_, by decide⟩, by decide, by decide⟩
  intro k hk
  have : k = 0 ∨ k = 1 ∨ k = 2 ∨ k = 3 := by omega
  rcases this with rfl | rfl | rfl | rfl
  · exact ⟨[0, 2], by decide⟩
  · exact ⟨[1, 0], by decide⟩
  · exact ⟨[1, 1], by decide⟩
  · exact ⟨[1, 2], by decide⟩

/-- The arithmetic of size hints in general: from hints for two counts, known or unknown, come hints
for their sum and product, whatever the word size; an upper bound is given if the bounds of both are
known and the result is a machine word. -/
theorem C03_hint_arithmetic (W : Nat) (a b : SizeHint) (m n : Nat)
    (ha : a.1 ≤ m ∧ ∀ u, a.2 = some u → m ≤ u) (hb : b.1 ≤ n ∧ ∀ u, b.2 = some u → n ≤ u) :
    ((sizeHintAdd W a b).1 ≤ m + n ∧ ∀ u, (sizeHintAdd W a b).2 = some u → m + n ≤ u) ∧
    ((sizeHintMul W a b).1 ≤ m * n ∧ ∀ u, (sizeHintMul W a b).2 = some u → m * n ≤ u) ∧
    ∀ x y, a.2 = some x → b.2 = some y →
      (x + y ≤ W → (sizeHintAdd W a b).2 = some (x + y)) ∧
      (x * y ≤ W → (sizeHintMul W a b).2 = some (x * y)) := by
  obtain ⟨al, au⟩ := a
  obtain ⟨bl, bu⟩ := b
  simp only at ha hb
  refine ⟨⟨?_, ?_⟩, ⟨?_, ?_⟩, ?_⟩
  · exact le_trans (min_le_right _ _) (Nat.add_le_add ha.1 hb.1)
  · intro u hu
    match au, bu with
    | some x, some y =>
      simp only [sizeHintAdd, chkAdd, Option.ite_none_right_eq_some, Option.some.injEq] at hu
      have h1 := ha.2 x rfl
      have h2 := hb.2 y rfl
      omega
    | some x, none | none, some y | none, none => simp [sizeHintAdd] at hu
  · exact le_trans (min_le_right _ _) (Nat.mul_le_mul ha.1 hb.1)
  · intro u hu
    match au, bu with
    | some x, some y =>
      simp only [sizeHintMul, chkMul, Option.ite_none_right_eq_some, Option.some.injEq] at hu
      have h1 := ha.2 x rfl
      have h2 := hb.2 y rfl
      exact hu.2 ▸ Nat.mul_le_mul h1 h2
    | some 0, none =>
      have h1 := ha.2 0 rfl
      simp [Nat.le_zero.1 h1]
    | none, some 0 =>
      have h2 := hb.2 0 rfl
      simp [Nat.le_zero.1 h2]
    | some (x + 1), none | none, some (y + 1) | none, none => simp [sizeHintMul] at hu
  · rintro x y rfl rfl
    exact ⟨fun h => by simp [sizeHintAdd, chkAdd, h], fun h => by simp [sizeHintMul, chkMul, h]⟩

/-- Five to seven items and two to unknown: at least seven. -/
example : sizeHintAdd 255 (5, some 7) (2, none) = (7, none) ∧
    sizeHintMul 255 (5, some 7) (2, some 3) = (10, some 21) := by decide

/-- `m` is a count the hint `a` allows. -/
def Allows (a : SizeHint) (m : Nat) : Prop := a.1 ≤ m ∧ ∀ u, a.2 = some u → m ≤ u

/-- The bounds are the best a machine word can give: any word that bounds the sums (products) of all the
counts the two hints allow is no better than the bound returned. -/
theorem C03_hint_sharp (W : Nat) (a b : SizeHint) (ha : ∃ m, Allows a m) (hb : ∃ n, Allows b n) (u : Nat)
    (hu : u ≤ W) :
    ((∀ m n, Allows a m → Allows b n → u ≤ m + n) → u ≤ (sizeHintAdd W a b).1) ∧
    ((∀ m n, Allows a m → Allows b n → u ≤ m * n) → u ≤ (sizeHintMul W a b).1) ∧
    ((∀ m n, Allows a m → Allows b n → m + n ≤ u) → ∃ v ≤ u, (sizeHintAdd W a b).2 = some v) ∧
    ((∀ m n, Allows a m → Allows b n → m * n ≤ u) → ∃ v ≤ u, (sizeHintMul W a b).2 = some v) := by
  obtain ⟨al, au⟩ := a
  obtain ⟨bl, bu⟩ := b
  obtain ⟨m₀, hm₀⟩ := ha
  obtain ⟨n₀, hn₀⟩ := hb
  have low : ∀ {l : Nat} {h : Option Nat} {m : Nat}, Allows (l, h) m → Allows (l, h) l := fun hm =>
    ⟨le_rfl, fun u hu => hm.1.trans (hm.2 u hu)⟩
  have up : ∀ {l x m : Nat}, Allows (l, some x) m → Allows (l, some x) x := fun hm =>
    ⟨hm.1.trans (hm.2 _ rfl), fun u hu => (Option.some.inj hu).le⟩
  have any : ∀ {l : Nat} (m : Nat), Allows (l, none) (l + m) := fun m =>
    ⟨Nat.le_add_right _ _, fun u hu => by cases hu⟩
  refine ⟨fun h => le_min hu (h _ _ (low hm₀) (low hn₀)), fun h => le_min hu (h _ _ (low hm₀) (low hn₀)), ?_, ?_⟩
  · intro h
    match au, bu with
    | some x, some y =>
      have := h x y (up hm₀) (up hn₀)
      exact ⟨x + y, this, by simp [sizeHintAdd, chkAdd, this.trans hu]⟩
    | some x, none =>
      have := h x _ (up hm₀) (any (u + 1))
      omega
    | none, _ =>
      have := h _ n₀ (any (u + 1)) hn₀
      omega
  · intro h
    match au, bu with
    | some x, some y =>
      have := h x y (up hm₀) (up hn₀)
      exact ⟨x * y, this, by simp [sizeHintMul, chkMul, this.trans hu]⟩
    | some 0, none => exact ⟨0, Nat.zero_le _, rfl⟩
    | none, some 0 => exact ⟨0, Nat.zero_le _, rfl⟩
    | some (x + 1), none =>
      have := (Nat.le_mul_of_pos_left _ x.succ_pos).trans (h (x + 1) _ (up hm₀) (any (u + 1)))
      omega
    | none, some (y + 1) =>
      have := (Nat.le_mul_of_pos_right _ y.succ_pos).trans (h _ (y + 1) (any (u + 1)) (up hn₀))
      omega
    | none, none =>
      have := (Nat.le_mul_of_pos_right _ (by omega)).trans (h _ _ (any (u + 1)) (any (u + 1)))
      omega

/-- Nothing times an unknown count is nothing. -/
example : Allows (0, some 0) 0 ∧ Allows (2, none) 5 ∧ sizeHintMul 255 (0, some 0) (2, none) = (0, some 0) :=
  ⟨⟨le_rfl, by simp⟩, ⟨by decide, by simp⟩, by decide⟩

/-! ## C04 Exhausted iterator stays exhausted — violated -/

/-- The property holds only for the empty product (some extent is zero). Missing: every other
shape, where it is false (`C04_restarts`). -/
theorem C04_fused_partial (ds : Dims) (h0 : 0 ∈ ds) (k : Nat) : nth k (new ds) = .done :=
  nth_blocked k _ (blocked_new ds (List.prod_eq_zero h0))

/-- Exact behaviour of every call of `next`, for every non-empty shape: the iterator is periodic
with period `cardinality + 1`; after each `None` it silently starts again from the first index. -/
theorem C04_periodic (ds : Dims) (hdim : ds ≠ []) (hpos : ∀ d ∈ ds, 0 < d) (k : Nat) :
    nth k (new ds) =
      match (Shape.indices ds)[k % (Shape.cardinality ds + 1)]? with
      | some ix => .item ix
      | none => .done := by
  have hp : 0 < ds.prod := by
    rcases Nat.eq_zero_or_pos ds.prod with h | h
    · exact absurd (hpos 0 (List.prod_eq_zero_iff.1 h)) (lt_irrefl _)
    · exact h
  rw [cardinality_eq_prod]
  suffices ∀ (k : Nat) (m : MIter), Idle ds m → nth k m =
      match (Shape.indices ds)[k % (ds.prod + 1)]? with
      | some ix => .item ix
      | none => .done from this k _ (idle_new ds)
  intro k
  induction k using Nat.strong_induction_on with
  | _ k ih =>
    intro m hm
    rcases lt_trichotomy k ds.prod with hk | hk | hk
    · have hl : k < (Shape.indices ds).length := by rwa [length_indices, cardinality_eq_prod]
      rw [nth_idle ds hdim m hm k hk, Nat.mod_eq_of_lt (by omega), List.getElem?_eq_getElem hl]
    · have hl : (Shape.indices ds).length ≤ ds.prod := by rw [length_indices, cardinality_eq_prod]
      rw [hk, (nth_idle_done ds hdim hp m hm).1, Nat.mod_eq_of_lt (by omega),
        List.getElem?_eq_none hl]
    · obtain ⟨j, rfl⟩ : ∃ j, k = ds.prod + 1 + j := ⟨k - (ds.prod + 1), by omega⟩
      rw [nth_add, (nth_idle_done ds hdim hp m hm).2, ih j (by omega) _ (idle_finished ds),
        Nat.add_mod_left]

/-- Violation, for every runtime shape with at least one index and `DIM >= 1`: the call right after
the `None` yields the first index again, although `count()` claimed nothing was left. -/
theorem C04_restarts (ds : Dims) (hdim : ds ≠ []) (hpos : ∀ d ∈ ds, 0 < d) :
    nth (Shape.cardinality ds) (new ds) = .done ∧
      count (after (Shape.cardinality ds + 1) (new ds)) = 0 ∧
      ∃ ix, nth (Shape.cardinality ds + 1) (new ds) = .item ix := by
  have hp : 0 < ds.prod := by
    rcases Nat.eq_zero_or_pos ds.prod with h | h
    · exact absurd (hpos 0 (List.prod_eq_zero_iff.1 h)) (lt_irrefl _)
    · exact h
  rw [cardinality_eq_prod]
  obtain ⟨h1, h2⟩ := nth_idle_done ds hdim hp _ (idle_new ds)
  refine ⟨h1, by rw [h2, count_finished ds hdim], ?_⟩
  have := nth_add (ds.prod + 1) 0 (new ds)
  rw [Nat.add_zero] at this
  rw [this, h2, nth_idle ds hdim _ (idle_finished ds) 0 hp]
  exact ⟨_, rfl⟩

example : nth 2 (new [2]) = .done ∧ nth 3 (new [2]) = .item [0] := by decide

end Aegir.Props
