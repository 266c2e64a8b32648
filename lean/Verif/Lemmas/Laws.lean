import Verif.Spec.Laws
import Verif.Lemmas.CalculusEval
import Verif.Lemmas.Formal
/-!
# Algebraic laws hold of tensors
-/

namespace Aegir

open Spec

variable {F : Type}

namespace Laws

/-- Extents that can be combined. -/
def Fits (A B : Dims) : Prop := A = [] ∨ B = [] ∨ A = B

theorem Fits.symm {A B : Dims} (h : Fits A B) : Fits B A := by
  rcases h with h | h | h
  · exact .inr (.inl h)
  · exact .inl h
  · exact .inr (.inr h.symm)

theorem Fits.bcast {A B : Dims} (h : Fits A B) : BCast A B (zd A B) := by
  unfold zd
  rcases h with rfl | rfl | rfl
  · rw [if_pos rfl]; exact .left _
  · by_cases h : A = []
    · subst h; rw [if_pos rfl]; exact .same _
    · rw [if_neg h]; exact .right _
  · rw [ite_self]; exact .same _

theorem same_trans {S T U : Tensor F} (h : S.Same T) (h' : T.Same U) : S.Same U :=
  ⟨h.1.trans h'.1, fun ix hix => (h.2 ix (by rw [h'.1]; exact hix)).trans (h'.2 ix hix)⟩

theorem same_zip (f : F → F → F) {S S' T T' : Tensor F} (hS : S.Same S') (hT : T.Same T')
    (hf : Fits S.dims T.dims) : (Tensor.zip f S T).Same (Tensor.zip f S' T') := by
  refine ⟨by simp only [Tensor.zip, hS.1, hT.1], fun ix hix => ?_⟩
  rw [hS.1, hT.1] at hf
  simp only [Tensor.zip, hS.1, hT.1]
  rw [hS.2 _ (inBounds_bIdx_left hf.bcast hix), hT.2 _ (inBounds_bIdx_right hf.bcast hix)]

theorem same_contract [AddCommMonoid F] [Mul F] {S S' T T' : Tensor F} (hS : S.Same S') (hT : T.Same T') {p q s : Dims}
    (h1 : S.dims = p ++ q) (h2 : T.dims = q ++ s) :
    (Tensor.contract q.length S T).Same (Tensor.contract q.length S' T') := by
  have h1' : S'.dims = p ++ q := hS.1.symm.trans h1
  have h2' : T'.dims = q ++ s := hT.1.symm.trans h2
  refine ⟨by simp only [Tensor.contract, hS.1, hT.1], fun ix hix => ?_⟩
  simp only [Tensor.contract, h1', h2', List.length_append, Nat.add_sub_cancel, List.take_left,
    List.drop_left] at hix
  obtain ⟨i, j, hi, hj, rfl⟩ := inBounds_append.1 hix
  have hl : i.length = p.length := hi.length_eq
  simp only [Tensor.contract, h1, h1', h2, h2', List.length_append, Nat.add_sub_cancel, List.take_left]
  refine sumOver_congr fun t ht => ?_
  rw [← hl, List.take_left, List.drop_left, hS.2 _ (by rw [h1']; exact inBounds_append.2 ⟨i, t, hi, ht, rfl⟩),
    hT.2 _ (by rw [h2']; exact inBounds_append.2 ⟨t, j, ht, hj, rfl⟩)]

theorem bIdx_bIdx {A D : Dims} (h : D = [] → A = []) (ix : Idx) : bIdx A (bIdx D ix) = bIdx A ix := by
  unfold bIdx
  by_cases hA : A = []
  · rw [if_pos hA, if_pos hA]
  · rw [if_neg hA, if_neg hA, if_neg fun hD => hA (h hD)]

theorem zd_left {A B : Dims} (h : zd A B = []) : A = [] := by
  unfold zd at h
  split at h <;> simp_all

theorem zd_right {A B : Dims} (hf : Fits A B) (h : zd A B = []) : B = [] := by
  have := zd_left h
  subst this
  simpa [zd] using h

theorem fits_assoc {A B C : Dims} : Fits A B ∧ Fits (zd A B) C ↔ Fits B C ∧ Fits A (zd B C) := by
  unfold Fits zd
  grind

theorem zd_assoc (A B C : Dims) : zd (zd A B) C = zd A (zd B C) := by
  unfold zd
  by_cases hA : A = [] <;> simp [hA]

theorem fits_distrib {A B C : Dims} :
    Fits A B ∧ Fits (zd A B) C ↔ Fits A C ∧ Fits B C ∧ Fits (zd A C) (zd B C) := by
  unfold Fits zd
  grind

theorem zd_distrib {A B C : Dims} (h : Fits A B) (h' : Fits (zd A B) C) : zd (zd A B) C = zd (zd A C) (zd B C) := by
  unfold Fits zd at *
  by_cases hA : A = [] <;> by_cases hB : B = [] <;> by_cases hC : C = [] <;> simp_all

variable [CommRing F] [Div F] [ScalarFns F] {ρ : Id → Tensor F}

/-- What laws say about meanings. -/
def Sound (ρ : Id → Tensor F) (e e' : Node F) : Prop :=
  (Compat ρ e ↔ Compat ρ e') ∧ (Compat ρ e → (den ρ e).Same (den ρ e'))

theorem zip_congr (f : F → F → F) {a a' b b' : Node F} (ha : Sound ρ a a') (hb : Sound ρ b b') :
    (Compat ρ a ∧ Compat ρ b ∧ Fits (den ρ a).dims (den ρ b).dims ↔
      Compat ρ a' ∧ Compat ρ b' ∧ Fits (den ρ a').dims (den ρ b').dims) ∧
    (Compat ρ a ∧ Compat ρ b ∧ Fits (den ρ a).dims (den ρ b).dims →
      (Tensor.zip f (den ρ a) (den ρ b)).Same (.zip f (den ρ a') (den ρ b'))) := by
  refine ⟨⟨fun ⟨h1, h2, h3⟩ => ?_, fun ⟨h1, h2, h3⟩ => ?_⟩, fun ⟨h1, h2, h3⟩ =>
    same_zip f (ha.2 h1) (hb.2 h2) h3⟩
  · refine ⟨ha.1.1 h1, hb.1.1 h2, ?_⟩
    rwa [← (ha.2 h1).1, ← (hb.2 h2).1]
  · refine ⟨ha.1.2 h1, hb.1.2 h2, ?_⟩
    rwa [(ha.2 (ha.1.2 h1)).1, (hb.2 (hb.1.2 h2)).1]

omit [CommRing F] [Div F] [ScalarFns F] in
theorem zip_assoc (f : F → F → F) (hf : ∀ x y z, f (f x y) z = f x (f y z)) {S T U : Tensor F}
    (h1 : Fits S.dims T.dims) (h2 : Fits T.dims U.dims) :
    Tensor.Same (.zip f (.zip f S T) U) (.zip f S (.zip f T U)) := by
  refine ⟨zd_assoc _ _ _, fun ix _ => ?_⟩
  show f (f (S.val (bIdx S.dims (bIdx (zd S.dims T.dims) ix))) (T.val (bIdx T.dims (bIdx (zd S.dims T.dims) ix))))
    (U.val (bIdx U.dims ix)) = f (S.val (bIdx S.dims ix)) (f (T.val (bIdx T.dims (bIdx (zd T.dims U.dims) ix)))
      (U.val (bIdx U.dims (bIdx (zd T.dims U.dims) ix))))
  rw [bIdx_bIdx zd_left, bIdx_bIdx (zd_right h1), bIdx_bIdx zd_left, bIdx_bIdx (zd_right h2), hf]

omit [CommRing F] [Div F] [ScalarFns F] in
theorem zip_comm (f : F → F → F) (hf : ∀ x y, f x y = f y x) {S T : Tensor F} (h : Fits S.dims T.dims) :
    Tensor.Same (.zip f S T) (.zip f T S) :=
  ⟨(zd_comm h).symm, fun _ _ => hf _ _⟩

omit [Div F] [ScalarFns F] in
theorem zip_distrib {S T U : Tensor F} (h1 : Fits S.dims T.dims) (h2 : Fits (zd S.dims T.dims) U.dims) :
    Tensor.Same (.zip (· * ·) (.zip (· + ·) S T) U)
      (.zip (· + ·) (.zip (· * ·) S U) (.zip (· * ·) T U)) := by
  obtain ⟨h3, h4, h5⟩ := fits_distrib.1 ⟨h1, h2⟩
  refine ⟨zd_distrib h1 h2, fun ix _ => ?_⟩
  show (S.val (bIdx S.dims (bIdx (zd S.dims T.dims) ix)) + T.val (bIdx T.dims (bIdx (zd S.dims T.dims) ix))) *
    U.val (bIdx U.dims ix) = S.val (bIdx S.dims (bIdx (zd S.dims U.dims) ix)) *
      U.val (bIdx U.dims (bIdx (zd S.dims U.dims) ix)) + T.val (bIdx T.dims (bIdx (zd T.dims U.dims) ix)) *
      U.val (bIdx U.dims (bIdx (zd T.dims U.dims) ix))
  rw [bIdx_bIdx zd_left, bIdx_bIdx (zd_right h1), bIdx_bIdx zd_left, bIdx_bIdx (zd_right h3), bIdx_bIdx zd_left,
    bIdx_bIdx (zd_right h4), add_mul]

theorem fits_self (A : Dims) : Fits A A := .inr (.inr rfl)

theorem zd_self (A : Dims) : zd A A = A := by
  unfold zd
  exact ite_self _

theorem zd_nil (A : Dims) : zd A [] = A := by
  unfold zd
  split <;> simp_all

omit [CommRing F] [Div F] [ScalarFns F] in
theorem val_bIdx {S : Tensor F} {ix : Idx} (h : InBounds S.dims ix) : S.val (bIdx S.dims ix) = S.val ix := by
  rw [bIdx_inBounds h]

/-- Extents that can be contracted. -/
def CFits (k : Nat) (A B : Dims) : Prop :=
  A = [] ∧ B = [] ∨ ∃ p q s : Dims, q.length = k ∧ A = p ++ q ∧ B = q ++ s

/-- The contraction an expression denotes. -/
def ctr (k : Nat) (S T : Tensor F) : Tensor F :=
  .contract (if S.dims = [] ∧ T.dims = [] then 0 else k) S T

theorem CFits.split {k : Nat} {A B : Dims} (h : CFits k A B) :
    ∃ p q s : Dims, q.length = (if A = [] ∧ B = [] then 0 else k) ∧ A = p ++ q ∧ B = q ++ s := by
  by_cases h0 : A = [] ∧ B = []
  · exact ⟨[], [], [], by simp [h0], h0.1, h0.2⟩
  · rcases h with h | ⟨p, q, s, h1, h2, h3⟩
    · exact absurd h h0
    · exact ⟨p, q, s, by rw [if_neg h0, h1], h2, h3⟩

omit [Div F] [ScalarFns F] in
theorem ctr_congr (k : Nat) {S S' T T' : Tensor F} (hS : S.Same S') (hT : T.Same T') (h : CFits k S.dims T.dims) :
    (ctr k S T).Same (ctr k S' T') := by
  obtain ⟨p, q, s, h1, h2, h3⟩ := h.split
  have := same_contract hS hT h2 h3
  unfold ctr
  rw [← hS.1, ← hT.1, ← h1]
  exact this

omit [Div F] [ScalarFns F] in
/-- A contraction at an index of its. -/
theorem ctr_val {k : Nat} {S T : Tensor F} {p q s : Dims} (h1 : q.length = if S.dims = [] ∧ T.dims = [] then 0 else k)
    (h2 : S.dims = p ++ q) (h3 : T.dims = q ++ s) : (ctr k S T).dims = p ++ s ∧
    ∀ i j, i.length = p.length → (ctr k S T).val (i ++ j) = sumOver q fun t => S.val (i ++ t) * T.val (t ++ j) := by
  unfold ctr
  rw [← h1]
  refine ⟨?_, fun i j hi => ?_⟩
  · simp only [Tensor.contract, h2, h3, List.length_append, Nat.add_sub_cancel, List.take_left, List.drop_left]
  · simp only [Tensor.contract, h2, h3, List.length_append, Nat.add_sub_cancel, List.take_left]
    simp only [← hi, List.take_left, List.drop_left]

omit [Div F] [ScalarFns F] in
theorem ctr_add_left (k : Nat) {A B C : Tensor F} (h : A.dims = B.dims) (hc : CFits k A.dims C.dims) :
    Tensor.Same (ctr k (.zip (· + ·) A B) C) (.zip (· + ·) (ctr k A C) (ctr k B C)) := by
  obtain ⟨p, q, s, h1, h2, h3⟩ := hc.split
  have hz : (Tensor.zip (· + ·) A B).dims = A.dims := by
    show zd A.dims B.dims = _
    rw [← h, zd_self]
  obtain ⟨a1, a2⟩ := ctr_val h1 h2 h3
  obtain ⟨b1, b2⟩ := ctr_val (S := B) (by rw [← h]; exact h1) (h ▸ h2) h3
  obtain ⟨c1, c2⟩ := ctr_val (S := Tensor.zip (· + ·) A B) (by rw [hz]; exact h1) (hz.trans h2) h3
  have hd : (Tensor.zip (· + ·) (ctr k A C) (ctr k B C)).dims = p ++ s := by
    show zd _ _ = _
    rw [a1, b1, zd_self]
  refine ⟨c1.trans hd.symm, fun ix hix => ?_⟩
  rw [hd] at hix
  obtain ⟨i, j, hi, hj, rfl⟩ := inBounds_append.1 hix
  have hl : i.length = p.length := hi.length_eq
  show _ = (ctr k A C).val (bIdx (ctr k A C).dims (i ++ j)) + (ctr k B C).val (bIdx (ctr k B C).dims (i ++ j))
  rw [val_bIdx (by rw [a1]; exact hix), val_bIdx (by rw [b1]; exact hix), c2 i j hl, a2 i j hl, b2 i j hl, ← sumOver_add]
  refine sumOver_congr fun t ht => ?_
  have hit : InBounds A.dims (i ++ t) := by rw [h2]; exact inBounds_append.2 ⟨i, t, hi, ht, rfl⟩
  show (A.val (bIdx A.dims (i ++ t)) + B.val (bIdx B.dims (i ++ t))) * _ = _
  rw [val_bIdx hit, val_bIdx (h ▸ hit), add_mul]

omit [Div F] [ScalarFns F] in
theorem ctr_add_right (k : Nat) {A B C : Tensor F} (h : B.dims = C.dims) (hc : CFits k A.dims B.dims) :
    Tensor.Same (ctr k A (.zip (· + ·) B C)) (.zip (· + ·) (ctr k A B) (ctr k A C)) := by
  obtain ⟨p, q, s, h1, h2, h3⟩ := hc.split
  have hz : (Tensor.zip (· + ·) B C).dims = B.dims := by
    show zd B.dims C.dims = _
    rw [← h, zd_self]
  obtain ⟨a1, a2⟩ := ctr_val h1 h2 h3
  obtain ⟨b1, b2⟩ := ctr_val (T := C) (by rw [← h]; exact h1) h2 (h ▸ h3)
  obtain ⟨c1, c2⟩ := ctr_val (T := Tensor.zip (· + ·) B C) (by rw [hz]; exact h1) h2 (hz.trans h3)
  have hd : (Tensor.zip (· + ·) (ctr k A B) (ctr k A C)).dims = p ++ s := by
    show zd _ _ = _
    rw [a1, b1, zd_self]
  refine ⟨c1.trans hd.symm, fun ix hix => ?_⟩
  rw [hd] at hix
  obtain ⟨i, j, hi, hj, rfl⟩ := inBounds_append.1 hix
  have hl : i.length = p.length := hi.length_eq
  show _ = (ctr k A B).val (bIdx (ctr k A B).dims (i ++ j)) + (ctr k A C).val (bIdx (ctr k A C).dims (i ++ j))
  rw [val_bIdx (by rw [a1]; exact hix), val_bIdx (by rw [b1]; exact hix), c2 i j hl, a2 i j hl, b2 i j hl, ← sumOver_add]
  refine sumOver_congr fun t ht => ?_
  have htj : InBounds B.dims (t ++ j) := by rw [h3]; exact inBounds_append.2 ⟨t, j, ht, hj, rfl⟩
  show _ * (B.val (bIdx B.dims (t ++ j)) + C.val (bIdx C.dims (t ++ j))) = _
  rw [val_bIdx htj, val_bIdx (h ▸ htj), mul_add]

omit [Div F] [ScalarFns F] in
theorem ctr_mul (k : Nat) {S A B : Tensor F} (h : S.dims = []) (hc : CFits k A.dims B.dims) :
    Tensor.Same (ctr k (.zip (· * ·) S A) B) (.zip (· * ·) S (ctr k A B)) := by
  obtain ⟨p, q, s, h1, h2, h3⟩ := hc.split
  have hz : (Tensor.zip (· * ·) S A).dims = A.dims := by
    show zd S.dims A.dims = _
    rw [h]
    rfl
  obtain ⟨a1, a2⟩ := ctr_val h1 h2 h3
  obtain ⟨c1, c2⟩ := ctr_val (S := Tensor.zip (· * ·) S A) (by rw [hz]; exact h1) (hz.trans h2) h3
  have hd : (Tensor.zip (· * ·) S (ctr k A B)).dims = p ++ s := by
    show zd _ _ = _
    rw [h, a1]
    rfl
  refine ⟨c1.trans hd.symm, fun ix hix => ?_⟩
  rw [hd] at hix
  obtain ⟨i, j, hi, hj, rfl⟩ := inBounds_append.1 hix
  have hl : i.length = p.length := hi.length_eq
  show _ = S.val (bIdx S.dims (i ++ j)) * (ctr k A B).val (bIdx (ctr k A B).dims (i ++ j))
  rw [h, bIdx_nil, val_bIdx (S := ctr k A B) (by rw [a1]; exact hix), c2 i j hl, a2 i j hl, ← sumOver_mul_left]
  refine sumOver_congr fun t ht => ?_
  have hit : InBounds A.dims (i ++ t) := by rw [h2]; exact inBounds_append.2 ⟨i, t, hi, ht, rfl⟩
  show S.val (bIdx S.dims (i ++ t)) * A.val (bIdx A.dims (i ++ t)) * _ = _
  rw [val_bIdx hit, h, bIdx_nil, mul_assoc]

omit [Div F] [ScalarFns F] in
theorem ctr_comm {n : Nat} {A B : Tensor F} (ha : A.dims = [n]) (hb : B.dims = [n]) :
    Tensor.Same (ctr 1 A B) (ctr 1 B A) := by
  have f1 := ctr_val (k := 1) (S := A) (T := B) (p := []) (q := [n]) (s := []) (by simp [ha]) ha hb
  have f2 := ctr_val (k := 1) (S := B) (T := A) (p := []) (q := [n]) (s := []) (by simp [hb]) hb ha
  refine ⟨f1.1.trans f2.1.symm, fun ix hix => ?_⟩
  rw [f2.1] at hix
  cases hix
  have e1 := f1.2 [] [] rfl
  have e2 := f2.2 [] [] rfl
  simp only [List.append_nil, List.nil_append] at e1 e2
  rw [e1, e2]
  exact sumOver_congr fun t _ => mul_comm _ _

theorem compat_zip {l r : Node F} : (Compat ρ (.add l r) ↔ Compat ρ l ∧ Compat ρ r ∧ Fits (den ρ l).dims (den ρ r).dims) ∧
    (Compat ρ (.mul l r) ↔ Compat ρ l ∧ Compat ρ r ∧ Fits (den ρ l).dims (den ρ r).dims) := ⟨Iff.rfl, Iff.rfl⟩

theorem sound_of_same {a b : Node F} (h : Compat ρ a ↔ Compat ρ b) (hs : Compat ρ a → (den ρ a).Same (den ρ b)) :
    Sound ρ a b := ⟨h, hs⟩

theorem sound_assoc (f : F → F → F) (hf : ∀ x y z, f (f x y) z = f x (f y z)) {a b c : Node F} :
    ((Compat ρ a ∧ Compat ρ b ∧ Fits (den ρ a).dims (den ρ b).dims) ∧ Compat ρ c ∧
        Fits (zd (den ρ a).dims (den ρ b).dims) (den ρ c).dims ↔
      Compat ρ a ∧ (Compat ρ b ∧ Compat ρ c ∧ Fits (den ρ b).dims (den ρ c).dims) ∧
        Fits (den ρ a).dims (zd (den ρ b).dims (den ρ c).dims)) ∧
    ((Compat ρ a ∧ Compat ρ b ∧ Fits (den ρ a).dims (den ρ b).dims) ∧ Compat ρ c ∧
        Fits (zd (den ρ a).dims (den ρ b).dims) (den ρ c).dims →
      Tensor.Same (.zip f (.zip f (den ρ a) (den ρ b)) (den ρ c)) (.zip f (den ρ a) (.zip f (den ρ b) (den ρ c)))) := by
  refine ⟨⟨fun ⟨⟨h1, h2, h3⟩, h4, h5⟩ => ?_, fun ⟨h1, ⟨h2, h3, h4⟩, h5⟩ => ?_⟩, fun ⟨⟨h1, h2, h3⟩, h4, h5⟩ =>
    zip_assoc f hf h3 (fits_assoc.1 ⟨h3, h5⟩).1⟩
  · obtain ⟨h6, h7⟩ := fits_assoc.1 ⟨h3, h5⟩
    exact ⟨h1, ⟨h2, h4, h6⟩, h7⟩
  · obtain ⟨h6, h7⟩ := fits_assoc.2 ⟨h4, h5⟩
    exact ⟨⟨h1, h2, h6⟩, h3, h7⟩

theorem sound_distrib {a b c : Node F} : Sound ρ (.mul (.add a b) c) (.add (.mul a c) (.mul b c)) := by
  refine ⟨⟨fun ⟨⟨h1, h2, h3⟩, h4, h5⟩ => ?_, fun ⟨⟨h1, h2, h3⟩, ⟨h4, h5, h6⟩, h7⟩ => ?_⟩,
    fun ⟨⟨h1, h2, h3⟩, h4, h5⟩ => zip_distrib h3 h5⟩
  · obtain ⟨h6, h7, h8⟩ := fits_distrib.1 ⟨h3, h5⟩
    exact ⟨⟨h1, h4, h6⟩, ⟨h2, h4, h7⟩, h8⟩
  · obtain ⟨h8, h9⟩ := fits_distrib.2 ⟨h3, h6, h7⟩
    exact ⟨⟨h1, h4, h8⟩, h2, h9⟩

/-- Laws preserve fitting of operands and the tensor denoted. -/
theorem law_sound {e e' : Node F} (h : Law ρ e e') : Sound ρ e e' := by
  induction h with
  | refl a => exact ⟨Iff.rfl, fun _ => .refl _⟩
  | symm _ ih => exact ⟨ih.1.symm, fun h => (ih.2 (ih.1.2 h)).symm⟩
  | trans _ _ ih ih' => exact ⟨ih.1.trans ih'.1, fun h => same_trans (ih.2 h) (ih'.2 (ih.1.1 h))⟩
  | add _ _ iha ihb => exact zip_congr _ iha ihb
  | sub _ _ iha ihb => exact zip_congr _ iha ihb
  | mul _ _ iha ihb => exact zip_congr _ iha ihb
  | div _ _ iha ihb => exact zip_congr _ iha ihb
  | @power a a' b b' _ _ iha ihb =>
    refine ⟨⟨fun ⟨h1, h2, h3, h4⟩ => ?_, fun ⟨h1, h2, h3, h4⟩ => ?_⟩, fun ⟨h1, h2, h3, h4⟩ => ⟨rfl, fun ix _ => ?_⟩⟩
    · exact ⟨iha.1.1 h1, ihb.1.1 h2, (iha.2 h1).1.symm.trans h3, (ihb.2 h2).1.symm.trans h4⟩
    · exact ⟨iha.1.2 h1, ihb.1.2 h2, (iha.2 (iha.1.2 h1)).1.trans h3, (ihb.2 (ihb.1.2 h2)).1.trans h4⟩
    · show ScalarFns.pow _ _ = ScalarFns.pow _ _
      rw [(iha.2 h1).2 [] (by rw [← (iha.2 h1).1, h3]; exact .nil),
        (ihb.2 h2).2 [] (by rw [← (ihb.2 h2).1, h4]; exact .nil)]
  | @contract k a a' b b' _ _ iha ihb =>
    refine ⟨⟨fun ⟨h1, h2, h3⟩ => ?_, fun ⟨h1, h2, h3⟩ => ?_⟩, fun ⟨h1, h2, h3⟩ =>
      ctr_congr k (iha.2 h1) (ihb.2 h2) h3⟩
    · refine ⟨iha.1.1 h1, ihb.1.1 h2, ?_⟩
      rw [← (iha.2 h1).1, ← (ihb.2 h2).1]
      exact h3
    · refine ⟨iha.1.2 h1, ihb.1.2 h2, ?_⟩
      rw [(iha.2 (iha.1.2 h1)).1, (ihb.2 (ihb.1.2 h2)).1]
      exact h3
  | sum _ ih =>
    refine ⟨ih.1, fun h => ⟨rfl, fun ix _ => ?_⟩⟩
    have := ih.2 h
    show sumOver _ _ = sumOver _ _
    rw [this.1]
    exact sumOver_congr fun t ht => this.2 t ht
  | un op _ ih =>
    refine ⟨ih.1, fun h => ⟨(ih.2 h).1, fun ix hix => ?_⟩⟩
    show op.apply _ = op.apply _
    rw [(ih.2 h).2 ix hix]
  | add_comm a b =>
    exact ⟨⟨fun ⟨h1, h2, h3⟩ => ⟨h2, h1, Fits.symm h3⟩, fun ⟨h1, h2, h3⟩ => ⟨h2, h1, Fits.symm h3⟩⟩,
      fun ⟨_, _, h3⟩ => zip_comm _ add_comm h3⟩
  | mul_comm a b =>
    exact ⟨⟨fun ⟨h1, h2, h3⟩ => ⟨h2, h1, Fits.symm h3⟩, fun ⟨h1, h2, h3⟩ => ⟨h2, h1, Fits.symm h3⟩⟩,
      fun ⟨_, _, h3⟩ => zip_comm _ mul_comm h3⟩
  | add_assoc a b c => exact sound_assoc _ add_assoc
  | mul_assoc a b c => exact sound_assoc _ mul_assoc
  | add_mul a b c => exact sound_distrib
  | zero_add a =>
    refine ⟨⟨fun h => h.2.1, fun h => ⟨trivial, h, .inl rfl⟩⟩, fun _ => ⟨rfl, fun ix hix => ?_⟩⟩
    show 0 + (den ρ a).val (bIdx _ ix) = (den ρ a).val ix
    rw [val_bIdx hix, zero_add]
  | one_mul a =>
    refine ⟨⟨fun h => h.2.1, fun h => ⟨trivial, h, .inl rfl⟩⟩, fun _ => ⟨rfl, fun ix hix => ?_⟩⟩
    show 1 * (den ρ a).val (bIdx _ ix) = (den ρ a).val ix
    rw [val_bIdx hix, one_mul]
  | sub_eq a b => exact ⟨Iff.rfl, fun _ => ⟨rfl, fun ix _ => sub_eq_add_neg _ _⟩⟩
  | negate_negate a => exact ⟨Iff.rfl, fun _ => ⟨rfl, fun ix _ => neg_neg _⟩⟩
  | negate_add a b => exact ⟨Iff.rfl, fun _ => ⟨rfl, fun ix _ => neg_add _ _⟩⟩
  | negate_mul a b => exact ⟨Iff.rfl, fun _ => ⟨rfl, fun ix _ => (neg_mul _ _).symm⟩⟩
  | double a =>
    refine ⟨⟨fun h => ⟨h, h, fits_self _⟩, fun h => h.1⟩, fun _ => ⟨(zd_self _).symm, fun ix hix => ?_⟩⟩
    have hix : InBounds (den ρ a).dims ix := by
      have : (den ρ (.add a a)).dims = (den ρ a).dims := zd_self _
      rwa [this] at hix
    show (1 + 1) * (den ρ a).val ix = (den ρ a).val (bIdx _ ix) + (den ρ a).val (bIdx _ ix)
    rw [val_bIdx hix, add_mul, one_mul]
  | square hp a =>
    refine ⟨⟨fun h => ⟨h, h, fits_self _⟩, fun h => h.1⟩, fun _ => ⟨(zd_self _).symm, fun ix hix => ?_⟩⟩
    have hix : InBounds (den ρ a).dims ix := by
      have : (den ρ (.mul a a)).dims = (den ρ a).dims := zd_self _
      rwa [this] at hix
    show ScalarFns.pow ((den ρ a).val ix) (1 + 1) = (den ρ a).val (bIdx _ ix) * (den ρ a).val (bIdx _ ix)
    rw [val_bIdx hix, hp]
  | addOne a =>
    refine ⟨⟨fun h => ⟨h, trivial, .inr (.inl rfl)⟩, fun h => h.1⟩, fun _ => ⟨(zd_nil _).symm, fun ix hix => ?_⟩⟩
    have hix : InBounds (den ρ a).dims ix := by
      have : (den ρ (.add a (.const .scalar (1 : F)))).dims = (den ρ a).dims := zd_nil _
      rwa [this] at hix
    show (den ρ a).val ix + 1 = (den ρ a).val (bIdx _ ix) + 1
    rw [val_bIdx hix]
  | subOne a =>
    refine ⟨⟨fun h => ⟨h, trivial, .inr (.inl rfl)⟩, fun h => h.1⟩, fun _ => ⟨(zd_nil _).symm, fun ix hix => ?_⟩⟩
    have hix : InBounds (den ρ a).dims ix := by
      have : (den ρ (.sub a (.const .scalar (1 : F)))).dims = (den ρ a).dims := zd_nil _
      rwa [this] at hix
    show (den ρ a).val ix - 1 = (den ρ a).val (bIdx _ ix) - 1
    rw [val_bIdx hix]
  | oneSub a => exact ⟨Iff.rfl, fun _ => ⟨rfl, fun ix _ => (sub_eq_add_neg _ _).trans (add_comm _ _)⟩⟩
  | rabbit a =>
    refine ⟨⟨fun h => ⟨h, h, fits_self _⟩, fun h => h.1⟩, fun _ => ⟨(zd_self _).symm, fun ix hix => ?_⟩⟩
    have hix : InBounds (den ρ a).dims ix := by
      have : (den ρ (.mul a (.un .oneSub a))).dims = (den ρ a).dims := zd_self _
      rwa [this] at hix
    show (den ρ a).val ix * (1 - (den ρ a).val ix) = (den ρ a).val (bIdx (den ρ a).dims ix) * (1 - (den ρ a).val (bIdx (den ρ a).dims ix))
    rw [val_bIdx hix]
  | @sum_add a b hd =>
    refine ⟨⟨fun ⟨h1, h2, _⟩ => ⟨h1, h2, fits_self _⟩, fun ⟨h1, h2, _⟩ => ⟨h1, h2, .inr (.inr hd)⟩⟩, fun _ =>
      ⟨rfl, fun ix _ => ?_⟩⟩
    show sumOver (zd (den ρ a).dims (den ρ b).dims) (fun ix => (den ρ a).val (bIdx _ ix) + (den ρ b).val (bIdx _ ix)) =
      sumOver _ _ + sumOver _ _
    rw [← hd, zd_self, ← sumOver_add]
    exact sumOver_congr fun t ht => by rw [bIdx_inBounds ht]
  | @sum_mul s a hd =>
    refine ⟨⟨fun ⟨h1, h2, _⟩ => ⟨h1, h2, .inl hd⟩, fun ⟨h1, h2, _⟩ => ⟨h1, h2, .inl hd⟩⟩, fun _ =>
      ⟨?_, fun ix _ => ?_⟩⟩
    · show [] = zd (den ρ s).dims []
      rw [hd]
      rfl
    · show sumOver (zd (den ρ s).dims (den ρ a).dims) (fun ix => (den ρ s).val (bIdx _ ix) * (den ρ a).val (bIdx _ ix)) =
        (den ρ s).val (bIdx _ ix) * sumOver _ _
      rw [hd, ← sumOver_mul_left]
      exact sumOver_congr fun t ht => by rw [bIdx_nil, bIdx_nil, bIdx_inBounds (ds := (den ρ a).dims) ht]
  | @add_contract k a b c hd =>
    have hz : (den ρ (.add a b)).dims = (den ρ a).dims := by
      show zd _ _ = _
      rw [← hd, zd_self]
    refine ⟨⟨fun ⟨⟨h1, h2, _⟩, h4, h5⟩ => ?_, fun ⟨⟨h1, h2, h3⟩, ⟨h4, _, _⟩, _⟩ => ?_⟩,
      fun ⟨⟨h1, h2, _⟩, h4, h5⟩ => ctr_add_left k hd (hz ▸ h5)⟩
    · have h5' : CFits k (den ρ a).dims (den ρ c).dims := hz ▸ h5
      refine ⟨⟨h1, h4, h5'⟩, ⟨h2, h4, hd ▸ h5'⟩, .inr (.inr ?_)⟩
      show (ctr k (den ρ a) (den ρ c)).dims = (ctr k (den ρ b) (den ρ c)).dims
      simp only [ctr, Tensor.contract, hd]
    · have h3' : CFits k (den ρ (.add a b)).dims (den ρ c).dims := hz.symm ▸ h3
      exact ⟨⟨h1, h4, .inr (.inr hd)⟩, h2, h3'⟩
  | @contract_add k a b c hd =>
    have hz : (den ρ (.add b c)).dims = (den ρ b).dims := by
      show zd _ _ = _
      rw [← hd, zd_self]
    refine ⟨⟨fun ⟨h1, ⟨h2, h3, _⟩, h5⟩ => ?_, fun ⟨⟨h1, h2, h3⟩, ⟨_, h4, _⟩, _⟩ => ?_⟩,
      fun ⟨h1, ⟨h2, h3, _⟩, h5⟩ => ctr_add_right k hd (hz ▸ h5)⟩
    · have h5' : CFits k (den ρ a).dims (den ρ b).dims := hz ▸ h5
      refine ⟨⟨h1, h2, h5'⟩, ⟨h1, h3, hd ▸ h5'⟩, .inr (.inr ?_)⟩
      show (ctr k (den ρ a) (den ρ b)).dims = (ctr k (den ρ a) (den ρ c)).dims
      simp only [ctr, Tensor.contract, hd]
    · have h3' : CFits k (den ρ a).dims (den ρ (.add b c)).dims := hz.symm ▸ h3
      exact ⟨h1, ⟨h2, h4, .inr (.inr hd)⟩, h3'⟩
  | @mul_contract k s a b hd =>
    have hz : (den ρ (.mul s a)).dims = (den ρ a).dims := by
      show zd _ _ = _
      rw [hd]
      rfl
    refine ⟨⟨fun ⟨⟨h1, h2, _⟩, h4, h5⟩ => ?_, fun ⟨h1, ⟨h2, h3, h4⟩, _⟩ => ?_⟩,
      fun ⟨⟨h1, h2, _⟩, h4, h5⟩ => ctr_mul k hd (hz ▸ h5)⟩
    · have h5' : CFits k (den ρ a).dims (den ρ b).dims := hz ▸ h5
      exact ⟨h1, ⟨h2, h4, h5'⟩, .inl hd⟩
    · have h3' : CFits k (den ρ (.mul s a)).dims (den ρ b).dims := hz.symm ▸ h4
      exact ⟨⟨h1, h2, .inl hd⟩, h3, h3'⟩
  | @dot_comm n a b ha hb =>
    have fits : ∀ {x y : Node F}, (den ρ x).dims = [n] → (den ρ y).dims = [n] →
        CFits 1 (den ρ x).dims (den ρ y).dims := fun hx hy => .inr ⟨[], [n], [], rfl, hx, hy⟩
    exact ⟨⟨fun ⟨h1, h2, _⟩ => ⟨h2, h1, fits hb ha⟩, fun ⟨h1, h2, _⟩ => ⟨h2, h1, fits ha hb⟩⟩,
      fun _ => ctr_comm ha hb⟩

/-- Laws depend on the tensors of the variables only through their extents. -/
theorem law_congr {ρ' : Id → Tensor F} (hd : ∀ i, (ρ i).dims = (ρ' i).dims) {e e' : Node F} (h : Law ρ e e') :
    Law ρ' e e' := by
  have dd := den_dims_congr hd
  induction h with
  | refl a => exact .refl a
  | symm _ ih => exact .symm ih
  | trans _ _ ih ih' => exact .trans ih ih'
  | add _ _ ih ih' => exact .add ih ih'
  | sub _ _ ih ih' => exact .sub ih ih'
  | mul _ _ ih ih' => exact .mul ih ih'
  | div _ _ ih ih' => exact .div ih ih'
  | power _ _ ih ih' => exact .power ih ih'
  | contract k _ _ ih ih' => exact .contract k ih ih'
  | sum _ ih => exact .sum ih
  | un op _ ih => exact .un op ih
  | add_comm a b => exact .add_comm a b
  | add_assoc a b c => exact .add_assoc a b c
  | mul_comm a b => exact .mul_comm a b
  | mul_assoc a b c => exact .mul_assoc a b c
  | add_mul a b c => exact .add_mul a b c
  | zero_add a => exact .zero_add a
  | one_mul a => exact .one_mul a
  | sub_eq a b => exact .sub_eq a b
  | negate_negate a => exact .negate_negate a
  | negate_add a b => exact .negate_add a b
  | negate_mul a b => exact .negate_mul a b
  | double a => exact .double a
  | square h a => exact .square h a
  | addOne a => exact .addOne a
  | subOne a => exact .subOne a
  | oneSub a => exact .oneSub a
  | rabbit a => exact .rabbit a
  | sum_add h => exact .sum_add ((dd _).symm.trans (h.trans (dd _)))
  | sum_mul h => exact .sum_mul ((dd _).symm.trans h)
  | add_contract k c h => exact .add_contract k c ((dd _).symm.trans (h.trans (dd _)))
  | contract_add k a h => exact .contract_add k a ((dd _).symm.trans (h.trans (dd _)))
  | mul_contract k b h => exact .mul_contract k b ((dd _).symm.trans h)
  | dot_comm h h' => exact .dot_comm ((dd _).symm.trans h) ((dd _).symm.trans h')

end Laws

end Aegir
