import Verif.Spec.Formal
import Verif.Lemmas.Calculus
import Verif.Lemmas.Image
import Verif.Lemmas.RoundingExpr
import Mathlib.Tactic.LinearCombination
/-!
# Adjoints as formal derivatives of array expressions
-/

namespace Aegir

open Spec

section
variable {F : Type} [CommRing F]

/-! ## First-order change -/

/-- `g ∈ I` and `x' = x + g` up to `I²`. -/
structure Near (I : Ideal F) (x x' g : F) : Prop where
  lin : g ∈ I
  err : x' - (x + g) ∈ I ^ 2

namespace Near
variable {I : Ideal F} {x x' g y y' h : F}

theorem const (x : F) : Near I x x 0 := ⟨I.zero_mem, by simp⟩

theorem congr (hx : Near I x x' g) (hg : g = h) : Near I x x' h := hg ▸ hx

theorem add (hx : Near I x x' g) (hy : Near I y y' h) : Near I (x + y) (x' + y') (g + h) := by
  refine ⟨I.add_mem hx.lin hy.lin, ?_⟩
  have := (I ^ 2).add_mem hx.err hy.err
  convert this using 1
  ring

theorem neg (hx : Near I x x' g) : Near I (-x) (-x') (-g) := by
  refine ⟨I.neg_mem hx.lin, ?_⟩
  have := (I ^ 2).neg_mem hx.err
  convert this using 1
  ring

theorem sub (hx : Near I x x' g) (hy : Near I y y' h) : Near I (x - y) (x' - y') (g - h) := by
  have := hx.add hy.neg
  rwa [← sub_eq_add_neg, ← sub_eq_add_neg, ← sub_eq_add_neg] at this

/-- The change itself is in the ideal. -/
theorem diff (hx : Near I x x' g) : x' - x ∈ I := by
  have h := I.add_mem (Ideal.pow_le_self two_ne_zero hx.err) hx.lin
  convert h using 1
  ring

theorem mul (hx : Near I x x' g) (hy : Near I y y' h) :
    Near I (x * y) (x' * y') (x * h + g * y) := by
  refine ⟨I.add_mem (I.mul_mem_left _ hy.lin) (I.mul_mem_right _ hx.lin), ?_⟩
  have h1 := (I ^ 2).mul_mem_right y hx.err
  have h2 := (I ^ 2).mul_mem_left x hy.err
  have h3 : (x' - x) * (y' - y) ∈ I ^ 2 := by
    rw [pow_two]; exact Ideal.mul_mem_mul hx.diff hy.diff
  have := (I ^ 2).add_mem ((I ^ 2).add_mem h1 h2) h3
  convert this using 1
  ring

theorem smul (c : F) (hy : Near I y y' h) : Near I (c * y) (c * y') (c * h) :=
  ((const c).mul hy).congr (by ring)

theorem sum {K : Dims} {f f' g : Idx → F} (h : ∀ ix, InBounds K ix → Near I (f ix) (f' ix) (g ix)) :
    Near I (sumOver K f) (sumOver K f') (sumOver K g) := by
  induction K generalizing f f' g with
  | nil => exact h [] .nil
  | cons d K ih =>
    simp only [sumOver]
    have : ∀ i ∈ Finset.range d, Near I (sumOver K fun ix => f (i :: ix))
        (sumOver K fun ix => f' (i :: ix)) (sumOver K fun ix => g (i :: ix)) := fun i hi =>
      ih fun ix hix => h (i :: ix) (.cons (Finset.mem_range.1 hi) hix)
    clear ih h
    generalize Finset.range d = s at this ⊢
    induction s using Finset.induction_on with
    | empty => simpa using const (0 : F)
    | insert a s ha ihs =>
      rw [Finset.sum_insert ha, Finset.sum_insert ha, Finset.sum_insert ha]
      exact (this a (Finset.mem_insert_self a s)).add
        (ihs fun i hi => this i (Finset.mem_insert_of_mem hi))

end Near

/-! ## Sums -/

theorem sumOver_zero' (D : Dims) : sumOver D (fun _ => (0 : F)) = 0 := by
  induction D with
  | nil => rfl
  | cons d D ih => simp [sumOver, ih]

theorem sumOver_mul_left (D : Dims) (a : F) (f : Idx → F) :
    sumOver D (fun ix => a * f ix) = a * sumOver D f := by
  induction D generalizing f with
  | nil => rfl
  | cons d D ih => simp only [sumOver, ih, Finset.mul_sum]

theorem sumOver_mul_right (D : Dims) (a : F) (f : Idx → F) :
    sumOver D (fun ix => f ix * a) = sumOver D f * a := by
  simp only [mul_comm _ a, sumOver_mul_left]

theorem sumOver_sub' (K : Dims) (f g : Idx → F) :
    sumOver K (fun ix => f ix - g ix) = sumOver K f - sumOver K g := by
  induction K generalizing f g with
  | nil => rfl
  | cons d K ih => simp only [sumOver, ih, Finset.sum_sub_distrib]

theorem sumOver_comm (D E : Dims) (f : Idx → Idx → F) :
    sumOver D (fun i => sumOver E (f i)) = sumOver E (fun j => sumOver D fun i => f i j) := by
  induction D generalizing f with
  | nil => rfl
  | cons d D ih =>
    simp only [sumOver, ih]
    generalize Finset.range d = s
    clear ih
    induction E generalizing f with
    | nil => rfl
    | cons e E ihE =>
      simp only [sumOver]
      rw [Finset.sum_comm]
      refine Finset.sum_congr rfl fun j _ => ?_
      exact ihE (f := fun i' ix => f i' (j :: ix))

theorem sumOver_delta {D : Dims} {ix : Idx} (h : InBounds D ix) (f : Idx → F) :
    sumOver D (fun K => if ix = K then f K else 0) = f ix := by
  induction h generalizing f with
  | nil => simp [sumOver]
  | @cons i d ix D hi _ ih =>
    simp only [sumOver]
    rw [Finset.sum_eq_single i]
    · simpa using ih fun K => f (i :: K)
    · intro j _ hj
      have : ∀ K, ¬ (i :: ix = j :: K) := fun K h => hj (List.cons.inj h).1.symm
      simp only [this, if_false, sumOver_zero']
    · intro h; exact absurd (Finset.mem_range.2 hi) h

end

section
variable {F : Type} [CommRing F] [Div F] [ScalarFns F]

/-- The derivative of a unary ring operation. -/
def UnOp.dR : UnOp → F → F
  | .subOne, _ => 1
  | .oneSub, _ => -1
  | .addOne, _ => 1
  | .square, x => (1 + 1) * x
  | .double, _ => 1 + 1
  | .negate, _ => -1
  | .rabbit, x => 1 - (1 + 1) * x
  | _, _ => 0

/-- The unary operations of ring expressions. -/
abbrev ringOps : List UnOp := [.subOne, .oneSub, .addOne, .square, .double, .negate, .rabbit]

theorem near_un [LawfulSquare F] {I : Ideal F} {op : UnOp} (h : op ∈ ringOps) {x x' g : F}
    (hx : Near I x x' g) : Near I (op.apply x) (op.apply x') (op.dR x * g) := by
  simp only [List.mem_cons, List.not_mem_nil, or_false] at h
  rcases h with rfl | rfl | rfl | rfl | rfl | rfl | rfl <;>
    simp only [UnOp.apply, UnOp.dR, LawfulSquare.sq]
  · exact (hx.sub (.const 1)).congr (by ring)
  · exact ((Near.const 1).sub hx).congr (by ring)
  · exact (hx.add (.const 1)).congr (by ring)
  · exact (hx.mul hx).congr (by ring)
  · exact (hx.smul (1 + 1)).congr (by ring)
  · exact hx.neg.congr (by ring)
  · exact (hx.mul ((Near.const 1).sub hx)).congr (by ring)

/-- The adjoint of a unary ring operation. -/
theorem den_un_ring {ρ : Id → Tensor F} {op : UnOp} {n n' e' : Node F} {t : Id} (hop : op ∈ ringOps)
    (hn : n.adjoint t = some n') (h : (Node.un op n).adjoint t = some e') (hc' : Compat ρ e')
    (hd : (den ρ n').dims = (den ρ n).dims ++ (ρ t).dims) :
    (den ρ e').dims = (den ρ n).dims ++ (ρ t).dims ∧
    ∀ ix k, InBounds (den ρ n).dims ix → InBounds (ρ t).dims k →
        (den ρ e').val (ix ++ k) = op.dR ((den ρ n).val ix) * (den ρ n').val (ix ++ k) := by
  have right : ∀ (g : Node F) (φ : F → F), (den ρ g).dims = (den ρ n).dims →
      (∀ ix, InBounds (den ρ n).dims ix → (den ρ g).val ix = φ ((den ρ n).val ix)) →
      Compat ρ (.mul g n') →
      (den ρ (.mul g n')).dims = (den ρ n).dims ++ (ρ t).dims ∧
      ∀ ix k, InBounds (den ρ n).dims ix → InBounds (ρ t).dims k →
        (den ρ (.mul g n')).val (ix ++ k) = φ ((den ρ n).val ix) * (den ρ n').val (ix ++ k) := by
    intro g φ hg hv hc
    have hcase := dims_case (D := (den ρ n).dims) (T := (ρ t).dims)
      (by rw [← hd]; rw [← hg]; exact hc.2.2)
    refine ⟨zip_dims_right hg hd hcase, fun ix k hix hk => ?_⟩
    exact (zip_val_right hg hd hcase hix hk).trans (by rw [hv ix hix])
  simp only [List.mem_cons, List.not_mem_nil, or_false] at hop
  rcases hop with rfl | rfl | rfl | rfl | rfl | rfl | rfl <;>
    simp only [Node.adjoint, hn, Option.map_some, Option.some.injEq] at h <;> subst h
  · exact ⟨hd, fun ix k _ _ => by simp [UnOp.dR]⟩
  · exact ⟨hd, fun ix k _ _ => by simp [UnOp.dR, den, Tensor.map, UnOp.apply]⟩
  · exact ⟨hd, fun ix k _ _ => by simp [UnOp.dR]⟩
  · exact right _ _ rfl (fun _ _ => rfl) hc'
  · exact ⟨hd, fun ix k _ _ => by simp [UnOp.dR, den, Tensor.map, UnOp.apply]⟩
  · exact ⟨hd, fun ix k _ _ => by simp [UnOp.dR, den, Tensor.map, UnOp.apply]⟩
  · exact right _ _ rfl (fun _ _ => rfl) hc'

/-- The adjoint with respect to an identifier that does not occur denotes zero. -/
theorem den_ring_zero {ρ : Id → Tensor F} {e e' : Node F} {t : Id} (he : RingExpr e)
    (h : e.adjoint t = some e') (hno : ¬ Occurs e t) (ix : Idx) : (den ρ e').val ix = 0 := by
  induction e generalizing e' ix with
  | var i =>
    cases h
    have : i ≠ t := fun h => hno (h ▸ .var i)
    simp [den, Tensor.delta, this]
  | varAdj i j => cases h; rfl
  | const τ b => cases h; rfl
  | constSpec | constAdj => cases h
  | cached | div | power => exact he.elim
  | add l r ihl ihr | sub l r ihl ihr | mul l r ihl ihr | contract k l r ihl ihr =>
    simp only [Node.adjoint, Option.bind_eq_some_iff, Option.map_eq_some_iff] at h
    obtain ⟨l', hl, r', hr, rfl⟩ := h
    have h1 := fun ix => ihl he.1 hl (fun ho => hno (.child (by simp [children]) ho)) ix
    have h2 := fun ix => ihr he.2 hr (fun ho => hno (.child (by simp [children]) ho)) ix
    simp [den, Tensor.zip, Tensor.contract, h1, h2, sumOver_zero']
  | sum n ih => exact ih he h (fun ho => hno (.child (by simp [children]) ho)) ix
  | un op n ih =>
    have h1 : ∀ {n'}, n.adjoint t = some n' → ∀ ix, (den ρ n').val ix = 0 := fun hn ix =>
      ih he.2 hn (fun ho => hno (.child (by simp [children]) ho)) ix
    have hop := he.1
    simp only [List.mem_cons, List.not_mem_nil, or_false] at hop
    rcases hop with rfl | rfl | rfl | rfl | rfl | rfl | rfl <;>
      simp only [Node.adjoint, Option.map_eq_some_iff] at h
    all_goals first
      | exact h1 h ix
      | obtain ⟨n', hn, rfl⟩ := h
        simp [den, Tensor.zip, Tensor.map, UnOp.apply, h1 hn]

/-- The Jacobian of an affine vector is a multiple of the identity. -/
theorem affine_jacobian_ring {ρ : Id → Tensor F} {e e' : Node F} {t : Id} {n : Nat}
    (he : RingExpr e) (h : e.adjoint t = some e') (ha : Affine ρ t e) (hT : (ρ t).dims = [n])
    (hc' : Compat ρ e') :
    (den ρ e').dims = (den ρ e).dims ++ (ρ t).dims ∧ ((den ρ e).dims = [n] →
      ∃ a : F, ∀ i j, i < n → j < n → (den ρ e').val [i, j] = if i = j then a else 0) := by
  have e0 : ∀ (l r : Node F), den ρ (.contract 0 l r) = .contract 0 (den ρ l) (den ρ r) := by
    intro l r; simp only [den, ite_self]
  have an : ∀ D : Dims, D = D ++ [] := by simp
  induction ha generalizing e' with
  | var i =>
    cases h
    refine ⟨rfl, fun hD => ?_⟩
    refine ⟨if i = t then 1 else 0, fun a b _ _ => ?_⟩
    have hD : (ρ i).dims = [n] := hD
    by_cases hit : i = t <;> simp [den, Tensor.delta, hD, hT, hit]
  | varAdj i j =>
    cases h
    exact ⟨rfl, fun hD => ⟨0, fun i j _ _ => by simp [den, Tensor.const]⟩⟩
  | const τ b =>
    cases h
    exact ⟨rfl, fun hD => ⟨0, fun i j _ _ => by simp [den, Tensor.const]⟩⟩
  | add hl hr ihl ihr | sub hl hr ihl ihr =>
    simp only [Node.adjoint, Option.bind_eq_some_iff, Option.map_eq_some_iff] at h
    obtain ⟨l', hl', r', hr', rfl⟩ := h
    obtain ⟨dl, jl⟩ := ihl he.1 hl' hc'.1
    obtain ⟨dr, jr⟩ := ihr he.2 hr' hc'.2.1
    have hcase := add_adjoint dl dr hc'.2.2
    refine ⟨zip_adjoint_dims dl dr hcase, fun hD => ?_⟩
    have hlr := hcase.resolve_left (by simp [hT])
    simp only [den, Tensor.zip, hlr, ite_self] at hD
    obtain ⟨a, ha⟩ := jl (hlr.trans hD)
    obtain ⟨b, hb⟩ := jr hD
    first
      | refine ⟨a + b, fun i j hi hj => ?_⟩
        have := zip_adjoint_val (f := (· + ·)) (g := (· + ·)) dl dr hcase (ix := [i]) (k := [j])
          (by simp [Tensor.zip, hlr, hD]; exact inBounds_one' hi) (by rw [hT]; exact inBounds_one' hj)
        rw [hlr, hD, bIdx_self (inBounds_one' hi)] at this
        refine this.trans ?_
        show (den ρ l').val [i, j] + (den ρ r').val [i, j] = _
        rw [ha i j hi hj, hb i j hi hj]
        split <;> simp
      | refine ⟨a - b, fun i j hi hj => ?_⟩
        have := zip_adjoint_val (f := (· - ·)) (g := (· - ·)) dl dr hcase (ix := [i]) (k := [j])
          (by simp [Tensor.zip, hlr, hD]; exact inBounds_one' hi) (by rw [hT]; exact inBounds_one' hj)
        rw [hlr, hD, bIdx_self (inBounds_one' hi)] at this
        refine this.trans ?_
        show (den ρ l').val [i, j] - (den ρ r').val [i, j] = _
        rw [ha i j hi hj, hb i j hi hj]
        split <;> simp
  | un hop hn ih =>
    rename_i op m
    obtain ⟨_, n', hn'⟩ := adjoint_un h
    have hcn := compat_un hn' h hc'
    obtain ⟨hd, hj⟩ := ih he.2 hn' hcn
    obtain ⟨h1, h2⟩ := den_un_ring he.1 hn' h hc' hd
    refine ⟨h1, fun hD => ?_⟩
    obtain ⟨a, ha⟩ := hj hD
    have hconst : ∀ x y : F, op.dR x = op.dR y := by
      intro x y
      simp only [List.mem_cons, List.not_mem_nil, or_false] at hop
      rcases hop with rfl | rfl | rfl | rfl | rfl <;> rfl
    refine ⟨op.dR 0 * a, fun i j hi hj => ?_⟩
    have hD : (den ρ m).dims = [n] := hD
    have := h2 [i] [j] (by rw [hD]; exact inBounds_one' hi) (by rw [hT]; exact inBounds_one' hj)
    refine this.trans ?_
    show _ * (den ρ n').val [i, j] = _
    rw [ha i j hi hj, hconst _ 0]
    split <;> simp
  | scaleR hl hs hd ih =>
    rename_i l s
    simp only [Node.adjoint, Option.bind_eq_some_iff, Option.map_eq_some_iff] at h
    obtain ⟨l', hl', s', hs', rfl⟩ := h
    obtain ⟨dl, jl⟩ := ih he.1 hl' hc'.2.1.1
    have hz := den_ring_zero (ρ := ρ) he.2 hs' hs
    obtain ⟨d1, v1⟩ := tcontract_eq (k := 0) (q := []) (s := []) (an (den ρ l').dims) hd rfl
    obtain ⟨d2, -⟩ := tcontract_eq (k := 0) (q := []) (s := []) (an (den ρ l).dims) hd rfl
    rw [List.append_nil] at d1 d2
    have hc2 := hc'.2.2
    rw [e0, e0] at hc2
    obtain ⟨d3, v3⟩ := zip_zero_left (contract_zero_val (.inr hz)) (by rw [d1, dl, hT]; simp) hc2
    refine ⟨?_, fun hD => ?_⟩
    · show (Tensor.zip (· + ·) (den ρ (.contract 0 l s')) (den ρ (.contract 0 l' s))).dims = _
      rw [e0, e0, d3, d1, dl, e0, d2]
    · rw [e0, d2] at hD
      obtain ⟨a, ha⟩ := jl hD
      refine ⟨a * (den ρ s).val [], fun i j hi hj => ?_⟩
      have hb : InBounds (den ρ l').dims [i, j] := by
        rw [dl, hT, hD]; exact .cons hi (.cons hj .nil)
      show (Tensor.zip (· + ·) (den ρ (.contract 0 l s')) (den ρ (.contract 0 l' s))).val _ = _
      rw [e0, e0, v3 _ (by rw [d1]; exact hb)]
      have := v1 [i, j] [] hb
      rw [List.append_nil] at this
      rw [this]
      simp only [sumOver, List.append_nil, ha i j hi hj]
      split <;> simp
  | scaleL hs hd hr ih =>
    rename_i s r
    simp only [Node.adjoint, Option.bind_eq_some_iff, Option.map_eq_some_iff] at h
    obtain ⟨s', hs', r', hr', rfl⟩ := h
    obtain ⟨dr, jr⟩ := ih he.2 hr' hc'.1.2.1
    have hz := den_ring_zero (ρ := ρ) he.1 hs' hs
    obtain ⟨d1, v1⟩ := tcontract_eq (T := den ρ r') (k := 0) (p := []) (q := []) (s := (den ρ r').dims) hd rfl rfl
    obtain ⟨d2, -⟩ := tcontract_eq (T := den ρ r) (k := 0) (p := []) (q := []) (s := (den ρ r).dims) hd rfl rfl
    rw [List.nil_append] at d1 d2
    obtain ⟨d3, v3⟩ := zip_zero_right (A := .contract 0 (den ρ s) (den ρ r'))
      (B := .contract 0 (den ρ s') (den ρ r)) (contract_zero_val (.inl hz))
      (by rw [d1, dr, hT]; simp)
    refine ⟨?_, fun hD => ?_⟩
    · show (Tensor.zip (· + ·) (den ρ (.contract 0 s r')) (den ρ (.contract 0 s' r))).dims = _
      rw [e0, e0, d3, d1, dr, e0, d2]
    · rw [e0, d2] at hD
      obtain ⟨a, ha⟩ := jr hD
      refine ⟨(den ρ s).val [] * a, fun i j hi hj => ?_⟩
      have hb : InBounds (den ρ r').dims [i, j] := by
        rw [dr, hT, hD]; exact .cons hi (.cons hj .nil)
      show (Tensor.zip (· + ·) (den ρ (.contract 0 s r')) (den ρ (.contract 0 s' r))).val _ = _
      rw [e0, e0, v3 _ (by rw [d1]; exact hb)]
      have := v1 [] [i, j] .nil
      rw [List.nil_append] at this
      rw [this]
      simp only [sumOver, List.nil_append, ha i j hi hj]
      split <;> simp

/-! ## The first-order term -/

/-- The first-order change of an entry: the row of the Jacobian times the change of the target. -/
def pushed (T : Dims) (J : Tensor F) (Δ : Idx → F) (ix : Idx) : F :=
  sumOver T fun K => J.val (ix ++ K) * Δ K

theorem den_taylor_contract {ρ ρ' : Id → Tensor F} {t : Id} {c : Nat} {l r l' r' : Node F}
    {I : Ideal F} {Δ : Idx → F} (he : RingExpr l)
    (hdim : ∀ i, (ρ' i).dims = (ρ i).dims) (hother : ∀ i, i ≠ t → ρ' i = ρ i)
    (hl : l.adjoint t = some l') (hc : Compat ρ (.contract c l r))
    (hc' : Compat ρ (.add (.contract c l r') (.contract c l' r)))
    (hs : (ρ t).dims = [] ∨ c = 0 ∧ (den ρ r).dims = [] ∨ c = 0 ∧ ¬ Occurs l t ∨
        c = 1 ∧ (∃ n, (ρ t).dims = [n] ∧ (den ρ l).dims = [n] ∧ (den ρ r).dims = [n]) ∧
          Affine ρ t l)
    (dl : (den ρ l').dims = (den ρ l).dims ++ (ρ t).dims)
    (vl : ∀ ix, InBounds (den ρ l).dims ix → Near I ((den ρ l).val ix) ((den ρ' l).val ix)
      (pushed (ρ t).dims (den ρ l') Δ ix))
    (dr : (den ρ r').dims = (den ρ r).dims ++ (ρ t).dims)
    (vr : ∀ ix, InBounds (den ρ r).dims ix → Near I ((den ρ r).val ix) ((den ρ' r).val ix)
      (pushed (ρ t).dims (den ρ r') Δ ix)) :
    (den ρ (.add (.contract c l r') (.contract c l' r))).dims
      = (den ρ (.contract c l r)).dims ++ (ρ t).dims ∧
    ∀ ix, InBounds (den ρ (.contract c l r)).dims ix →
      Near I ((den ρ (.contract c l r)).val ix) ((den ρ' (.contract c l r)).val ix)
        (pushed (ρ t).dims (den ρ (.add (.contract c l r') (.contract c l' r))) Δ ix) := by
  have pd : ∀ e : Node F, (den ρ' e).dims = (den ρ e).dims := den_dims_congr hdim
  by_cases hT : (ρ t).dims = []
  · rw [hT] at dl dr vl vr ⊢
    simp only [List.append_nil, pushed, sumOver] at dl dr vl vr ⊢
    generalize hk0 : (if (den ρ l).dims = [] ∧ (den ρ r).dims = [] then 0 else c) = k0
    have hp : ∃ p q s, q.length = k0 ∧ (den ρ l).dims = p ++ q ∧ (den ρ r).dims = q ++ s := by
      rcases hc.2.2 with ⟨h1, h2⟩ | ⟨p, q, s, hq, h1, h2⟩
      · exact ⟨[], [], [], by simpa [h1, h2] using hk0, h1, h2⟩
      · refine ⟨p, q, s, ?_, h1, h2⟩
        rw [← hk0]
        split
        · rename_i h; rw [h.1] at h1; simp_all
        · exact hq
    obtain ⟨p, q, s, hq, hL, hR⟩ := hp
    have e1 : den ρ (.contract c l r') = .contract k0 (den ρ l) (den ρ r') := by
      simp only [den, dr, hk0]
    have e2 : den ρ (.contract c l' r) = .contract k0 (den ρ l') (den ρ r) := by
      simp only [den, dl, hk0]
    have e3 : den ρ' (.contract c l r) = .contract k0 (den ρ' l) (den ρ' r) := by
      simp only [den, pd, hk0]
    have e4 : den ρ (.contract c l r) = .contract k0 (den ρ l) (den ρ r) := by
      simp only [den, hk0]
    obtain ⟨d1, v1⟩ := tcontract_eq (T := den ρ r') hL (dr.trans hR) hq
    obtain ⟨d2, v2⟩ := tcontract_eq (T := den ρ r) (dl.trans hL) hR hq
    obtain ⟨d4, v4⟩ := tcontract_eq hL hR hq
    obtain ⟨-, v5⟩ := tcontract_eq ((pd l).trans hL) ((pd r).trans hR) hq
    obtain ⟨d3, v3⟩ := zip_same (f := (· + ·)) d1 d2
    refine ⟨?_, fun ix hix => ?_⟩
    · show (Tensor.zip (· + ·) (den ρ (.contract c l r')) (den ρ (.contract c l' r))).dims = _
      rw [e1, e2, e4, d3, d4]
    · rw [e4, d4] at hix
      show Near _ _ _ ((Tensor.zip (· + ·) (den ρ (.contract c l r'))
        (den ρ (.contract c l' r))).val ix * _)
      rw [e1, e2, e3, e4, v3 ix hix]
      obtain ⟨i1, i2, h1, h2, rfl⟩ := inBounds_append.1 hix
      rw [v1 i1 i2 h1, v2 i1 i2 h1, v4 i1 i2 h1, v5 i1 i2 h1, ← sumOver_add, ← sumOver_mul_right]
      refine Near.sum fun t' ht' => ?_
      have b1 : InBounds (den ρ l).dims (i1 ++ t') := by
        rw [hL]; exact inBounds_append.2 ⟨_, _, h1, ht', rfl⟩
      have b2 : InBounds (den ρ r).dims (t' ++ i2) := by
        rw [hR]; exact inBounds_append.2 ⟨_, _, ht', h2, rfl⟩
      exact ((vl _ b1).mul (vr _ b2)).congr (by ring)
  rcases hs with hT' | ⟨rfl, hR⟩ | ⟨rfl, hno⟩ | ⟨rfl, ⟨n, hT, hL, hR⟩, ha⟩
  · exact absurd hT' hT
  · rw [hR] at dr vr
    have e3 : ∀ (ρ' : Id → Tensor F) (l r : Node F), den ρ' (.contract 0 l r)
        = .contract 0 (den ρ' l) (den ρ' r) := by
      intro ρ' l r
      simp only [den, ite_self]
    have e0 : ∀ D : Dims, D = D ++ [] := by simp
    obtain ⟨d1, v1⟩ := tcontract_eq (k := 0) (q := []) (e0 (den ρ l).dims) dr rfl
    obtain ⟨d2, v2⟩ := tcontract_eq (k := 0) (q := []) (s := []) (dl.trans (e0 _)) hR rfl
    obtain ⟨d4, v4⟩ := tcontract_eq (k := 0) (q := []) (s := []) (e0 (den ρ l).dims) hR rfl
    obtain ⟨-, v5⟩ := tcontract_eq (k := 0) (q := []) (s := []) ((pd l).trans (e0 _))
      ((pd r).trans hR) rfl
    rw [List.append_nil] at d2 d4
    obtain ⟨d3, v3⟩ := zip_same (f := (· + ·)) d1 d2
    refine ⟨?_, fun ix hix => ?_⟩
    · show (Tensor.zip (· + ·) (den ρ (.contract 0 l r')) (den ρ (.contract 0 l' r))).dims = _
      rw [e3, e3, e3, d3, d4]
    · rw [e3, d4] at hix
      have w4 := v4 ix [] hix
      have w5 := v5 ix [] hix
      rw [List.append_nil] at w4 w5
      rw [e3, e3, w4, w5]
      simp only [sumOver, List.append_nil]
      have key : pushed (ρ t).dims (den ρ (.add (.contract 0 l r') (.contract 0 l' r))) Δ ix
          = (den ρ l).val ix * pushed (ρ t).dims (den ρ r') Δ []
            + pushed (ρ t).dims (den ρ l') Δ ix * (den ρ r).val [] := by
        unfold pushed
        rw [← sumOver_mul_left, ← sumOver_mul_right, ← sumOver_add]
        refine sumOver_congr fun K hk => ?_
        show (Tensor.zip (· + ·) (den ρ (.contract 0 l r'))
          (den ρ (.contract 0 l' r))).val (ix ++ K) * _ = _
        have hixK := inBounds_append.2 ⟨ix, K, hix, hk, rfl⟩
        have w2 := v2 (ix ++ K) [] hixK
        rw [List.append_nil] at w2
        rw [e3, e3, v3 (ix ++ K) hixK, v1 ix K hix, w2]
        simp only [sumOver, List.append_nil, List.nil_append]
        ring
      exact ((vl _ hix).mul (vr [] .nil)).congr key.symm
  · have e0 : ∀ (ρ : Id → Tensor F) (l r : Node F),
        den ρ (.contract 0 l r) = .contract 0 (den ρ l) (den ρ r) := by
      intro ρ l r; simp only [den, ite_self]
    have an : ∀ D : Dims, D = D ++ [] := by simp
    have hz := den_ring_zero (ρ := ρ) he hl hno
    obtain ⟨d1, v1⟩ := tcontract_eq (T := den ρ r') (k := 0) (q := []) (s := (den ρ r').dims) (an (den ρ l).dims) rfl rfl
    obtain ⟨d2, v2⟩ := tcontract_eq (T := den ρ r) (k := 0) (q := []) (s := (den ρ r).dims) (an (den ρ l).dims) rfl rfl
    obtain ⟨-, v5⟩ := tcontract_eq (T := den ρ' r) (k := 0) (q := []) (s := (den ρ' r).dims) (an (den ρ l).dims) rfl rfl
    obtain ⟨d3, v3⟩ := zip_zero_right (A := .contract 0 (den ρ l) (den ρ r'))
      (B := .contract 0 (den ρ l') (den ρ r)) (contract_zero_val (.inl hz))
      (by rw [d1, dr]; simp [hT])
    have hll : den ρ' l = den ρ l := by
      refine den_congr l fun i hi => hother i fun h => hno (h ▸ hi)
    refine ⟨?_, fun ix hix => ?_⟩
    · show (Tensor.zip (· + ·) (den ρ (.contract 0 l r')) (den ρ (.contract 0 l' r))).dims = _
      rw [e0, e0, d3, d1, dr, e0, d2, List.append_assoc]
    · rw [e0, d2] at hix
      obtain ⟨i1, i2, h1, h2, rfl⟩ := inBounds_append.1 hix
      rw [e0, e0, hll, v2 i1 i2 h1, v5 i1 i2 h1]
      simp only [sumOver, List.append_nil, List.nil_append]
      have key : pushed (ρ t).dims (den ρ (.add (.contract 0 l r') (.contract 0 l' r))) Δ (i1 ++ i2)
          = (den ρ l).val i1 * pushed (ρ t).dims (den ρ r') Δ i2 := by
        unfold pushed
        rw [← sumOver_mul_left]
        refine sumOver_congr fun K hk => ?_
        show (Tensor.zip (· + ·) (den ρ (.contract 0 l r'))
          (den ρ (.contract 0 l' r))).val (i1 ++ i2 ++ K) * _ = _
        rw [List.append_assoc, e0, e0, v3 _ (by
          rw [d1, dr]
          exact inBounds_append.2 ⟨_, _, h1, inBounds_append.2 ⟨_, _, h2, hk, rfl⟩, rfl⟩),
          v1 i1 (i2 ++ K) h1]
        simp only [sumOver, List.append_nil, List.nil_append]
        ring
      exact ((vr _ h2).smul _).congr key.symm
  · rw [hL, hT] at dl
    rw [hR, hT] at dr
    have e1 : den ρ (.contract 1 l r') = .contract 1 (den ρ l) (den ρ r') := by
      simp [den, hL]
    have e2 : den ρ (.contract 1 l' r) = .contract 1 (den ρ l') (den ρ r) := by
      simp [den, hR]
    have e3 : den ρ' (.contract 1 l r) = .contract 1 (den ρ' l) (den ρ' r) := by
      simp [den, pd, hR]
    have e4 : den ρ (.contract 1 l r) = .contract 1 (den ρ l) (den ρ r) := by
      simp [den, hR]
    have nn : ([n] : Dims) = [] ++ [n] := rfl
    have nn' : ([n] : Dims) = [n] ++ [] := rfl
    obtain ⟨d1, v1⟩ := tcontract_eq (k := 1) (T := den ρ r') (hL.trans nn) dr rfl
    obtain ⟨d2, v2⟩ := tcontract_eq (k := 1) (T := den ρ r) dl (hR.trans nn') rfl
    obtain ⟨d4, v4⟩ := tcontract_eq (k := 1) (hL.trans nn) (hR.trans nn') rfl
    obtain ⟨-, v5⟩ := tcontract_eq (k := 1) (((pd l).trans hL).trans nn) (((pd r).trans hR).trans nn')
      rfl
    obtain ⟨d3, v3⟩ := zip_same (f := (· + ·)) d1 d2
    refine ⟨?_, fun ix hix => ?_⟩
    · show (Tensor.zip (· + ·) (den ρ (.contract 1 l r')) (den ρ (.contract 1 l' r))).dims = _
      rw [e1, e2, e4, d3, d4, hT]
      rfl
    · rw [e4, d4] at hix
      cases hix
      have w4 := v4 [] [] .nil
      have w5 := v5 [] [] .nil
      simp only [List.nil_append, List.append_nil] at w4 w5
      rw [e3, e4, w4, w5]
      obtain ⟨a, hj⟩ := (affine_jacobian_ring he hl ha hT hc'.2.1.1).2 hL
      have key : pushed (ρ t).dims (den ρ (.add (.contract 1 l r') (.contract 1 l' r))) Δ []
          = sumOver [n] fun t' => (den ρ l).val t' * pushed (ρ t).dims (den ρ r') Δ t'
            + pushed (ρ t).dims (den ρ l') Δ t' * (den ρ r).val t' := by
        unfold pushed
        rw [hT]
        simp only [← sumOver_mul_left, ← sumOver_mul_right, ← sumOver_add]
        rw [sumOver_comm]
        refine sumOver_congr fun K hk => ?_
        have w1 := v1 [] K .nil
        have w2 := v2 K [] hk
        rw [List.append_nil] at w2
        rw [List.nil_append] at w1
        show (Tensor.zip (· + ·) (den ρ (.contract 1 l r'))
          (den ρ (.contract 1 l' r))).val K * _ = _
        rw [e1, e2, v3 K hk, w1, w2, ← sumOver_add, ← sumOver_mul_right]
        refine sumOver_congr fun t' ht' => ?_
        cases hk with
        | cons hk0 hk1 =>
          cases hk1
          cases ht' with
          | cons ht0 ht1 =>
            cases ht1
            simp only [List.cons_append, List.nil_append, List.append_nil, hj _ _ hk0 ht0,
              hj _ _ ht0 hk0]
            simp only [eq_comm]
            ring
      refine (Near.sum fun t' ht' => ?_).congr key.symm
      exact (vl _ (by rw [hL]; exact ht')).mul (vr _ (by rw [hR]; exact ht'))

/-- First-order expansion: when the target's entries change by elements of `I`, the entries of the
value change by the Jacobian times that change, up to `I²`. -/
theorem den_taylor [LawfulSquare F] {ρ ρ' : Id → Tensor F} {e e' : Node F} {t : Id} {I : Ideal F}
    {Δ : Idx → F} (he : RingExpr e) (h : e.adjoint t = some e') (hc : Compat ρ e)
    (hc' : Compat ρ e') (hs : WellContracted ρ t e)
    (hdim : ∀ i, (ρ' i).dims = (ρ i).dims) (hother : ∀ i, i ≠ t → ρ' i = ρ i)
    (hΔ : ∀ K, InBounds (ρ t).dims K → Δ K ∈ I)
    (hval : ∀ K, InBounds (ρ t).dims K → (ρ' t).val K = (ρ t).val K + Δ K) :
    (den ρ e').dims = (den ρ e).dims ++ (ρ t).dims ∧
    ∀ ix, InBounds (den ρ e).dims ix → Near I ((den ρ e).val ix) ((den ρ' e).val ix)
      (pushed (ρ t).dims (den ρ e') Δ ix) := by
  have pd : ∀ e : Node F, (den ρ' e).dims = (den ρ e).dims := den_dims_congr hdim
  induction e generalizing e' with
  | var i =>
    cases h
    refine ⟨rfl, fun ix hix => ?_⟩
    have hix' : InBounds (ρ i).dims ix := hix
    have hl := inBounds_length hix'
    have hval' : ∀ K, (den ρ (.varAdj i t)).val (ix ++ K) = if i = t ∧ ix = K then 1 else 0 := by
      intro K; simp [den, Tensor.delta, ← hl]
    simp only [pushed, hval']
    by_cases hit : i = t
    · subst hit
      simp only [true_and, ite_mul, one_mul, zero_mul]
      rw [sumOver_delta hix' Δ]
      refine ⟨hΔ ix hix', ?_⟩
      show (ρ' i).val ix - ((ρ i).val ix + Δ ix) ∈ I ^ 2
      rw [hval ix hix', sub_self]
      exact (I ^ 2).zero_mem
    · simp only [hit, false_and, if_false, zero_mul, sumOver_zero']
      have : (den ρ' (.var i)).val ix = (den ρ (.var i)).val ix := by
        show (ρ' i).val ix = (ρ i).val ix
        rw [hother i hit]
      rw [this]
      exact .const _
  | varAdj i j =>
    cases h
    refine ⟨rfl, fun ix hix => ?_⟩
    have : (den ρ' (.varAdj i j)).val ix = (den ρ (.varAdj i j)).val ix := by
      simp only [den, Tensor.delta, hdim]
    rw [this]
    exact (Near.const _).congr (by simp [pushed, den, Tensor.const, sumOver_zero'])
  | const τ b =>
    cases h
    exact ⟨rfl, fun ix _ => (Near.const _).congr
      (by simp [pushed, den, Tensor.const, sumOver_zero'])⟩
  | constSpec | constAdj => cases h
  | cached | div | power => exact he.elim
  | add l r ihl ihr =>
    simp only [Node.adjoint, Option.bind_eq_some_iff, Option.map_eq_some_iff] at h
    obtain ⟨l', hl, r', hr, rfl⟩ := h
    obtain ⟨dl, vl⟩ := ihl he.1 hl hc.1 hc'.1 hs.1
    obtain ⟨dr, vr⟩ := ihr he.2 hr hc.2.1 hc'.2.1 hs.2
    have hcase := add_adjoint dl dr hc'.2.2
    refine ⟨zip_adjoint_dims dl dr hcase, fun ix hix => ?_⟩
    obtain ⟨bl, br⟩ := bcast_inBounds hc.2.2 hix
    have := fun K hk => zip_adjoint_val (f := (· + ·)) (g := (· + ·)) dl dr hcase (k := K) hix hk
    have key : pushed (ρ t).dims (den ρ (.add l' r')) Δ ix = pushed (ρ t).dims (den ρ l')
        Δ (bIdx (den ρ l).dims ix) + pushed (ρ t).dims (den ρ r') Δ (bIdx (den ρ r).dims ix) := by
      unfold pushed
      rw [← sumOver_add]
      exact sumOver_congr fun K hk => by rw [← add_mul]; exact congrArg (· * _) (this K hk)
    rw [key]
    simp only [den, Tensor.zip, pd]
    exact (vl _ bl).add (vr _ br)
  | sub l r ihl ihr =>
    simp only [Node.adjoint, Option.bind_eq_some_iff, Option.map_eq_some_iff] at h
    obtain ⟨l', hl, r', hr, rfl⟩ := h
    obtain ⟨dl, vl⟩ := ihl he.1 hl hc.1 hc'.1 hs.1
    obtain ⟨dr, vr⟩ := ihr he.2 hr hc.2.1 hc'.2.1 hs.2
    have hcase := add_adjoint dl dr hc'.2.2
    refine ⟨zip_adjoint_dims dl dr hcase, fun ix hix => ?_⟩
    obtain ⟨bl, br⟩ := bcast_inBounds hc.2.2 hix
    have := fun K hk => zip_adjoint_val (f := (· - ·)) (g := (· - ·)) dl dr hcase (k := K) hix hk
    have key : pushed (ρ t).dims (den ρ (.sub l' r')) Δ ix = pushed (ρ t).dims (den ρ l')
        Δ (bIdx (den ρ l).dims ix) - pushed (ρ t).dims (den ρ r') Δ (bIdx (den ρ r).dims ix) := by
      unfold pushed
      rw [← sumOver_sub']
      exact sumOver_congr fun K hk => by rw [← sub_mul]; exact congrArg (· * _) (this K hk)
    rw [key]
    simp only [den, Tensor.zip, pd]
    exact (vl _ bl).sub (vr _ br)
  | mul l r ihl ihr =>
    simp only [Node.adjoint, Option.bind_eq_some_iff, Option.map_eq_some_iff] at h
    obtain ⟨l', hl, r', hr, rfl⟩ := h
    obtain ⟨dl, vl⟩ := ihl he.1 hl hc.1 hc'.1.1 hs.1
    obtain ⟨dr, vr⟩ := ihr he.2 hr hc.2.1 hc'.2.1.1 hs.2
    have hcase : (ρ t).dims = [] ∨ (den ρ l).dims = [] ∧ (den ρ r).dims = [] := by
      have h1 := hc'.1.2.2
      have h3 := hc'.2.2
      simp only [den, Tensor.zip] at h1 h3
      rw [dl] at h1 h3
      rw [dr] at h3
      exact mul_case h1 h3
    obtain ⟨d1, v1⟩ := prod_left (f := (· * ·)) (B := den ρ r) dl rfl hcase
    obtain ⟨d2, v2⟩ := prod_left (f := (· * ·)) (B := den ρ l) dr rfl (hcase.imp_right And.symm)
    rw [zd_comm hc.2.2] at d2 v2
    obtain ⟨d3, v3⟩ := zip_same (f := (· + ·)) d1 d2
    refine ⟨d3, fun ix hix => ?_⟩
    have hix' : InBounds (zd (den ρ l).dims (den ρ r).dims) ix := hix
    obtain ⟨bl, br⟩ := bcast_inBounds hc.2.2 hix
    have key : pushed (ρ t).dims (den ρ (.add (.mul l' r) (.mul r' l))) Δ ix
        = (den ρ l).val (bIdx (den ρ l).dims ix) * pushed (ρ t).dims (den ρ r') Δ (bIdx (den ρ r).dims ix)
          + pushed (ρ t).dims (den ρ l') Δ (bIdx (den ρ l).dims ix)
            * (den ρ r).val (bIdx (den ρ r).dims ix) := by
      unfold pushed
      rw [← sumOver_mul_left, ← sumOver_mul_right, ← sumOver_add]
      refine sumOver_congr fun K hk => ?_
      have := v3 (ix ++ K) (inBounds_append.2 ⟨ix, K, hix', hk, rfl⟩)
      rw [v1 ix K hix' hk, v2 ix K hix' hk] at this
      refine (congrArg (· * Δ K) this).trans ?_
      ring
    rw [key]
    simp only [den, Tensor.zip, pd]
    exact (vl _ bl).mul (vr _ br)
  | contract c l r ihl ihr =>
    simp only [Node.adjoint, Option.bind_eq_some_iff, Option.map_eq_some_iff] at h
    obtain ⟨l', hl, r', hr, rfl⟩ := h
    obtain ⟨dl, vl⟩ := ihl he.1 hl hc.1 hc'.2.1.1 hs.1
    obtain ⟨dr, vr⟩ := ihr he.2 hr hc.2.1 hc'.1.2.1 hs.2.1
    exact den_taylor_contract he.1 hdim hother hl hc hc' hs.2.2 dl vl dr vr
  | sum n ih =>
    obtain ⟨dn, vn⟩ := ih he h hc hc' hs.1
    have hD : (den ρ n).dims = [] := hs.2
    refine ⟨by rw [dn, hD]; rfl, fun ix hix => ?_⟩
    cases hix
    have := vn [] (by rw [hD]; exact .nil)
    simpa only [den, pd, hD, sumOver] using this
  | un op n ih =>
    obtain ⟨-, n', hn⟩ := adjoint_un h
    obtain ⟨dn, vn⟩ := ih he.2 hn hc (compat_un hn h hc') hs
    obtain ⟨h1, h2⟩ := den_un_ring he.1 hn h hc' dn
    refine ⟨h1, fun ix hix => ?_⟩
    have hix : InBounds (den ρ n).dims ix := hix
    have key : pushed (ρ t).dims (den ρ e') Δ ix
        = op.dR ((den ρ n).val ix) * pushed (ρ t).dims (den ρ n') Δ ix := by
      unfold pushed
      rw [← sumOver_mul_left]
      refine sumOver_congr fun K hk => ?_
      rw [h2 ix K hix hk]
      ring
    rw [key]
    exact near_un he.1 (vn ix hix)

/-! ## Several targets -/

/-- Fitting shapes only depend on extents. -/
theorem compat_dims_congr {ρ ρ' : Id → Tensor F} (h : ∀ i, (ρ' i).dims = (ρ i).dims) {e : Node F}
    (hc : Compat ρ e) : Compat ρ' e := by
  have pd : ∀ e : Node F, (den ρ' e).dims = (den ρ e).dims := den_dims_congr h
  induction e with
  | var | varAdj | const | constSpec | constAdj => trivial
  | cached n i ih | sum n ih | un op n ih => exact ih hc
  | add l r ihl ihr | sub l r ihl ihr | mul l r ihl ihr | div l r ihl ihr | power l r ihl ihr
  | contract k l r ihl ihr =>
    refine ⟨ihl hc.1, ihr hc.2.1, ?_⟩
    simp only [pd]
    exact hc.2.2

theorem affine_dims_congr {ρ ρ' : Id → Tensor F} (h : ∀ i, (ρ' i).dims = (ρ i).dims) {t : Id}
    {e : Node F} (ha : Affine ρ t e) : Affine ρ' t e := by
  have pd : ∀ e : Node F, (den ρ' e).dims = (den ρ e).dims := den_dims_congr h
  induction ha with
  | var i => exact .var i
  | varAdj i j => exact .varAdj i j
  | const τ b => exact .const τ b
  | add _ _ h1 h2 => exact .add h1 h2
  | sub _ _ h1 h2 => exact .sub h1 h2
  | un hop _ h1 => exact .un hop h1
  | scaleR _ hs hd h1 => exact .scaleR h1 hs ((pd _).trans hd)
  | scaleL hs hd _ h1 => exact .scaleL hs ((pd _).trans hd) h1

theorem wellContracted_congr {ρ ρ' : Id → Tensor F} (h : ∀ i, (ρ' i).dims = (ρ i).dims) {t : Id}
    {e : Node F} (hc : WellContracted ρ t e) : WellContracted ρ' t e := by
  have pd : ∀ e : Node F, (den ρ' e).dims = (den ρ e).dims := den_dims_congr h
  induction e with
  | var | varAdj | const | constSpec => trivial
  | constAdj n i ih | cached n i ih | un op n ih => exact ih hc
  | sum n ih => exact ⟨ih hc.1, (pd n).trans hc.2⟩
  | add l r ihl ihr | sub l r ihl ihr | mul l r ihl ihr | div l r ihl ihr | power l r ihl ihr =>
    exact ⟨ihl hc.1, ihr hc.2⟩
  | contract k l r ihl ihr =>
    refine ⟨ihl hc.1, ihr hc.2.1, ?_⟩
    simp only [pd, h]
    exact hc.2.2.imp_right (.imp_right (.imp_right fun ⟨h1, h2, h3⟩ => ⟨h1, h2, affine_dims_congr h h3⟩))

/-- Entries that agree modulo an ideal give values that agree modulo that ideal. -/
theorem den_mod [LawfulSquare F] {ρ ρ' : Id → Tensor F} {e : Node F} {I : Ideal F} (he : RingExpr e)
    (hc : Compat ρ e) (hdim : ∀ i, (ρ' i).dims = (ρ i).dims)
    (hval : ∀ i ix, InBounds (ρ i).dims ix → (ρ' i).val ix - (ρ i).val ix ∈ I) :
    ∀ ix, InBounds (den ρ e).dims ix → (den ρ' e).val ix - (den ρ e).val ix ∈ I := by
  have pd : ∀ e : Node F, (den ρ' e).dims = (den ρ e).dims := den_dims_congr hdim
  have hmul : ∀ {a a' b b' : F}, a' - a ∈ I → b' - b ∈ I → a' * b' - a * b ∈ I := by
    intro a a' b b' h1 h2
    have := I.add_mem (I.mul_mem_right b' h1) (I.mul_mem_left a h2)
    convert this using 1
    ring
  have hsum : ∀ {K : Dims} {f f' : Idx → F}, (∀ ix, InBounds K ix → f' ix - f ix ∈ I) →
      sumOver K f' - sumOver K f ∈ I := by
    intro K f f' h
    rw [← sumOver_sub']
    induction K generalizing f f' with
    | nil => exact h [] .nil
    | cons d K ih =>
      simp only [sumOver]
      exact I.sum_mem fun i hi => ih fun ix hix => h (i :: ix) (.cons (Finset.mem_range.1 hi) hix)
  induction e with
  | var i => exact hval i
  | varAdj i j =>
    intro ix _
    have : (den ρ' (.varAdj i j)).val ix = (den ρ (.varAdj i j)).val ix := by
      simp only [den, Tensor.delta, hdim]
    rw [this, sub_self]
    exact I.zero_mem
  | const | constSpec | constAdj => intro ix _; simp [den, Tensor.const]
  | cached | div | power => exact he.elim
  | add l r ihl ihr =>
    intro ix hix
    obtain ⟨bl, br⟩ := bcast_inBounds hc.2.2 hix
    simp only [den, Tensor.zip, pd]
    have := I.add_mem (ihl he.1 hc.1 _ bl) (ihr he.2 hc.2.1 _ br)
    convert this using 1
    ring
  | sub l r ihl ihr =>
    intro ix hix
    obtain ⟨bl, br⟩ := bcast_inBounds hc.2.2 hix
    simp only [den, Tensor.zip, pd]
    have := I.sub_mem (ihl he.1 hc.1 _ bl) (ihr he.2 hc.2.1 _ br)
    convert this using 1
    ring
  | mul l r ihl ihr =>
    intro ix hix
    obtain ⟨bl, br⟩ := bcast_inBounds hc.2.2 hix
    simp only [den, Tensor.zip, pd]
    exact hmul (ihl he.1 hc.1 _ bl) (ihr he.2 hc.2.1 _ br)
  | contract k l r ihl ihr =>
    intro ix hix
    generalize hk0 : (if (den ρ l).dims = [] ∧ (den ρ r).dims = [] then 0 else k) = k0
    have hp : ∃ p q s, q.length = k0 ∧ (den ρ l).dims = p ++ q ∧ (den ρ r).dims = q ++ s := by
      rcases hc.2.2 with ⟨h1, h2⟩ | ⟨p, q, s, hq, h1, h2⟩
      · exact ⟨[], [], [], by simpa [h1, h2] using hk0, h1, h2⟩
      · refine ⟨p, q, s, ?_, h1, h2⟩
        rw [← hk0]
        split
        · rename_i h; rw [h.1] at h1; simp_all
        · exact hq
    obtain ⟨p, q, s, hq, hL, hR⟩ := hp
    obtain ⟨d4, v4⟩ := tcontract_eq hL hR hq
    obtain ⟨-, v5⟩ := tcontract_eq ((pd l).trans hL) ((pd r).trans hR) hq
    simp only [den, pd, hk0] at hix ⊢
    rw [d4] at hix
    obtain ⟨i1, i2, h1, h2, rfl⟩ := inBounds_append.1 hix
    rw [v4 i1 i2 h1, v5 i1 i2 h1]
    refine hsum fun t' ht' => hmul (ihl he.1 hc.1 _ ?_) (ihr he.2 hc.2.1 _ ?_)
    · rw [hL]; exact inBounds_append.2 ⟨_, _, h1, ht', rfl⟩
    · rw [hR]; exact inBounds_append.2 ⟨_, _, ht', h2, rfl⟩
  | sum n ih =>
    intro ix _
    simp only [den, pd]
    exact hsum fun ix hix => ih he hc ix hix
  | un op n ih =>
    intro ix hix
    have := ih he.2 hc ix hix
    have hop := he.1
    simp only [den, Tensor.map]
    generalize (den ρ' n).val ix = x' at this ⊢
    generalize (den ρ n).val ix = x at this ⊢
    simp only [List.mem_cons, List.not_mem_nil, or_false] at hop
    rcases hop with rfl | rfl | rfl | rfl | rfl | rfl | rfl <;>
      simp only [UnOp.apply, LawfulSquare.sq]
    · simpa using this
    · have := I.neg_mem this
      convert this using 1
      ring
    · simpa using this
    · exact hmul this this
    · exact hmul (by simp) this
    · have := I.neg_mem this
      convert this using 1
      ring
    · refine hmul this ?_
      have := I.neg_mem this
      convert this using 1
      ring

/-- First-order expansion in several targets at once. -/
theorem den_taylor_many [LawfulSquare F] {ρ ρ' : Id → Tensor F} {e : Node F} {adj : Id → Node F}
    {S : Finset Id} {I : Ideal F} (he : RingExpr e)
    (ha : ∀ t ∈ S, e.adjoint t = some (adj t)) (hc : Compat ρ e)
    (hc' : ∀ t ∈ S, Compat ρ (adj t)) (hs : ∀ t ∈ S, WellContracted ρ t e)
    (hdim : ∀ i, (ρ' i).dims = (ρ i).dims) (hout : ∀ i, i ∉ S → ρ' i = ρ i)
    (hI : ∀ t ∈ S, ∀ K, InBounds (ρ t).dims K → (ρ' t).val K - (ρ t).val K ∈ I) :
    ∀ ix, InBounds (den ρ e).dims ix → Near I ((den ρ e).val ix) ((den ρ' e).val ix)
      (∑ t ∈ S, pushed (ρ t).dims (den ρ (adj t)) (fun K => (ρ' t).val K - (ρ t).val K) ix) := by
  induction S using Finset.induction_on generalizing ρ' with
  | empty =>
    have : ρ' = ρ := funext fun i => hout i (by simp)
    subst this
    intro ix _
    simpa using Near.const _
  | insert t S hts ih =>
    intro ix hix
    let ρ₁ : Id → Tensor F := fun i => if i = t then ρ t else ρ' i
    have h1t : ρ₁ t = ρ t := if_pos rfl
    have h1 : ∀ i, i ≠ t → ρ₁ i = ρ' i := fun i hi => if_neg hi
    have hdim1 : ∀ i, (ρ₁ i).dims = (ρ i).dims := by
      intro i
      by_cases hi : i = t
      · rw [hi, h1t]
      · rw [h1 i hi]; exact hdim i
    have ne : ∀ {s}, s ∈ S → s ≠ t := fun hs h => hts (h ▸ hs)
    have first := ih (ρ' := ρ₁) (fun s hs => ha s (Finset.mem_insert_of_mem hs))
      (fun s hs => hc' s (Finset.mem_insert_of_mem hs))
      (fun s h => hs s (Finset.mem_insert_of_mem h)) hdim1
      (fun i hi => by
        by_cases hit : i = t
        · rw [hit, h1t]
        · rw [h1 i hit]; exact hout i (by simp [hit, hi]))
      (fun s hs K hK => by
        rw [h1 s (ne hs)]
        exact hI s (Finset.mem_insert_of_mem hs) K hK) ix hix
    have hmt := Finset.mem_insert_self t S
    have second := (den_taylor (ρ := ρ₁) (ρ' := ρ') (I := I)
      (Δ := fun K => (ρ' t).val K - (ρ t).val K) he (ha t hmt) (compat_dims_congr hdim1 hc)
      (compat_dims_congr hdim1 (hc' t hmt)) (wellContracted_congr hdim1 (hs t hmt))
      (fun i => (hdim i).trans (hdim1 i).symm) (fun i hi => (h1 i hi).symm)
      (fun K hK => hI t hmt K (by rwa [h1t] at hK))
      (fun K _ => by rw [h1t]; ring)).2 ix (by rw [den_dims_congr hdim1]; exact hix)
    have third := den_taylor (ρ := ρ) (ρ' := ρ) (I := I) (Δ := fun _ => 0) he (ha t hmt) hc (hc' t hmt)
      (hs t hmt) (fun _ => rfl) (fun _ _ => rfl) (fun _ _ => I.zero_mem) (fun _ _ => by simp)
    rw [Finset.sum_insert hts, add_comm]
    have same : ∑ s ∈ S, pushed (ρ s).dims (den ρ (adj s)) (fun K => (ρ₁ s).val K - (ρ s).val K) ix
        = ∑ s ∈ S, pushed (ρ s).dims (den ρ (adj s)) (fun K => (ρ' s).val K - (ρ s).val K) ix :=
      Finset.sum_congr rfl fun s hs => by rw [h1 s (ne hs)]
    rw [same] at first
    rw [h1t] at second
    have hpush : pushed (ρ t).dims (den ρ₁ (adj t)) (fun K => (ρ' t).val K - (ρ t).val K) ix
        - pushed (ρ t).dims (den ρ (adj t)) (fun K => (ρ' t).val K - (ρ t).val K) ix ∈ I ^ 2 := by
      unfold pushed
      rw [← sumOver_sub']
      have hsum : ∀ {K : Dims} {f : Idx → F}, (∀ ix, InBounds K ix → f ix ∈ I ^ 2) →
          sumOver K f ∈ I ^ 2 := by
        intro K f h
        induction K generalizing f with
        | nil => exact h [] .nil
        | cons d K ih =>
          simp only [sumOver]
          exact (I ^ 2).sum_mem fun i hi =>
            ih fun ix hix => h (i :: ix) (.cons (Finset.mem_range.1 hi) hix)
      refine hsum fun K hK => ?_
      rw [← sub_mul, pow_two]
      refine Ideal.mul_mem_mul ?_ (hI t hmt K hK)
      refine den_mod (he.adjoint (ha t hmt)) (hc' t hmt) hdim1 (fun i jx hjx => ?_) _ ?_
      · by_cases hi : i = t
        · rw [hi, h1t, sub_self]; exact I.zero_mem
        · rw [h1 i hi]
          by_cases hiS : i ∈ S
          · exact hI i (Finset.mem_insert_of_mem hiS) jx hjx
          · rw [hout i (by simp [hi, hiS]), sub_self]; exact I.zero_mem
      · rw [third.1]
        exact inBounds_append.2 ⟨_, _, hix, hK, rfl⟩
    refine ⟨I.add_mem first.lin ?_, ?_⟩
    · have := I.sub_mem second.lin (Ideal.pow_le_self two_ne_zero hpush)
      convert this using 1
      ring
    · have := (I ^ 2).add_mem ((I ^ 2).add_mem first.err second.err) hpush
      convert this using 1
      ring

end

end Aegir
