import Verif.Spec.Tensor
import Verif.Lemmas.Caching
import Verif.Lemmas.EvalShape
import Mathlib.Algebra.BigOperators.Intervals
/-!
# Evaluation computes the tensor semantics
-/

namespace Aegir

open Spec

variable {F : Type} {Γ : Id → BTy}

theorem Spec.IsTensor.same {τ : BTy} {b : Buf F τ} {S T : Tensor F} (h : IsTensor b S)
    (hs : S.Same T) : IsTensor b T :=
  ⟨h.1.trans hs.1, fun ix hix => (hs.2 ix hix) ▸ h.2 ix (hs.1 ▸ hix)⟩

theorem Spec.IsTensor.unique {τ : BTy} {b : Buf F τ} {S T : Tensor F} (h : IsTensor b S)
    (h' : IsTensor b T) : S.Same T :=
  ⟨h.1.symm.trans h'.1, fun ix hix => Option.some.inj
    ((h.2 ix (by rw [← h.1, h'.1]; exact hix)).symm.trans (h'.2 ix hix))⟩

theorem Spec.Tensor.Same.symm {S T : Tensor F} (h : S.Same T) : T.Same S :=
  ⟨h.1.symm, fun ix hix => (h.2 ix (h.1 ▸ hix)).symm⟩

theorem Spec.Tensor.Same.refl (S : Tensor F) : S.Same S := ⟨rfl, fun _ _ => rfl⟩

section
variable [Zero F]

theorem isTensor_ofBuf {τ : BTy} (b : Buf F τ) : IsTensor b (.ofBuf b) :=
  ⟨rfl, fun ix hix => Buf.getU_read b ix hix⟩

theorem isDiagonal_iff (ix : Idx) : Shape.isDiagonal ix = true ↔ ∀ i ∈ ix, ∀ j ∈ ix, i = j := by
  cases ix with
  | nil => simp [Shape.isDiagonal]
  | cons i ix =>
    simp only [Shape.isDiagonal, List.all_eq_true, beq_iff_eq]
    constructor
    · intro h
      have h' : ∀ x ∈ i :: ix, i = x := by
        intro x hx
        rcases List.mem_cons.1 hx with rfl | hx
        · rfl
        · exact h x hx
      exact fun x hx y hy => (h' x hx).symm.trans (h' y hy)
    · exact fun h x hx => h i List.mem_cons_self x (List.mem_cons_of_mem _ hx)

theorem isTensor_ofSpec {τ : BTy} (s : BSpec F τ) : IsTensor s.unwrap (.ofSpec s) := by
  cases s with
  | raw b => exact isTensor_ofBuf b
  | full s x => exact ⟨Buf.dims_full τ s x, fun ix hix => Buf.getU_full τ s x ix hix⟩
  | diagonal s x =>
    refine ⟨Buf.dims_build τ s _, fun ix hix => ?_⟩
    show Buf.getU τ (Buf.build τ s _) ix = _
    rw [Buf.getU_build τ s _ ix hix]
    simp only [Tensor.ofSpec, isDiagonal_iff]

theorem isTensor_full {τ : BTy} (s : Shp τ) (x : F) :
    IsTensor (Buf.full τ s x) (.const (Shp.dims τ s) x) := isTensor_ofSpec (.full s x)

end

theorem bcast_dims {a b c : Dims} (h : BCast a b c) : c = if a = [] then b else a := by
  cases h with
  | same => split <;> rfl
  | left => simp
  | right => split <;> simp_all

theorem inBounds_bIdx_left {a b c : Dims} (h : BCast a b c) {ix : Idx} (hix : InBounds c ix) :
    InBounds a (bIdx a ix) := by
  unfold bIdx
  split
  · next h' => subst h'; exact .nil
  · cases h with
    | same => exact hix
    | left => contradiction
    | right => exact hix

theorem inBounds_bIdx_right {a b c : Dims} (h : BCast a b c) {ix : Idx} (hix : InBounds c ix) :
    InBounds b (bIdx b ix) := by
  unfold bIdx
  split
  · next h' => subst h'; exact .nil
  · cases h with
    | same => exact hix
    | left => exact hix
    | right => contradiction

theorem isTensor_zip {a b c : BTy} {x : Buf F a} {y : Buf F b} {r : Buf F c} {f : F → F → F}
    {S T : Tensor F} (hx : IsTensor x S) (hy : IsTensor y T) (h : IsZip x y f r) :
    IsTensor r (.zip f S T) := by
  obtain ⟨h1, h2⟩ := h
  rw [hx.1, hy.1] at h1 h2
  refine ⟨bcast_dims h1, fun ix hix => ?_⟩
  have hix : InBounds (Buf.dims c r) ix := by rw [bcast_dims h1]; exact hix
  obtain ⟨u, v, hu, hv, hr⟩ := h2 ix hix
  rw [hx.2 _ (inBounds_bIdx_left h1 hix)] at hu
  rw [hy.2 _ (inBounds_bIdx_right h1 hix)] at hv
  cases hu; cases hv
  exact hr

theorem isTensor_map {τ : BTy} {x : Buf F τ} {S : Tensor F} (hx : IsTensor x S) (f : F → F) :
    IsTensor (Buf.mutate τ x f) (.map f S) := by
  rw [Buf.mutate_eq_map]
  refine ⟨(Buf.dims_map τ x f).trans hx.1, fun ix hix => ?_⟩
  rw [Buf.getU_map, hx.2 ix hix]; rfl

section
variable [AddCommMonoid F]

theorem sumOver_congr {ds : Dims} {f g : Idx → F} (h : ∀ ix, InBounds ds ix → f ix = g ix) :
    sumOver ds f = sumOver ds g := by
  induction ds generalizing f g with
  | nil => exact h [] .nil
  | cons d ds ih =>
    refine Finset.sum_congr rfl fun t ht => ih fun ix hix => h _ ?_
    exact .cons (Finset.mem_range.1 ht) hix

theorem sumOver_indices (ds : Dims) (f : Idx → F) :
    ((Shape.indices ds).map f).sum = sumOver ds f := by
  induction ds generalizing f with
  | nil => simp [sumOver]
  | cons d ds ih =>
    rw [indices_cons]
    simp only [sumOver]
    have : ∀ t, sumOver ds (fun ix => f (t :: ix)) =
        ((Shape.indices ds).map (fun ix => f (t :: ix))).sum := fun t => (ih _).symm
    simp only [this]
    clear this ih
    induction d with
    | zero => simp
    | succ d ihd =>
      rw [Finset.sum_range_succ, ← ihd, List.range_succ]
      simp [List.flatMap_append, List.map_flatMap, List.map_map, Function.comp_def]

theorem foldl_add_eq_sum (l : List F) (x : F) : l.foldl (· + ·) x = x + l.sum := by
  induction l generalizing x with
  | nil => simp
  | cons y l ih => simp [ih, add_assoc]

theorem isTensor_sum {τ : BTy} {x : Buf F τ} {S : Tensor F} (hx : IsTensor x S) :
    Buf.sum τ x = sumOver S.dims S.val := by
  have h1 : Buf.sum τ x = (Buf.entries τ x).foldl (· + ·) 0 := Buf.fold_eq_foldl τ x 0 _
  rw [h1, foldl_add_eq_sum, zero_add, ← sumOver_indices]
  congr 1
  have h2 := Buf.entries_spec τ x
  rw [hx.1] at h2
  apply List.map_injective_iff.2 (Option.some_injective F)
  rw [← h2, List.map_map]
  refine List.map_congr_left fun ix hix => ?_
  exact hx.2 ix (mem_indices.1 hix)

end

theorem isTensor_scalar {x : Buf F .scalar} {S : Tensor F} (hd : S.dims = []) (h : x = S.val []) :
    IsTensor x S := by
  refine ⟨hd.symm, fun ix hix => ?_⟩
  rw [hd] at hix
  cases hix
  rw [h]; rfl

theorem IsTensor.scalar_val {x : Buf F .scalar} {S : Tensor F} (h : IsTensor x S) :
    S.dims = [] ∧ S.val [] = x := by
  have hd : S.dims = [] := h.1.symm
  refine ⟨hd, ?_⟩
  have := h.2 [] (by rw [hd]; exact .nil)
  exact (Option.some.inj this).symm

theorem inBounds_append {l r : Dims} {ix : Idx} :
    InBounds (l ++ r) ix ↔ ∃ i1 i2, InBounds l i1 ∧ InBounds r i2 ∧ ix = i1 ++ i2 := by
  constructor
  · intro h
    induction l generalizing ix with
    | nil => exact ⟨[], ix, .nil, h, rfl⟩
    | cons d l ih =>
      cases h with
      | cons h1 h2 =>
        obtain ⟨i1, i2, hi1, hi2, rfl⟩ := ih h2
        exact ⟨_ :: i1, i2, .cons h1 hi1, hi2, rfl⟩
  · rintro ⟨i1, i2, h1, h2, rfl⟩
    exact List.rel_append h1 h2

theorem isContraction_tensor [AddCommMonoid F] [Mul F] {k : Nat} {dr : Dims} {S T : Tensor F}
    {R : Idx → F} (h : IsContraction k S.dims T.dims dr S.val T.val R) :
    (Tensor.contract k S T).Same ⟨dr, R⟩ := by
  obtain ⟨l, ks, r, hk, hl, hr, hd, hv⟩ := h
  have hp : S.dims.length - k = l.length := by rw [hl, List.length_append]; omega
  have h1 : S.dims.take (S.dims.length - k) = l := by rw [hp, hl]; simp
  have h2 : T.dims.drop k = r := by rw [hr, ← hk]; simp
  have h3 : T.dims.take k = ks := by rw [hr, ← hk]; simp
  refine ⟨?_, fun ix hix => ?_⟩
  · simp only [Tensor.contract]
    rw [h1, h2, hd]
  · simp only [Tensor.contract]
    rw [h3, hp]
    have hix : InBounds (l ++ r) ix := hd ▸ hix
    obtain ⟨i1, i2, hi1, hi2, rfl⟩ := inBounds_append.1 hix
    have hl1 : i1.length = l.length := inBounds_length hi1
    rw [← hl1, List.take_left, List.drop_left]
    exact (hv i1 i2 hi1 hi2).symm

/-! ### Hoare-style reasoning about evaluation -/

/-- From a context described by `ρ`, `m` leads to one described by `ρ` and returns only values
satisfying `P`. -/
def Post [CommRing F] (ρ : Id → Tensor F) {α : Type} (m : EvalM F Γ α) (P : α → Prop) : Prop :=
  ∀ c, Describes ρ c → Describes ρ (m c).2 ∧ ∀ a, (m c).1 = .ok a → P a

namespace Post
variable [CommRing F] {ρ : Id → Tensor F} {α β γ : Type}

theorem map {m : EvalM F Γ α} {P : α → Prop} {Q : β → Prop} {f : α → β} (h : Post ρ m P)
    (hf : ∀ a, P a → Q (f a)) : Post ρ (m.map f) Q := by
  intro c hc
  refine ⟨(h c hc).1, fun b hb => ?_⟩
  obtain ⟨a, ha, rfl⟩ := (Res.map_ok_iff _ _ _).1 hb
  exact hf a ((h c hc).2 a ha)

theorem mono {m : EvalM F Γ α} {P Q : α → Prop} (h : Post ρ m P) (hpq : ∀ a, P a → Q a) :
    Post ρ m Q := fun c hc => ⟨(h c hc).1, fun a ha => hpq a ((h c hc).2 a ha)⟩

theorem mapErr {m : EvalM F Γ α} {P : α → Prop} (h : Post ρ m P) (f : EvalErr → EvalErr) :
    Post ρ (m.mapErr f) P :=
  fun c hc => ⟨(h c hc).1, fun a ha => (h c hc).2 a ((Res.mapErr_ok_iff _ _ _).1 ha)⟩

theorem lift {r : Res EvalErr α} {P : α → Prop} (h : ∀ a, r = .ok a → P a) :
    Post ρ (EvalM.lift r : EvalM F Γ α) P := fun _ hc => ⟨hc, h⟩

theorem read (i : Id) : Post ρ (EvalM.read i : EvalM F Γ _) (fun b => IsTensor b (ρ i)) := by
  intro c hc
  simp only [EvalM.read]
  cases h : c i with
  | some b =>
    refine ⟨hc, fun a ha => ?_⟩
    cases ha
    exact hc i b h
  | none => exact ⟨hc, fun a ha => by cases ha⟩

theorem bind {m : EvalM F Γ α} {f : α → EvalM F Γ β} {P : α → Prop} {Q : β → Prop}
    (h : Post ρ m P) (hf : ∀ a, P a → Post ρ (f a) Q) : Post ρ (m.bind f) Q := by
  intro c hc
  have h1 := h c hc
  simp only [EvalM.bind]
  match hm : m c with
  | (.ok a, c') =>
    rw [hm] at h1
    exact hf a (h1.2 a rfl) c' h1.1
  | (.err e, c') => rw [hm] at h1; exact ⟨h1.1, fun a ha => by cases ha⟩
  | (.panic, c') => rw [hm] at h1; exact ⟨h1.1, fun a ha => by cases ha⟩

theorem binM {l : EvalM F Γ α} {r : EvalM F Γ β} {k : α → β → Res IncShapes γ} {P : α → Prop}
    {Q : β → Prop} {R : γ → Prop} (hl : Post ρ l P) (hr : Post ρ r Q)
    (hk : ∀ x y z, P x → Q y → k x y = .ok z → R z) : Post ρ (binM l r k) R :=
  (hl.mapErr _).bind fun x hx => (hr.mapErr _).bind fun y hy =>
    .lift fun z hz => hk x y z hx hy ((Res.mapErr_ok_iff _ _ _).1 hz)

end Post

theorem mem_zip_self {α : Type} {l : List α} {p : α × α} : p ∈ l.zip l ↔ p.1 = p.2 ∧ p.1 ∈ l := by
  induction l with
  | nil => simp
  | cons x l ih =>
    simp only [List.zip_cons_cons, List.mem_cons, ih, Prod.ext_iff]
    constructor
    · rintro (⟨h1, h2⟩ | ⟨h1, h2⟩)
      · exact ⟨h1.trans h2.symm, .inl h1⟩
      · exact ⟨h1, .inr h2⟩
    · rintro ⟨h1, h2 | h2⟩
      · exact .inl ⟨h2, h1 ▸ h2⟩
      · exact .inr ⟨h1, h2⟩

theorem rank_eq (τ : BTy) (s : Shp τ) : τ.rank = (Shp.dims τ s).length := by cases τ <;> rfl

section
variable [CommRing F] [Div F] [ScalarFns F]

omit [CommRing F] [Div F] [ScalarFns F] in
theorem shape_dims {τ : BTy} {b : Buf F τ} {T : Tensor F} (h : IsTensor b T) :
    Shp.dims τ (Buf.shape τ b) = T.dims := h.1

omit [CommRing F] [Div F] [ScalarFns F] in
/-- The spec of a variable's adjoint is the identity or zero tensor. -/
theorem varAdjSpec_tensor [Zero F] [One F] (i t : Id) {c : BTy} (k : ConcatImpl (Γ i) (Γ t) c) {S T : Tensor F}
    {si : Shp (Γ i)} {st : Shp (Γ t)} (hi : Shp.dims _ si = S.dims) (ht : Shp.dims _ st = T.dims)
    (hst : i = t → S.dims = T.dims) (s : BSpec F c)
    (h : (varAdjSpec i t k si st : Res EvalErr (BSpec F c)) = .ok s) :
    IsTensor s.unwrap (.delta (decide (i = t)) S T) := by
  have hdims : Shp.dims c (k.shape si st) = S.dims ++ T.dims := by
    rw [concat_dims k si st, hi, ht]
  unfold varAdjSpec at h
  simp only at h
  split at h
  · next hit =>
    have hd := hst hit
    split at h
    · next hrank =>
      cases h
      have hr1 : S.dims.length = 1 := by
        have e1 : (Γ i).rank = S.dims.length := by
          rw [← hi, rank_eq]
        have e2 : (Γ t).rank = S.dims.length := by
          rw [hd, ← ht, rank_eq]
        omega
      refine (isTensor_ofSpec (BSpec.eye (k.shape si st))).same ⟨hdims, fun ix hix => ?_⟩
      obtain ⟨i1, i2, h1, h2, rfl⟩ := inBounds_append.1 hix
      have l1 := inBounds_length h1
      have l2 := inBounds_length h2
      rw [hr1] at l1
      rw [← hd, hr1] at l2
      obtain ⟨a, rfl⟩ := List.length_eq_one_iff.1 l1
      obtain ⟨b, rfl⟩ := List.length_eq_one_iff.1 l2
      simp only [Tensor.ofSpec, BSpec.eye, Tensor.delta, hr1, hit]
      simp only [List.singleton_append, List.mem_cons, List.not_mem_nil, or_false,
        List.take_succ_cons, List.take_zero, List.drop_succ_cons, List.drop_zero, List.cons.injEq,
        and_true, decide_true, true_and]
      by_cases hab : a = b
      · subst hab; simp
      · rw [if_neg, if_neg hab]
        intro h
        exact hab (h a (by simp) b (by simp))
    · obtain ⟨b, hb, hs, hget⟩ := Props.C08_build_subset c (k.shape si st) (0 : F)
        (((Shape.indices (Shp.dims _ si)).zip (Shape.indices (Shp.dims _ st))).map
          (fun p => Shape.concatIndices p.1 p.2)) (fun _ => 1) (by
          intro ix hix
          simp only [List.mem_map] at hix
          obtain ⟨⟨p, q⟩, hpq, rfl⟩ := hix
          have h := List.of_mem_zip hpq
          rw [concat_dims k si st]
          exact List.rel_append (mem_indices.1 h.1) (mem_indices.1 h.2))
      rw [hb] at h
      cases h
      refine ⟨?_, fun ix hix => ?_⟩
      · show Shp.dims c (Buf.shape c b) = _
        rw [hs, hdims]; rfl
      · show Buf.getU c b ix = _
        have hix' : InBounds (S.dims ++ T.dims) ix := hix
        rw [hget ix (by rw [hdims]; exact hix)]
        obtain ⟨i1, i2, h1, h2, rfl⟩ := inBounds_append.1 hix'
        have l1 := inBounds_length h1
        simp only [Tensor.delta, hit, decide_true, true_and, ← l1, List.take_left, List.drop_left]
        congr 2
        rw [hi, ht, ← hd, eq_iff_iff]
        simp only [List.mem_map, mem_zip_self, Shape.concatIndices]
        constructor
        · rintro ⟨⟨p, q⟩, ⟨hpq, hp⟩, h⟩
          cases (show p = q from hpq)
          have hl : p.length = i1.length := by
            rw [l1]; exact inBounds_length (mem_indices.1 hp)
          have := List.append_inj h hl
          exact this.1.symm.trans this.2
        · rintro rfl
          exact ⟨(i1, i1), ⟨rfl, mem_indices.2 h1⟩, rfl⟩
  · next hit =>
    cases h
    refine (isTensor_full (k.shape si st) (0 : F)).same ⟨hdims, fun ix hix => ?_⟩
    simp [Tensor.const, Tensor.delta, hit]

variable [LawfulScalar F] [LawfulPow F]

omit [Div F] [LawfulScalar F] in
theorem powSpec_tensor (b e : BSpec F .scalar)
    (h : (∃ x, b = .raw x) ∨ ((b.unwrap : F) = 0 → ScalarFns.pow 0 (e.unwrap : F) = (0 : F))) :
    (powSpec b e).unwrap = (ScalarFns.pow b.unwrap e.unwrap : F) := by
  rcases h with ⟨x, rfl⟩ | h
  · exact powSpec_raw x e
  · have base : ∀ (b e : BSpec F .scalar), ((b.unwrap : F) = 0 → ScalarFns.pow 0 (e.unwrap : F) = (0 : F)) →
        (∀ se fx, e = .full se fx → fx ≠ 0) →
        (powSpec b e).unwrap = (ScalarFns.pow b.unwrap e.unwrap : F) := by
      intro b e h he
      have hb : ∀ e : BSpec F .scalar, ((b.unwrap : F) = 0 → ScalarFns.pow 0 (e.unwrap : F) = (0 : F)) →
          (match b with
            | .full sx fx =>
                if ScalarFns.eqb fx 1 then (.full sx fx : BSpec F .scalar)
                else if ScalarFns.eqb fx 0 then .full sx fx
                else .raw (Buf.mutate .scalar b.unwrap (fun x => ScalarFns.pow x e.unwrap))
            | b => .raw (Buf.mutate .scalar b.unwrap (fun x => ScalarFns.pow x e.unwrap))).unwrap
            = (ScalarFns.pow b.unwrap e.unwrap : F) := by
        intro e h
        cases b with
        | full sx fx =>
          simp only
          split
          · next h1 =>
            rw [LawfulPow.eqb_iff] at h1; subst h1
            exact (LawfulPow.one_pow _).symm
          · split
            · next h1 =>
              rw [LawfulPow.eqb_iff] at h1; subst h1
              exact (h rfl).symm
            · rfl
        | _ => rfl
      cases e with
      | full se fx =>
        have : ScalarFns.eqb fx 0 = false := by
          by_contra hc
          exact he se fx rfl ((LawfulPow.eqb_iff _ _).1 (by simpa using hc))
        simp only [powSpec, this]
        exact hb _ h
      | raw x => exact hb _ h
      | diagonal se x => exact hb _ h
    by_cases he : ∃ se, e = .full se 0
    · obtain ⟨se, rfl⟩ := he
      have h0 : ScalarFns.eqb (0 : F) 0 = true := (LawfulPow.eqb_iff _ _).2 rfl
      simp only [powSpec, h0]
      exact (LawfulPow.pow_zero _).symm
    · refine base b e h fun se fx hfx h0 => he ⟨se, ?_⟩
      rw [hfx, h0]

omit [Div F] [LawfulPow F] in
theorem contract_tensor {axes : Nat} {a b c : BTy} (z : ContractImpl axes a b c)
    (hmv : ∀ n m, axes = 1 → a = .array [n, m] → b = .array [n] → n = m)
    (hvm : ∀ n m, axes = 1 → a = .array [n] → b = .array [n, m] → n = m)
    {x : BSpec F a} {y : BSpec F b} {S T : Tensor F} (hx : IsTensor x.unwrap S)
    (hy : IsTensor y.unwrap T) {s : BSpec F c} (h : BSpec.contract z x y = .ok s) :
    IsTensor s.unwrap (.contract (if S.dims = [] ∧ T.dims = [] then 0 else axes) S T) := by
  have hin : z.inRange := by
    cases z with
    | mv n m => have := hmv n m rfl rfl rfl; show m ≤ n; omega
    | vm n m => have := hvm n m rfl rfl rfl; show m ≤ n; omega
    | _ => trivial
  have hX : Reads x.unwrap S.val := fun ix hix => hx.2 ix (hx.1 ▸ hix)
  have hY : Reads y.unwrap T.val := fun ix hix => hy.2 ix (hy.1 ▸ hix)
  obtain ⟨res, R, h1, h2, h3⟩ := contract_isContraction z hmv hvm x.unwrap y.unwrap _ _ hX hY
  obtain ⟨s', hs', hu⟩ := contractSpec_eq z x y hin
  rw [h] at hs'
  cases hs'
  rw [contract_eq z _ _ hin] at h1
  have hres : s.unwrap = res := hu.trans (Res.ok.inj h1)
  have hty : (a = .scalar ∧ b = .scalar) ↔ (S.dims = [] ∧ T.dims = []) := by
    rw [← hx.1, ← hy.1]
    cases z <;> simp [Buf.dims, Shp.dims]
  rw [hx.1, hy.1, if_congr hty rfl rfl] at h3
  have h4 := isContraction_tensor h3
  rw [hres]
  exact IsTensor.same (S := ⟨_, R⟩) ⟨rfl, h2⟩ h4.symm

omit [CommRing F] [Div F] [ScalarFns F] [LawfulScalar F] [LawfulPow F] in
theorem contractShape_tensor [CommRing F] {axes : Nat} {a b c : BTy} (z : ContractImpl axes a b c)
    (hmv : ∀ n m, axes = 1 → a = .array [n, m] → b = .array [n] → n = m)
    {x : Shp a} {y : Shp b} {S T : Tensor F} (hx : Shp.dims a x = S.dims)
    (hy : Shp.dims b y = T.dims) {s : Shp c} (h : contractShape z x y = .ok s) :
    Shp.dims c s
      = (Tensor.contract (if S.dims = [] ∧ T.dims = [] then 0 else axes) S T).dims := by
  simp only [Tensor.contract]
  rw [← hx, ← hy]
  cases z with
  | mv n m =>
    have := hmv n m rfl rfl rfl
    subst this
    cases h; rfl
  | _ => cases h; rfl

omit [Div F] [ScalarFns F] [LawfulScalar F] [LawfulPow F] in
theorem describes_envOf (c : Ctx F Γ) : Describes (envOf c) c := by
  intro i b hb
  have : envOf c i = .ofBuf b := by simp only [envOf, hb]
  rw [this]
  exact isTensor_ofBuf b

/-- Evaluation computes the tensor semantics, `evaluate_shape` its extents. -/
theorem FnImpl.den_spec {ρ : Id → Tensor F} {e : Node F} {τ : BTy} (d : FnImpl Γ e τ)
    (hn : NamesCaches ρ e) (hp : PowSafe ρ e) (hr : FnImpl.Regular d) :
    Post ρ d.fn.evaluateSpec (fun s => IsTensor s.unwrap (den ρ e)) ∧
      Post ρ d.fn.evaluateShape (fun s => Shp.dims τ s = (den ρ e).dims) := by
  have ofEval : ∀ {e : Node F} {τ : BTy} {d : FnImpl Γ e τ},
      Post ρ d.fn.evaluateSpec (fun s => IsTensor s.unwrap (den ρ e)) →
      Post ρ d.fn.evaluate (fun b => IsTensor b (den ρ e)) := by
    intro e τ d h
    rw [FnImpl.evaluate_eq]
    exact h.map fun _ h => h
  have shapes : ∀ {a b c : BTy} {dl dr : Dims} {l : EvalM F Γ (Shp a)} {r : EvalM F Γ (Shp b)}
      (z : ZipImpl a b c), Post ρ l (fun s => Shp.dims a s = dl) →
      Post ρ r (fun s => Shp.dims b s = dr) →
      Post ρ (binM l r fun s t => Res.ofExcept (z.broadcast s t))
        (fun s => Shp.dims c s = if dl = [] then dr else dl) := by
    intro a b c dl dr l r z hl hr
    refine hl.binM hr fun x y s hx hy h => ?_
    have := bcast_dims (broadcast_ok z x y s ((Res.ofExcept_ok_iff _ _).1 h))
    rwa [hx, hy] at this
  have hnc : ∀ e' ∈ children e, NamesCaches ρ e' := fun e' he' n i hs => hn n i (.step he' hs)
  have hpc : ∀ e' ∈ children e, PowSafe ρ e' := fun e' he' l r hs => hp l r (.step he' hs)
  induction d with
  | var i =>
    exact ⟨(Post.read i).map fun _ h => h, (Post.read i).map fun _ h => h.1⟩
  | varAdj i t k hrk =>
    constructor
    · refine (((Post.read i).map (Q := fun s => Shp.dims _ s = (ρ i).dims)
        fun _ h => h.1).mapErr _).bind fun si hi => (((Post.read t).map
          (Q := fun s => Shp.dims _ s = (ρ t).dims) fun _ h => h.1).mapErr _).bind fun st ht =>
          .lift fun s hs => ?_
      exact varAdjSpec_tensor i t k hi ht (fun h => by rw [h]) s hs
    · refine (((Post.read i).map (Q := fun s => Shp.dims _ s = (ρ i).dims)
        fun _ h => h.1).mapErr _).bind fun si hi => (((Post.read t).map
          (Q := fun s => Shp.dims _ s = (ρ t).dims) fun _ h => h.1).mapErr _).bind fun st ht =>
          .lift fun s hs => ?_
      cases hs
      rw [concat_dims k si st, hi, ht]; rfl
  | const τ b =>
    refine ⟨.lift fun s hs => ?_, .lift fun s hs => ?_⟩
    · cases hs; exact isTensor_ofBuf b
    · cases hs; rfl
  | constSpec τ s =>
    refine ⟨.lift fun s' hs => ?_, .lift fun s' hs => ?_⟩
    · cases hs; exact isTensor_ofSpec s
    · cases hs; cases s <;> rfl
  | constAdj d t k ih =>
    have ih := ih (hnc _ (by simp [children])) (hpc _ (by simp [children])) hr
      (fun e' he' n i hs => hn n i (.step (by simp [children]) (.step he' hs)))
      (fun e' he' l r hs => hp l r (.step (by simp [children]) (.step he' hs)))
    have key := (ih.2.mapErr EvalErr.left).bind (f := fun sn =>
        (((EvalM.read t).map (Buf.shape _)).mapErr EvalErr.right).bind fun st =>
          EvalM.lift (.ok (k.shape sn st)))
      (Q := fun s => Shp.dims _ s = (den ρ (.constAdj _ t)).dims)
      fun sn hsn => (((Post.read t).map
          (Q := fun s => Shp.dims _ s = (ρ t).dims) fun _ h => h.1).mapErr _).bind fun st ht =>
          .lift fun s hs => by
            cases hs
            rw [concat_dims k sn st, hsn, ht]; rfl
    refine ⟨key.map fun s hs => ?_, key⟩
    have := isTensor_full s (0 : F)
    rw [hs] at this
    exact this
  | cached i d ih =>
    rename_i n
    have ih := ih (hnc _ (by simp [children])) (hpc _ (by simp [children])) hr
      (fun e' he' n i hs => hn n i (.step (by simp [children]) (.step he' hs)))
      (fun e' he' l r hs => hp l r (.step (by simp [children]) (.step he' hs)))
    have hi := hn _ i (.refl _)
    have he := ofEval ih.1
    have key : Post ρ (FnImpl.cached i d).fn.evaluate (fun b => IsTensor b (den ρ n)) := by
      intro c hc
      simp only [FnImpl.fn]
      cases hci : c i with
      | some v =>
        refine ⟨hc, fun a ha => ?_⟩
        cases ha
        exact (hc i v hci).same hi
      | none =>
        simp only []
        have h1 := he c hc
        rcases hd : d.fn.evaluate c with ⟨x | e | _, c1⟩
        · rw [hd] at h1
          have hx := h1.2 x rfl
          refine ⟨?_, fun a ha => by cases ha; exact hx⟩
          intro j b hb
          by_cases hj : j = i
          · subst hj
            have : x = b := by simpa [Ctx.write] using hb
            exact this ▸ hx.same hi.symm
          · exact h1.1 j b (by simpa [Ctx.write, hj] using hb)
        · rw [hd] at h1; exact ⟨h1.1, fun a ha => by cases ha⟩
        · rw [hd] at h1; exact ⟨h1.1, fun a ha => by cases ha⟩
    exact ⟨key.map fun _ h => h, key.map fun _ h => h.1⟩
  | sum d ih =>
    have ih := ih (hnc _ (by simp [children])) (hpc _ (by simp [children])) hr
      (fun e' he' n i hs => hn n i (.step (by simp [children]) (.step he' hs)))
      (fun e' he' l r hs => hp l r (.step (by simp [children]) (.step he' hs)))
    refine ⟨ih.1.bind fun s hs => .lift fun s' hs' => ?_, .lift fun _ _ => rfl⟩
    have h1 := sumSpec_unwrap s
    rw [hs'] at h1
    refine isTensor_scalar rfl ?_
    rw [Res.ok.inj h1]
    exact isTensor_sum hs
  | un op d ih =>
    have ih := ih (hnc _ (by simp [children])) (hpc _ (by simp [children])) hr
      (fun e' he' n i hs => hn n i (.step (by simp [children]) (.step he' hs)))
      (fun e' he' l r hs => hp l r (.step (by simp [children]) (.step he' hs)))
    refine ⟨ih.1.map fun s hs => ?_, ih.2⟩
    rw [unSpec_unwrap]
    exact isTensor_map hs _
  | add dl dr z ihl ihr =>
    have ihl := ihl (hnc _ (by simp [children])) (hpc _ (by simp [children])) hr.1
      (fun e' he' n i hs => hn n i (.step (by simp [children]) (.step he' hs)))
      (fun e' he' l r hs => hp l r (.step (by simp [children]) (.step he' hs)))
    have ihr := ihr (hnc _ (by simp [children])) (hpc _ (by simp [children])) hr.2
      (fun e' he' n i hs => hn n i (.step (by simp [children]) (.step he' hs)))
      (fun e' he' l r hs => hp l r (.step (by simp [children]) (.step he' hs)))
    refine ⟨ihl.1.binM ihr.1 fun x y s hx hy h => ?_, shapes z ihl.2 ihr.2⟩
    have h1 := Buf.zipMap_isZip z _ _ _ _ ((addSpec_sameOk z x y s.unwrap).1 ⟨s, h, rfl⟩)
    rw [ZipImpl.eff_comm z _ (fun u v => add_comm u v)] at h1
    exact isTensor_zip hx hy h1
  | mul dl dr z ihl ihr =>
    have ihl := ihl (hnc _ (by simp [children])) (hpc _ (by simp [children])) hr.1
      (fun e' he' n i hs => hn n i (.step (by simp [children]) (.step he' hs)))
      (fun e' he' l r hs => hp l r (.step (by simp [children]) (.step he' hs)))
    have ihr := ihr (hnc _ (by simp [children])) (hpc _ (by simp [children])) hr.2
      (fun e' he' n i hs => hn n i (.step (by simp [children]) (.step he' hs)))
      (fun e' he' l r hs => hp l r (.step (by simp [children]) (.step he' hs)))
    refine ⟨ihl.1.binM ihr.1 fun x y s hx hy h => ?_, shapes z ihl.2 ihr.2⟩
    have h1 := Buf.zipMap_isZip z _ _ _ _ ((mulSpec_sameOk z x y s.unwrap).1 ⟨s, h, rfl⟩)
    rw [ZipImpl.eff_comm z _ (fun u v => mul_comm u v)] at h1
    exact isTensor_zip hx hy h1
  | sub dl dr z ihl ihr =>
    have ihl := ihl (hnc _ (by simp [children])) (hpc _ (by simp [children])) hr.1
      (fun e' he' n i hs => hn n i (.step (by simp [children]) (.step he' hs)))
      (fun e' he' l r hs => hp l r (.step (by simp [children]) (.step he' hs)))
    have ihr := ihr (hnc _ (by simp [children])) (hpc _ (by simp [children])) hr.2.1
      (fun e' he' n i hs => hn n i (.step (by simp [children]) (.step he' hs)))
      (fun e' he' l r hs => hp l r (.step (by simp [children]) (.step he' hs)))
    have hz := not_swaps z hr.2.2
    refine ⟨ihl.1.binM ihr.1 fun x y s hx hy h => ?_, shapes z ihl.2 ihr.2⟩
    have h1 := Buf.zipMap_isZip z _ _ _ _ ((subSpec_sameOk z hz x y s.unwrap).1 ⟨s, h, rfl⟩)
    rw [ZipImpl.eff_of_not_swaps z hz] at h1
    exact isTensor_zip hx hy h1
  | div dl dr z ihl ihr =>
    have ihl := ihl (hnc _ (by simp [children])) (hpc _ (by simp [children])) hr.1
      (fun e' he' n i hs => hn n i (.step (by simp [children]) (.step he' hs)))
      (fun e' he' l r hs => hp l r (.step (by simp [children]) (.step he' hs)))
    have ihr := ihr (hnc _ (by simp [children])) (hpc _ (by simp [children])) hr.2.1
      (fun e' he' n i hs => hn n i (.step (by simp [children]) (.step he' hs)))
      (fun e' he' l r hs => hp l r (.step (by simp [children]) (.step he' hs)))
    have hz := not_swaps z hr.2.2
    refine ⟨((ofEval ihl.1).binM (ofEval ihr.1) (R := fun b => IsTensor b _)
      fun x y s hx hy h => ?_).map fun _ h => h, shapes z ihl.2 ihr.2⟩
    rw [Buf.zipMapId_eq] at h
    have h1 := Buf.zipMap_isZip z _ _ _ _ ((Res.ofExcept_ok_iff _ _).1 h)
    rw [ZipImpl.eff_of_not_swaps z hz] at h1
    exact isTensor_zip hx hy h1
  | power dl dr ihl ihr =>
    rename_i l r
    have ihl := ihl (hnc _ (by simp [children])) (hpc _ (by simp [children])) hr.1
      (fun e' he' n i hs => hn n i (.step (by simp [children]) (.step he' hs)))
      (fun e' he' l r hs => hp l r (.step (by simp [children]) (.step he' hs)))
    have ihr := ihr (hnc _ (by simp [children])) (hpc _ (by simp [children])) hr.2
      (fun e' he' n i hs => hn n i (.step (by simp [children]) (.step he' hs)))
      (fun e' he' l r hs => hp l r (.step (by simp [children]) (.step he' hs)))
    have hps := hp l r (.refl _)
    have ihl' : Post ρ dl.fn.evaluateSpec (fun s => IsTensor s.unwrap (den ρ l) ∧
        (EvalExplicit l → ∃ b, s = .raw b)) := fun c hc =>
      ⟨(ihl.1 c hc).1, fun a ha => ⟨(ihl.1 c hc).2 a ha, fun he => raw_of_explicit dl he c a ha⟩⟩
    refine ⟨ihl'.binM ihr.1 fun x y s hx hy h => ?_, .lift fun s _ => rfl⟩
    have h := Res.ok.inj h
    obtain ⟨hld, hlv⟩ := IsTensor.scalar_val hx.1
    obtain ⟨hrd, hrv⟩ := IsTensor.scalar_val hy
    refine isTensor_scalar rfl ?_
    rw [← h, powSpec_tensor x y ?_]
    · simp only [den, hlv, hrv]
    · rcases hps with he | he
      · exact .inl (hx.2 he)
      · right
        rwa [hlv, hrv] at he
  | contract dl dr z ihl ihr =>
    have ihl := ihl (hnc _ (by simp [children])) (hpc _ (by simp [children])) hr.1
      (fun e' he' n i hs => hn n i (.step (by simp [children]) (.step he' hs)))
      (fun e' he' l r hs => hp l r (.step (by simp [children]) (.step he' hs)))
    have ihr := ihr (hnc _ (by simp [children])) (hpc _ (by simp [children])) hr.2.1
      (fun e' he' n i hs => hn n i (.step (by simp [children]) (.step he' hs)))
      (fun e' he' l r hs => hp l r (.step (by simp [children]) (.step he' hs)))
    obtain ⟨_, _, hmv, hvm⟩ := hr
    exact ⟨ihl.1.binM ihr.1 fun x y s hx hy h => contract_tensor z hmv hvm hx hy h,
      ihl.2.binM ihr.2 fun x y s hx hy h =>
        contractShape_tensor z hmv hx hy ((Res.ofExcept_ok_iff _ _).1 h)⟩

end

end Aegir
