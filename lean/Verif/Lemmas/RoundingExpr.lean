import Verif.Lemmas.RoundingContract
import Verif.Spec.Range
import Verif.Lemmas.CalculusEval
/-!
# Rounding errors of whole expressions
-/

namespace Aegir

open Spec

/-- The buffer `b` holds entries that stand for `A`, with magnitudes `M`. -/
def HoldsT {F : Type} (J : ℕ → F → ℝ → ℝ → Prop) (k : ℕ) {τ : BTy} (b : Buf F τ) (A M : Tensor ℝ) :
    Prop :=
  M.dims = A.dims ∧ HoldsBuf J k b A.dims A.val M.val

section
variable {F : Type} [Zero F] [One F] [Add F] [Sub F] [Mul F] [Neg F] [ScalarFns F]
variable {J : ℕ → F → ℝ → ℝ → Prop} {R : ℕ → ℝ → Prop} {lax : Prop} {val wt : F → ℝ} {k l : ℕ}

theorem HoldsT.mono (hv : Calc J R lax) {τ : BTy} {b : Buf F τ} {A M : Tensor ℝ} (h : HoldsT J k b A M)
    (hk : k ≤ l) : HoldsT J l b A M :=
  ⟨h.1, h.2.mono hv hk⟩

omit [Zero F] [One F] [Add F] [Sub F] [Mul F] [Neg F] [ScalarFns F] in
theorem holdsT_ofBuf {τ : BTy} (b : Buf F τ)
    (hb : ∀ ix x, Buf.getU τ b ix = some x → J 0 x (val x) |wt x|) :
    HoldsT J 0 b (.ofBuf (Buf.map τ b val)) (.ofBuf (Buf.map τ b fun x => |wt x|)) := by
  refine ⟨(Buf.dims_map τ b _).trans (Buf.dims_map τ b _).symm, (Buf.dims_map τ b _).symm,
    fun ix hix => ?_⟩
  have hix : InBounds (Buf.dims τ b) ix := by rw [← Buf.dims_map τ b val]; exact hix
  cases hg : Buf.getU τ b ix with
  | none => exact absurd hg (by
      have := (Buf.getU_isSome_iff τ b ix).2 hix
      intro h; rw [h] at this; cases this)
  | some x =>
    refine ⟨x, rfl, ?_⟩
    simp only [Tensor.ofBuf, Buf.getU_map, hg, Option.map_some, Option.getD_some]
    exact hb ix x hg

theorem holdsT_ofSpec (hv : Calc J R lax) {Q : F → Prop} (hQ : ∀ x, Q x → J 0 x (val x) |wt x|)
    {D : Id → Dims} {σ : Id → Tensor ℝ} {τ : BTy} (s : BSpec F τ)
    (hs : Ranges Q R lax D σ wt (.constSpec τ s)) :
    HoldsT J 0 s.unwrap (.ofSpec (convSpec val s)) (.ofSpec (convSpec (fun x => |wt x|) s)) := by
  have ht := isTensor_ofSpec s
  cases s with
  | raw b => exact holdsT_ofBuf b fun ix x hx => hQ x (hs ix x hx)
  | full s x =>
    refine ⟨rfl, ht.1, fun ix hix => ⟨_, ht.2 ix hix, ?_⟩⟩
    exact hQ x hs
  | diagonal s x =>
    refine ⟨rfl, ht.1, fun ix hix => ⟨_, ht.2 ix hix, ?_⟩⟩
    simp only [Tensor.ofSpec, convSpec]
    split
    · exact hQ x hs
    · exact hv.zero

omit [Zero F] [One F] [Add F] [Sub F] [Mul F] [Neg F] [ScalarFns F] in
theorem holdsT_zip {a b c : BTy} {x : Buf F a} {y : Buf F b} {r : Buf F c} {P : F → F → F → Prop}
    {A MA B MB : Tensor ℝ} {f g : ℝ → ℝ → ℝ} {j : ℕ} (hx : HoldsT J k x A MA)
    (hy : HoldsT J l y B MB) (h : ZipRel x y P r) (hR : (Tensor.zip g MA MB).Every (R j))
    (hP : ∀ p q w p' q' m n, J k p p' m → J l q q' n → R j (g m n) → P p q w →
      J j w (f p' q') (g m n)) :
    HoldsT J j r (.zip f A B) (.zip g MA MB) := by
  obtain ⟨h1, h2⟩ := h
  rw [hx.2.1, hy.2.1] at h1 h2
  have hd : (Tensor.zip g MA MB).dims = (Tensor.zip f A B).dims := by
    simp only [Tensor.zip]; rw [hx.1, hy.1]
  refine ⟨hd, bcast_dims h1, fun ix hix => ?_⟩
  have hR := hR ix (hd ▸ hix)
  have hix : InBounds (Buf.dims c r) ix := by rw [bcast_dims h1]; exact hix
  obtain ⟨p, q, w, hp, hq, hw, hpq⟩ := h2 ix hix
  obtain ⟨p', hp', np⟩ := hx.2.2 _ (inBounds_bIdx_left h1 hix)
  obtain ⟨q', hq', nq⟩ := hy.2.2 _ (inBounds_bIdx_right h1 hix)
  rw [hp] at hp'; rw [hq] at hq'
  cases hp'; cases hq'
  refine ⟨w, hw, ?_⟩
  simp only [Tensor.zip] at hR ⊢
  rw [hx.1, hy.1] at hR ⊢
  exact hP p q w _ _ _ _ np nq hR hpq

omit [Zero F] [One F] [Add F] [Sub F] [Mul F] [Neg F] [ScalarFns F] in
theorem holdsT_map {τ : BTy} {x : Buf F τ} {A M A' M' : Tensor ℝ} {f : F → F}
    (hx : HoldsT J k x A M) (hA : A'.dims = A.dims) (hM : M'.dims = M.dims)
    (h : ∀ ix w, InBounds A.dims ix → J k w (A.val ix) (M.val ix) →
      J l (f w) (A'.val ix) (M'.val ix)) :
    HoldsT J l (Buf.mutate τ x f) A' M' := by
  rw [Buf.mutate_eq_map]
  refine ⟨hM.trans (hx.1.trans hA.symm), (Buf.dims_map τ x f).trans (hx.2.1.trans hA.symm),
    fun ix hix => ?_⟩
  rw [hA] at hix
  obtain ⟨w, hw, hn⟩ := hx.2.2 ix hix
  exact ⟨f w, by rw [Buf.getU_map, hw]; rfl, h ix w hix hn⟩

theorem holdsT_delta (hv : Calc J R lax) {τ : BTy} {x : Buf F τ} {same : Bool}
    {S T : Tensor F} {A B MA MB : Tensor ℝ} (hA : A.dims = S.dims) (hB : B.dims = T.dims)
    (hMA : MA.dims = A.dims) (hMB : MB.dims = B.dims) (h : IsTensor x (.delta same S T)) :
    HoldsT J 0 x (.delta same A B) (.delta same MA MB) := by
  refine ⟨by simp only [Tensor.delta, hMA, hMB], h.1.trans (by simp only [Tensor.delta, hA, hB]),
    fun ix hix => ⟨_, h.2 ix (by simpa only [Tensor.delta, hA, hB] using hix), ?_⟩⟩
  simp only [Tensor.delta, hMA, hA]
  split
  · exact hv.one
  · exact hv.zero

/-- Adding up a list. -/
theorem foldl_holds (hv : Calc J R lax) (g : Idx → Option F) (A M : Idx → ℝ) (is : List Idx)
    (xs : List F) (hg : is.map g = xs.map some)
    (hn : ∀ ix ∈ is, ∃ x, g ix = some x ∧ J k x (A ix) (M ix)) (acc : F) (j : ℕ)
    (a m : ℝ) (ha : J (k + j) acc a m) (hR : R (k + j + is.length) (m + (is.map M).sum)) :
    J (k + j + is.length) (xs.foldl (· + ·) acc) (a + (is.map A).sum)
      (m + (is.map M).sum) := by
  induction is generalizing xs acc j a m with
  | nil =>
    cases xs with
    | nil => simpa using ha
    | cons _ _ => cases hg
  | cons i is ih =>
    cases xs with
    | nil => cases hg
    | cons x xs =>
      simp only [List.map_cons, List.cons.injEq] at hg
      obtain ⟨x', hx', hn'⟩ := hn i List.mem_cons_self
      rw [hg.1] at hx'
      cases hx'
      simp only [List.foldl_cons, List.map_cons, List.sum_cons, List.length_cons] at hR ⊢
      rw [← add_assoc a, ← add_assoc m,
        show k + j + (is.length + 1) = k + (j + 1) + is.length by omega]
      rw [← add_assoc m, show k + j + (is.length + 1) = k + (j + 1) + is.length by omega] at hR
      have hs : 0 ≤ (is.map M).sum := List.sum_nonneg fun y hy => by
        obtain ⟨ix, hix, rfl⟩ := List.mem_map.1 hy
        obtain ⟨x, -, h⟩ := hn ix (List.mem_cons_of_mem _ hix)
        exact hv.pos h
      have h1 := hv.mono (hv.add ha hn' (hv.anti hR (by omega) (by linarith)))
        (show _ ≤ k + (j + 1) by omega)
      exact ih xs hg.2 (fun ix hix => hn ix (List.mem_cons_of_mem _ hix)) (acc + x) (j + 1) _ _ h1 hR

theorem holdsT_sum (hv : Calc J R lax) {τ : BTy} {x : Buf F τ} {A M : Tensor ℝ}
    (hx : HoldsT J k x A M) (hR : R (k + A.dims.prod) (sumOver M.dims M.val)) :
    J (k + A.dims.prod) (Buf.sum τ x) (sumOver A.dims A.val) (sumOver M.dims M.val) := by
  have h1 : Buf.sum τ x = (Buf.entries τ x).foldl (· + ·) 0 := Buf.fold_eq_foldl τ x 0 _
  have h2 := Buf.entries_spec τ x
  rw [hx.2.1] at h2
  have := foldl_holds hv (Buf.getU τ x) A.val M.val (Shape.indices A.dims) (Buf.entries τ x) h2
    (fun ix hix => hx.2.2 ix (mem_indices.1 hix)) 0 0 0 0 (hv.mono hv.zero (Nat.zero_le _)) (by
      rwa [zero_add, sumOver_indices, length_indices, cardinality_eq_prod, ← hx.1, add_zero, hx.1,
        ← hx.1, hx.1] at *)
  rw [zero_add, zero_add, sumOver_indices, sumOver_indices, length_indices, cardinality_eq_prod] at this
  rw [h1, hx.1]
  exact this

theorem sum_map_range {α : Type} [Inhabited α] (l : List α) (f : α → ℝ) :
    (l.map f).sum = ∑ i ∈ Finset.range l.length, f (l.getD i default) := by
  induction l with
  | nil => simp
  | cons a l ih =>
    rw [List.map_cons, List.sum_cons, List.length_cons, Finset.sum_range_succ', ih]
    simp [add_comm]

theorem holdsT_sumSpec (hv : Calc J R lax) {τ : BTy} {x : BSpec F τ} {A M : Tensor ℝ}
    (hx : HoldsT J k x.unwrap A M) {s : BSpec F .scalar} (h : sumSpec x = .ok s)
    (hR : R (k + A.dims.prod + 2) (sumOver M.dims M.val)) (hlax : A.dims.prod ≠ 0 ∨ lax) :
    J (k + A.dims.prod + 2) s.unwrap (sumOver A.dims A.val) (sumOver M.dims M.val) := by
  cases x with
  | raw b =>
    cases h
    exact hv.mono (holdsT_sum hv hx (hv.anti hR (by omega) le_rfl)) (by omega)
  | diagonal t w =>
    cases h
    exact hv.mono (holdsT_sum hv hx (hv.anti hR (by omega) le_rfl)) (by omega)
  | full t w =>
    obtain ⟨K, hK, rfl⟩ := (Res.map_ok_iff _ _ _).1 h
    have hK : (ScalarFns.fromUsize (Shape.cardinality (Shp.dims τ t)) : Option F) = some K := by
      cases hh : (ScalarFns.fromUsize (Shape.cardinality (Shp.dims τ t)) : Option F) with
      | none => rw [hh] at hK; cases hK
      | some K' => rw [hh] at hK; cases hK; rfl
    have hd : A.dims = Shp.dims τ t := hx.2.1.symm.trans (Buf.dims_full τ t w)
    have hl : (Shape.indices A.dims).length = Shape.cardinality (Shp.dims τ t) := by
      rw [length_indices, hd]
    have key := hv.scale (k := k) (x := w)
      (A := fun i => A.val ((Shape.indices A.dims).getD i default))
      (M := fun i => M.val ((Shape.indices A.dims).getD i default)) hK (fun i hi => by
        refine HoldsBuf.full hx.2 (mem_indices.1 ?_)
        have hi : i < (Shape.indices A.dims).length := by rw [hl]; exact hi
        simp [List.getD, hi]) (by rwa [← hd, cardinality_eq_prod]) (by
        rw [← hl, ← sum_map_range, sumOver_indices, ← hx.1]
        exact hv.anti hR (by omega) le_rfl)
    rw [← hl, ← sum_map_range, ← sum_map_range, sumOver_indices, sumOver_indices] at key
    rw [hx.1]
    exact hv.mono key (by omega)

variable {axes : ℕ} {a b c : BTy}

omit [Zero F] [One F] [Add F] [Sub F] [Mul F] [Neg F] [ScalarFns F] in
/-- What the contraction implementations compute is the contraction of the tensors. -/
theorem contract_fn (z : ContractImpl axes a b c)
    (hmv : ∀ n m, axes = 1 → a = .array [n, m] → b = .array [n] → n = m)
    (hvm : ∀ n m, axes = 1 → a = .array [n] → b = .array [n, m] → n = m)
    {G : Type} [CommRing G] {x : Buf F a} {y : Buf F b} {S T : Tensor G} (hx : Buf.dims a x = S.dims)
    (hy : Buf.dims b y = T.dims) :
    (Tensor.contract (if S.dims = [] ∧ T.dims = [] then 0 else axes) S T).Same
      ⟨Shp.dims c z.outShape, z.fn S.val T.val⟩ := by
  have one : ∀ {n : ℕ} {ix : Idx}, InBounds [n] ix → ∃ i, ix = [i] := fun h => by
    obtain ⟨i, _, rfl⟩ := Buf.inBounds_one.1 h; exact ⟨i, rfl⟩
  have two : ∀ {n m : ℕ} {ix : Idx}, InBounds [n, m] ix → ∃ i j, ix = [i, j] := fun h => by
    obtain ⟨i, j, _, _, rfl⟩ := inBounds_pair.1 h; exact ⟨i, j, rfl⟩
  cases z with
  | ss0 =>
    have hS : S.dims = [] := hx.symm
    have hT : T.dims = [] := hy.symm
    refine ⟨by simp [Tensor.contract, hS, hT, Shp.dims], fun ix hix => ?_⟩
    cases hix
    simp [Tensor.contract, hS, hT, sumOver, ContractImpl.fn]
  | ss1 =>
    have hS : S.dims = [] := hx.symm
    have hT : T.dims = [] := hy.symm
    refine ⟨by simp [Tensor.contract, hS, hT, Shp.dims], fun ix hix => ?_⟩
    cases hix
    simp [Tensor.contract, hS, hT, sumOver, ContractImpl.fn]
  | vs0 n =>
    have hS : S.dims = [n] := hx.symm
    have hT : T.dims = [] := hy.symm
    refine ⟨by simp [Tensor.contract, hS, hT, Shp.dims], fun ix hix => ?_⟩
    obtain ⟨i, rfl⟩ := one hix
    simp [Tensor.contract, hS, hT, sumOver, ContractImpl.fn]
  | sv0 n =>
    have hS : S.dims = [] := hx.symm
    have hT : T.dims = [n] := hy.symm
    refine ⟨by simp [Tensor.contract, hS, hT, Shp.dims], fun ix hix => ?_⟩
    obtain ⟨i, rfl⟩ := one hix
    simp [Tensor.contract, hS, hT, sumOver, ContractImpl.fn, mul_comm]
  | ms0 n m =>
    have hS : S.dims = [n, m] := hx.symm
    have hT : T.dims = [] := hy.symm
    refine ⟨by simp [Tensor.contract, hS, hT, Shp.dims], fun ix hix => ?_⟩
    obtain ⟨i, j, rfl⟩ := two hix
    simp [Tensor.contract, hS, hT, sumOver, ContractImpl.fn]
  | sm0 n m =>
    have hS : S.dims = [] := hx.symm
    have hT : T.dims = [n, m] := hy.symm
    refine ⟨by simp [Tensor.contract, hS, hT, Shp.dims], fun ix hix => ?_⟩
    obtain ⟨i, j, rfl⟩ := two hix
    simp [Tensor.contract, hS, hT, sumOver, ContractImpl.fn, mul_comm]
  | vv0 n m =>
    have hS : S.dims = [n] := hx.symm
    have hT : T.dims = [m] := hy.symm
    refine ⟨by simp [Tensor.contract, hS, hT, Shp.dims], fun ix hix => ?_⟩
    obtain ⟨i, j, rfl⟩ := two hix
    simp [Tensor.contract, hS, hT, sumOver, ContractImpl.fn]
  | dot n =>
    have hS : S.dims = [n] := hx.symm
    have hT : T.dims = [n] := hy.symm
    refine ⟨by simp [Tensor.contract, hS, hT, Shp.dims], fun ix hix => ?_⟩
    cases hix
    simp [Tensor.contract, hS, hT, sumOver, ContractImpl.fn]
  | mv n m =>
    have := hmv n m rfl rfl rfl
    subst this
    have hS : S.dims = [n, n] := hx.symm
    have hT : T.dims = [n] := hy.symm
    refine ⟨by simp [Tensor.contract, hS, hT, Shp.dims], fun ix hix => ?_⟩
    obtain ⟨i, rfl⟩ := one hix
    simp [Tensor.contract, hS, hT, sumOver, ContractImpl.fn]
  | vm n m =>
    have := hvm n m rfl rfl rfl
    subst this
    have hS : S.dims = [n] := hx.symm
    have hT : T.dims = [n, n] := hy.symm
    refine ⟨by simp [Tensor.contract, hS, hT, Shp.dims], fun ix hix => ?_⟩
    obtain ⟨i, rfl⟩ := one hix
    simp [Tensor.contract, hS, hT, sumOver, ContractImpl.fn]
  | mm n z m =>
    have hS : S.dims = [n, z] := hx.symm
    have hT : T.dims = [z, m] := hy.symm
    refine ⟨by simp [Tensor.contract, hS, hT, Shp.dims], fun ix hix => ?_⟩
    obtain ⟨i, j, rfl⟩ := two hix
    simp [Tensor.contract, hS, hT, sumOver, ContractImpl.fn]

theorem holdsT_contract (hv : Calc J R lax) (z : ContractImpl axes a b c)
    (hmv : ∀ n m, axes = 1 → a = .array [n, m] → b = .array [n] → n = m)
    (hvm : ∀ n m, axes = 1 → a = .array [n] → b = .array [n, m] → n = m)
    {x : BSpec F a} {y : BSpec F b} {A MA B MB : Tensor ℝ} (hx : HoldsT J k x.unwrap A MA)
    (hy : HoldsT J l y.unwrap B MB) {s : BSpec F c} (h : BSpec.contract z x y = .ok s)
    (hR : (Tensor.contract (if MA.dims = [] ∧ MB.dims = [] then 0 else axes) MA MB).Every
      (R (k + l + (B.dims.take axes).prod + 3)))
    (hR1 : (Tensor.contract (if MA.dims = [] ∧ MB.dims = [] then 0 else axes) MA
      (MB.map fun _ => 1)).Every (R (k + 2)))
    (hlax : (B.dims.take axes).prod ≠ 0 ∨ lax) :
    HoldsT J (k + l + (B.dims.take axes).prod + 3) s.unwrap
      (.contract (if A.dims = [] ∧ B.dims = [] then 0 else axes) A B)
      (.contract (if MA.dims = [] ∧ MB.dims = [] then 0 else axes) MA MB) := by
  have hin : z.inRange := by
    cases z with
    | mv n m => have := hmv n m rfl rfl rfl; show m ≤ n; omega
    | vm n m => have := hvm n m rfl rfl rfl; show m ≤ n; omega
    | _ => trivial
  have hA := contract_fn z hmv hvm hx.2.1 hy.2.1
  have hM := contract_fn z hmv hvm (hx.2.1.trans hx.1.symm) (hy.2.1.trans hy.1.symm)
  have hM1 := contract_fn z hmv hvm (T := MB.map fun _ => 1) (hx.2.1.trans hx.1.symm)
    (hy.2.1.trans hy.1.symm)
  have ht : z.terms = (B.dims.take axes).prod := by
    rw [← hy.2.1]
    cases z with
    | mv n m => have := hmv n m rfl rfl rfl; simp [ContractImpl.terms, Buf.dims, Shp.dims, this]
    | vm n m => have := hvm n m rfl rfl rfl; simp [ContractImpl.terms, Buf.dims, Shp.dims, this]
    | _ => simp [ContractImpl.terms, Buf.dims, Shp.dims]
  rw [← ht] at hR hlax ⊢
  have h1 := holdsContract hv z hin (hx.2.1 ▸ hx.2) (hy.2.1 ▸ hy.2) h
    (fun ix hix => (congrArg (R _) (hM.2 ix hix)).mp (hR ix (hM.1 ▸ hix)))
    (fun ix hix => by
      have e := hM1.2 ix hix
      exact (congrArg (R (k + 2)) e).mp (hR1 ix (hM1.1 ▸ hix))) hlax
  refine ⟨hM.1.trans hA.1.symm, h1.1.trans hA.1.symm, fun ix hix => ?_⟩
  rw [hA.1] at hix
  obtain ⟨w, hw, hn⟩ := h1.2 ix hix
  refine ⟨w, hw, ?_⟩
  rw [hA.2 ix hix, hM.2 ix hix]
  exact hn

end

/-! ### Evaluation that leaves the context alone -/

section
variable {F : Type} {Γ : Id → BTy} {α β γ : Type}

/-- From the context `c`, `m` leads back to `c` and returns only values satisfying `P`. -/
def Stays (c : Ctx F Γ) (m : EvalM F Γ α) (P : α → Prop) : Prop :=
  (m c).2 = c ∧ ∀ a, (m c).1 = .ok a → P a

namespace Stays
variable {c : Ctx F Γ}

theorem map {m : EvalM F Γ α} {P : α → Prop} {Q : β → Prop} {f : α → β} (h : Stays c m P)
    (hf : ∀ a, P a → Q (f a)) : Stays c (m.map f) Q := by
  refine ⟨h.1, fun b hb => ?_⟩
  obtain ⟨a, ha, rfl⟩ := (Res.map_ok_iff _ _ _).1 hb
  exact hf a (h.2 a ha)

theorem mapErr {m : EvalM F Γ α} {P : α → Prop} (h : Stays c m P) (f : EvalErr → EvalErr) :
    Stays c (m.mapErr f) P :=
  ⟨h.1, fun a ha => h.2 a ((Res.mapErr_ok_iff _ _ _).1 ha)⟩

theorem lift {r : Res EvalErr α} {P : α → Prop} (h : ∀ a, r = .ok a → P a) :
    Stays c (EvalM.lift r) P := ⟨rfl, h⟩

theorem read (i : Id) : Stays c (EvalM.read i) (fun b => c i = some b) := by
  unfold Stays
  simp only [EvalM.read]
  cases h : c i with
  | some b => exact ⟨rfl, fun a ha => by cases ha; rfl⟩
  | none => exact ⟨rfl, fun a ha => by cases ha⟩

theorem bind {m : EvalM F Γ α} {f : α → EvalM F Γ β} {P : α → Prop} {Q : β → Prop}
    (h : Stays c m P) (hf : ∀ a, P a → Stays c (f a) Q) : Stays c (m.bind f) Q := by
  obtain ⟨h1, h2⟩ := h
  unfold Stays
  simp only [EvalM.bind]
  rcases hm : m c with ⟨a | e | _, c'⟩
  · rw [hm] at h1 h2
    cases h1
    exact hf a (h2 a rfl)
  · rw [hm] at h1; exact ⟨h1, fun a ha => by cases ha⟩
  · rw [hm] at h1; exact ⟨h1, fun a ha => by cases ha⟩

theorem binM {l : EvalM F Γ α} {r : EvalM F Γ β} {k : α → β → Res IncShapes γ} {P : α → Prop}
    {Q : β → Prop} {R : γ → Prop} (hl : Stays c l P) (hr : Stays c r Q)
    (hk : ∀ x y z, P x → Q y → k x y = .ok z → R z) : Stays c (binM l r k) R :=
  (hl.mapErr _).bind fun x hx => (hr.mapErr _).bind fun y hy =>
    .lift fun z hz => hk x y z hx hy ((Res.mapErr_ok_iff _ _ _).1 hz)

end Stays

end

section
variable {F : Type} {Γ : Id → BTy}

theorem den_conv_dims {D : Id → Dims} {ρ : Id → Tensor ℝ} (hD : ∀ i, (ρ i).dims = D i) (f : F → ℝ)
    (e : Node F) : (den ρ (conv f e)).dims = extents D e := by
  induction e with
  | var i => exact hD i
  | varAdj i t => simp only [conv, den, extents, Tensor.delta, hD]
  | const τ b => exact Buf.dims_map τ b f
  | constSpec τ s =>
    cases s with
    | raw b => exact Buf.dims_map τ b f
    | _ => rfl
  | constAdj n t ih => simp only [conv, den, extents, Tensor.const, ih, hD]
  | cached n i ih => exact ih
  | add l r ihl ihr => simp only [conv, den, extents, Tensor.zip, ihl, ihr]
  | sub l r ihl ihr => simp only [conv, den, extents, Tensor.zip, ihl, ihr]
  | mul l r ihl ihr => simp only [conv, den, extents, Tensor.zip, ihl, ihr]
  | div l r ihl ihr => simp only [conv, den, extents, Tensor.zip, ihl, ihr]
  | power l r _ _ => rfl
  | contract k l r ihl ihr => simp only [conv, den, extents, Tensor.contract, ihl, ihr]
  | sum n _ => rfl
  | un op n ih => simp only [conv, den, extents, Tensor.map, ih]

variable [Zero F] [One F] [Add F] [Sub F] [Mul F] [Div F] [Neg F] [ScalarFns F]
variable {val : F → ℝ} {u : ℝ}

theorem rpow_two' (x : ℝ) : (ScalarFns.pow x (1 + 1) : ℝ) = x ^ 2 := by
  show x ^ ((1 : ℝ) + 1) = x ^ 2
  rw [show (1 : ℝ) + 1 = ((2 : ℕ) : ℝ) by norm_num, Real.rpow_natCast]

/-- A judgement that respects the scalar operations holds of every entry the code computes. -/
theorem FnImpl.holds_spec {J : ℕ → F → ℝ → ℝ → Prop} {R : ℕ → ℝ → Prop} {lax : Prop}
    (hv : Calc J R lax) {Q : F → Prop} {wt : F → ℝ} (hQ : ∀ x, Q x → J 0 x (val x) |wt x|)
    {e : Node F} {τ : BTy} (d : FnImpl Γ e τ) (he : RingExpr e) (hr : FnImpl.Regular d) (c : Ctx F Γ)
    {D : Id → Dims} {ρ σ : Id → Tensor ℝ} (hD : ∀ i, (ρ i).dims = D i)
    (hc : ∀ i b, c i = some b → HoldsT J 0 b (ρ i) (σ i)) (hR : Ranges Q R lax D σ wt e) :
    Stays c d.fn.evaluate (fun b =>
      HoldsT J (roundings D e) b (den ρ (conv val e)) (den σ (positive wt e)) ∧
        Compat ρ (conv val e)) ∧
    Stays c d.fn.evaluateSpec (fun s =>
      HoldsT J (roundings D e) s.unwrap (den ρ (conv val e)) (den σ (positive wt e)) ∧
        Compat ρ (conv val e)) ∧
    Stays c d.fn.evaluateShape (fun s => Shp.dims τ s = (den ρ (conv val e)).dims ∧
      (den σ (positive wt e)).dims = (den ρ (conv val e)).dims) := by
  have ofSpec : ∀ {τ : BTy} {A M : Tensor ℝ} {k : ℕ} {m : EvalM F Γ (BSpec F τ)}
      {sh : EvalM F Γ (Shp τ)} {P : Shp τ → Prop} {Q : Prop},
      Stays c m (fun s => HoldsT J k s.unwrap A M ∧ Q) → Stays c sh P →
      Stays c (Fn.ofSpec m sh).evaluate (fun b => HoldsT J k b A M ∧ Q) ∧
      Stays c (Fn.ofSpec m sh).evaluateSpec (fun s => HoldsT J k s.unwrap A M ∧ Q) ∧
      Stays c (Fn.ofSpec m sh).evaluateShape P := fun h h' => ⟨h.map fun _ h => h, h, h'⟩
  have shapes : ∀ {a b c' : BTy} {A B MA MB : Tensor ℝ} {l : EvalM F Γ (Shp a)}
      {r : EvalM F Γ (Shp b)} (z : ZipImpl a b c') (f g : ℝ → ℝ → ℝ),
      Stays c l (fun s => Shp.dims a s = A.dims ∧ MA.dims = A.dims) →
      Stays c r (fun s => Shp.dims b s = B.dims ∧ MB.dims = B.dims) →
      Stays c (binM l r fun s t => Res.ofExcept (z.broadcast s t))
        (fun s => Shp.dims c' s = (Tensor.zip f A B).dims ∧
          (Tensor.zip g MA MB).dims = (Tensor.zip f A B).dims) := by
    intro a b c' A B MA MB l r z f g hl hr
    refine hl.binM hr fun x y s hx hy h => ?_
    have := bcast_dims (broadcast_ok z x y s ((Res.ofExcept_ok_iff _ _).1 h))
    rw [hx.1, hy.1] at this
    exact ⟨this, by simp only [Tensor.zip, hx.2, hy.2]⟩
  have fits : ∀ {a b c' : BTy} {x : Buf F a} {y : Buf F b} {r : Buf F c'} {P : F → F → F → Prop}
      {A B MA MB : Tensor ℝ} {k l : ℕ}, HoldsT J k x A MA → HoldsT J l y B MB →
      ZipRel x y P r → A.dims = [] ∨ B.dims = [] ∨ A.dims = B.dims := by
    intro a b c' x y r P A B MA MB k l hx hy h
    have := bcast_cases h.1
    rwa [hx.2.1, hy.2.1] at this
  induction d with
  | var i =>
    refine ⟨⟨(Stays.read (c := c) i).1, fun b h => ⟨hc i b ((Stays.read i).2 b h), trivial⟩⟩,
      (Stays.read i).map fun b h => ⟨hc i b h, trivial⟩,
      (Stays.read i).map fun b h => ⟨(hc i b h).2.1, (hc i b h).1⟩⟩
  | varAdj i t k hrk =>
    refine ofSpec ?_ ?_
    · refine (((Stays.read i).map (f := Buf.shape _) (Q := fun s => Shp.dims _ s = (ρ i).dims ∧
        (σ i).dims = (ρ i).dims) fun b h => ⟨(hc i b h).2.1, (hc i b h).1⟩).mapErr _).bind
        fun si hi => (((Stays.read t).map (f := Buf.shape _) (Q := fun s => Shp.dims _ s = (ρ t).dims ∧
        (σ t).dims = (ρ t).dims) fun b h => ⟨(hc t b h).2.1, (hc t b h).1⟩).mapErr _).bind
        fun st ht => .lift fun s hs => ?_
      refine ⟨?_, trivial⟩
      exact holdsT_delta hv (S := ⟨(ρ i).dims, fun _ => (0 : F)⟩)
        (T := ⟨(ρ t).dims, fun _ => 0⟩)
        rfl rfl hi.2 ht.2 (varAdjSpec_tensor i t k (S := ⟨(ρ i).dims, fun _ => (0 : F)⟩)
          (T := ⟨(ρ t).dims, fun _ => 0⟩) hi.1 ht.1 (fun h => by rw [h]) s hs)
    · refine (((Stays.read i).map (f := Buf.shape _) (Q := fun s => Shp.dims _ s = (ρ i).dims ∧
        (σ i).dims = (ρ i).dims) fun b h => ⟨(hc i b h).2.1, (hc i b h).1⟩).mapErr _).bind
        fun si hi => (((Stays.read t).map (f := Buf.shape _) (Q := fun s => Shp.dims _ s = (ρ t).dims ∧
        (σ t).dims = (ρ t).dims) fun b h => ⟨(hc t b h).2.1, (hc t b h).1⟩).mapErr _).bind
        fun st ht => .lift fun s hs => ?_
      cases hs
      refine ⟨?_, ?_⟩
      · rw [concat_dims k si st, hi.1, ht.1]; rfl
      · simp only [positive, conv, den, Tensor.delta, hi.2, ht.2]
  | const τ b =>
    refine ofSpec (.lift fun s hs => ?_) (.lift fun s hs => ?_)
    · cases hs; exact ⟨holdsT_ofBuf b fun ix x hx => hQ x (hR ix x hx), trivial⟩
    · cases hs
      exact ⟨(Buf.dims_map τ b val).symm, (Buf.dims_map τ b _).trans (Buf.dims_map τ b _).symm⟩
  | constSpec τ s =>
    refine ofSpec (.lift fun s' hs => ?_) (.lift fun s' hs => ?_)
    · cases hs; exact ⟨holdsT_ofSpec hv hQ s hR, trivial⟩
    · cases hs
      cases s with
      | raw b =>
        exact ⟨(Buf.dims_map τ b val).symm, (Buf.dims_map τ b _).trans (Buf.dims_map τ b _).symm⟩
      | _ => exact ⟨rfl, rfl⟩
  | constAdj d t k ih =>
    rename_i n _ _
    have ih := ih he hr hR
    have key := (ih.2.2.mapErr EvalErr.left).bind (f := fun sn =>
        (((EvalM.read t).map (Buf.shape _)).mapErr EvalErr.right).bind fun st =>
          EvalM.lift (.ok (k.shape sn st)))
      (Q := fun s => Shp.dims _ s = (den ρ (conv val (.constAdj n t))).dims ∧
        (den σ (positive wt (.constAdj n t))).dims = (den ρ (conv val (.constAdj n t))).dims)
      fun sn hsn => (((Stays.read t).map (f := Buf.shape _) (Q := fun s => Shp.dims _ s = (ρ t).dims ∧
        (σ t).dims = (ρ t).dims) fun b h => ⟨(hc t b h).2.1, (hc t b h).1⟩).mapErr _).bind
          fun st ht => .lift fun s hs => by
            cases hs
            refine ⟨?_, ?_⟩
            · rw [concat_dims k sn st, hsn.1, ht.1]; rfl
            · simp only [positive, conv, den, Tensor.const, hsn.2, ht.2]
    refine ofSpec (key.map fun s hs => ?_) key
    refine ⟨⟨hs.2, hs.1 ▸ holdsBuf_full fun ix hix => ?_⟩, trivial⟩
    exact hv.zero
  | cached i d ih => exact he.elim
  | div dl dr z ihl ihr => exact he.elim
  | power dl dr ihl ihr => exact he.elim
  | add dl dr z ihl ihr =>
    have ihl := ihl he.1 hr.1 hR.1
    have ihr := ihr he.2 hr.2 hR.2.1
    refine ofSpec (ihl.2.1.binM ihr.2.1 fun x y s hx hy h => ?_) (shapes z _ _ ihl.2.2 ihr.2.2)
    have hz := addSpec_rel z x y s h
    refine ⟨?_, hx.2, hy.2, fits hx.1 hy.1 hz⟩
    refine holdsT_zip hx.1 hy.1 hz hR.2.2 fun p q w p' q' m n hp hq hmn hw => ?_
    rcases hw with rfl | rfl | ⟨h0, rfl⟩ | ⟨h0, rfl⟩
    · exact hv.add hp hq hmn
    · have := hv.add hq hp (by rwa [add_comm n, max_comm])
      rwa [add_comm q', add_comm n, max_comm] at this
    · exact hv.add_zero' hp hq h0
    · have := hv.add_zero' hq hp h0
      rwa [add_comm q', add_comm n, max_comm] at this
  | sub dl dr z ihl ihr =>
    have ihl := ihl he.1 hr.1 hR.1
    have ihr := ihr he.2 hr.2.1 hR.2.1
    have hz := not_swaps z hr.2.2
    refine ofSpec (ihl.2.1.binM ihr.2.1 fun x y s hx hy h => ?_) (shapes z _ _ ihl.2.2 ihr.2.2)
    have hz := subSpec_rel z hz x y s h
    refine ⟨?_, hx.2, hy.2, fits hx.1 hy.1 hz⟩
    refine holdsT_zip hx.1 hy.1 hz hR.2.2 fun p q w p' q' m n hp hq hmn hw => ?_
    rcases hw with rfl | ⟨h0, rfl⟩
    · exact hv.sub hp hq hmn
    · exact hv.subz (hv.mono hp (by simp only [roundings]; omega))
        (hv.mono (hv.isZero h0 hq) (by simp only [roundings]; omega))
  | mul dl dr z ihl ihr =>
    have ihl := ihl he.1 hr.1 hR.1
    have ihr := ihr he.2 hr.2 hR.2.1
    refine ofSpec (ihl.2.1.binM ihr.2.1 fun x y s hx hy h => ?_) (shapes z _ _ ihl.2.2 ihr.2.2)
    have hz := mulSpec_rel z x y s h
    refine ⟨?_, hx.2, hy.2, fits hx.1 hy.1 hz⟩
    refine holdsT_zip hx.1 hy.1 hz hR.2.2 fun p q w p' q' m n hp hq hmn hw => ?_
    rcases hw with rfl | rfl | ⟨h0 | h0, rfl⟩
    · exact hv.mul hp hq hmn
    · exact hv.mul_swap hp hq le_rfl hmn
    · exact hv.mul_zero' hp hq h0
    · have := hv.mul_zero' hq hp h0
      rwa [mul_comm q', mul_comm n, Nat.add_comm (roundings D _)] at this
  | contract dl dr z ihl ihr =>
    have ihl := ihl he.1 hr.1 hR.1
    have ihr := ihr he.2 hr.2.1 hR.2.1
    refine ofSpec (ihl.2.1.binM ihr.2.1 fun x y s hx hy h => ?_)
      (ihl.2.2.binM ihr.2.2 fun x y s hx hy h => ?_)
    · refine ⟨?_, hx.2, hy.2, ?_⟩
      rotate_left
      · rw [← hx.1.2.1, ← hy.1.2.1]
        have hmv := hr.2.2.1
        have hvm := hr.2.2.2
        cases z with
        | ss0 | ss1 => exact .inl ⟨rfl, rfl⟩
        | vs0 | sv0 | ms0 | vv0 | sm0 => exact .inr ⟨_, [], _, rfl, (List.append_nil _).symm, rfl⟩
        | dot n => exact .inr ⟨[], [n], [], rfl, rfl, rfl⟩
        | mv n m => have := hmv n m rfl rfl rfl; subst this; exact .inr ⟨[n], [n], [], rfl, rfl, rfl⟩
        | mm n k m => exact .inr ⟨[n], [k], [m], rfl, rfl, rfl⟩
        | vm n m => exact .inr ⟨[], [n], [m], rfl, rfl, rfl⟩
      have h3 := hR.2.2.1
      have h5 := hR.2.2.2.2
      simp only [roundings] at h3 ⊢
      rw [← den_conv_dims hD val] at h3 h5 ⊢
      exact holdsT_contract hv z hr.2.2.1 hr.2.2.2 hx.1 hy.1 h h3 hR.2.2.2.1 h5
    · refine ⟨contractShape_tensor z hr.2.2.1 hx.1 hy.1 ((Res.ofExcept_ok_iff _ _).1 h), ?_⟩
      simp only [positive, conv, den, Tensor.contract, hx.2, hy.2]
  | sum d ih =>
    have ih := ih he hr hR.1
    have h2 := hR.2.1 [] .nil
    have h3 := hR.2.2
    simp only [roundings] at h2
    rw [← den_conv_dims hD val] at h2 h3
    refine ⟨ih.1.map fun b hb => ?_, ih.2.1.bind fun s hs => .lift fun s' hs' => ?_,
      .lift fun _ _ => ⟨rfl, rfl⟩⟩
    · refine ⟨⟨rfl, rfl, fun ix hix => ⟨_, by cases hix; rfl, ?_⟩⟩, ‹_ ∧ _›.2⟩
      simp only [roundings]
      rw [← den_conv_dims hD val]
      exact hv.mono (holdsT_sum hv hb.1 (hv.anti h2 (by omega) le_rfl)) (by omega)
    · refine ⟨⟨rfl, rfl, fun ix hix => ⟨_, by cases hix; rfl, ?_⟩⟩, ‹_ ∧ _›.2⟩
      simp only [roundings]
      rw [← den_conv_dims hD val]
      exact holdsT_sumSpec hv hs.1 hs' h2 h3
  | un op d ih =>
    rename_i n _
    have hR' : Ranges Q R lax D σ wt n := by cases op <;> first | exact hR.1 | exact hR
    have ih := ih he.2 hr hR'
    -- the scalar function, and the tensors on either side
    have key : ∃ M' : Tensor ℝ, den σ (positive wt (.un op n)) = M' ∧
        M'.dims = (den σ (positive wt n)).dims ∧
        ∀ ix w a, InBounds (den σ (positive wt n)).dims ix →
          J (roundings D n) w a ((den σ (positive wt n)).val ix) →
          J (roundings D (.un op n)) (op.apply w) (op.apply a) (M'.val ix) := by
      have hm := he.1
      simp only [List.mem_cons, List.not_mem_nil, or_false] at hm
      rcases hm with rfl | rfl | rfl | rfl | rfl | rfl | rfl
      · refine ⟨_, rfl, rfl, fun ix w a hix h => ?_⟩
        exact hv.mono (hv.sub h hv.one (hv.anti (hR.2 ix hix) (by simp [roundings]) le_rfl))
          (by simp [roundings])
      · refine ⟨_, rfl, rfl, fun ix w a hix h => ?_⟩
        have := hv.sub hv.one h (hv.anti (hR.2 ix hix) (by simp [roundings])
          (le_of_eq (add_comm _ _)))
        rw [add_comm (1 : ℝ)] at this
        exact hv.mono this (by simp [roundings])
      · refine ⟨_, rfl, rfl, fun ix w a hix h => ?_⟩
        exact hv.mono (hv.add h hv.one (hv.anti (hR.2 ix hix) (by simp [roundings]) le_rfl))
          (by simp [roundings])
      · refine ⟨_, rfl, rfl, fun ix w a hix h => ?_⟩
        have h2 : R (2 * roundings D n + 1) (ScalarFns.pow ((den σ (positive wt n)).val ix) (1 + 1)) :=
          hR.2 ix hix
        show J _ (ScalarFns.pow w (1 + 1)) (ScalarFns.pow a (1 + 1)) (ScalarFns.pow _ (1 + 1))
        rw [rpow_two'] at h2 ⊢
        rw [rpow_two']
        exact hv.square h h2
      · refine ⟨_, rfl, rfl, fun ix w a hix h => ?_⟩
        exact hv.mul' hv.two h (by simp only [roundings]; omega) (hR.2 ix hix)
      · exact ⟨_, rfl, rfl, fun ix w a _ h => hv.neg h⟩
      · refine ⟨_, rfl, by simp [positive, den, Tensor.zip, Tensor.map], fun ix w a hix h => ?_⟩
        have h1 := hv.sub hv.one h (hv.anti (hR.2.1 ix hix) (by simp [roundings])
          (le_of_eq (add_comm _ _)))
        have h2 := hR.2.2 ix (by simpa [positive, den, Tensor.zip, Tensor.map] using hix)
        rw [add_comm (1 : ℝ)] at h1
        simp only [positive, den, Tensor.zip, Tensor.map, bIdx_inBounds hix] at h2 ⊢
        exact hv.mul' h h1 (by simp only [roundings, Nat.zero_max]; omega) h2
    obtain ⟨M', e, hd, hM⟩ := key
    rw [e]
    refine ⟨ih.1.map fun b hb => ?_, ih.2.1.map fun s hs => ?_, ?_⟩
    · exact ⟨holdsT_map hb.1 rfl hd fun ix w hix h => hM ix w _ (by rw [hb.1.1]; exact hix) h, hb.2⟩
    · rw [unSpec_unwrap]
      exact ⟨holdsT_map hs.1 rfl hd fun ix w hix h => hM ix w _ (by rw [hs.1.1]; exact hix) h, hs.2⟩
    · exact ⟨ih.2.2.1, fun s hs => ⟨(ih.2.2.2 s hs).1, hd.trans (ih.2.2.2 s hs).2⟩⟩

omit [Zero F] [One F] [Add F] [Sub F] [Mul F] [Div F] [Neg F] [ScalarFns F] in
/-- Without limits everything is in range. -/
theorem ranges_unlimited {Q : F → Prop} (hQ : ∀ x, Q x) {wt : F → ℝ} {D : Id → Dims}
    {σ : Id → Tensor ℝ} {e : Node F} (he : RingExpr e) :
    Ranges Q (fun _ _ => True) True D σ wt e := by
  have every : ∀ T : Tensor ℝ, T.Every fun _ => True := fun _ _ _ => trivial
  induction e with
  | var i => trivial
  | varAdj i t => trivial
  | const τ b => exact fun _ x _ => hQ x
  | constSpec τ s => cases s <;> first | exact fun _ x _ => hQ x | exact hQ _
  | constAdj n t ih => exact ih he
  | add l r ihl ihr => exact ⟨ihl he.1, ihr he.2, every _⟩
  | sub l r ihl ihr => exact ⟨ihl he.1, ihr he.2, every _⟩
  | mul l r ihl ihr => exact ⟨ihl he.1, ihr he.2, every _⟩
  | contract k l r ihl ihr => exact ⟨ihl he.1, ihr he.2, every _, every _, .inr trivial⟩
  | sum n ih => exact ⟨ih he, every _, .inr trivial⟩
  | un op n ih =>
    have := ih he.2
    cases op <;> first | exact this | exact ⟨this, every _⟩ | exact ⟨this, every _, every _⟩
  | cached => exact he.elim
  | div => exact he.elim
  | power => exact he.elim

/-- The buffer `b` holds `A` up to `k` roundings relative to `M`. -/
abbrev NearT (val : F → ℝ) (u : ℝ) (k : ℕ) {τ : BTy} (b : Buf F τ) (A M : Tensor ℝ) : Prop :=
  HoldsT (nearJ val u) k b A M

/-- Every entry the code computes is the exact one up to the roundings it went through. -/
theorem FnImpl.near_spec (hv : Rounding val u) {e : Node F} {τ : BTy} (d : FnImpl Γ e τ)
    (he : RingExpr e) (hr : FnImpl.Regular d) (c : Ctx F Γ) {D : Id → Dims} {ρ σ : Id → Tensor ℝ}
    (hD : ∀ i, (ρ i).dims = D i)
    (hc : ∀ i b, c i = some b → NearT val u 0 b (ρ i) (σ i)) :
    Stays c d.fn.evaluate (fun b =>
      NearT val u (roundings D e) b (den ρ (conv val e)) (den σ (positive val e)) ∧
        Compat ρ (conv val e)) ∧
    Stays c d.fn.evaluateSpec (fun s =>
      NearT val u (roundings D e) s.unwrap (den ρ (conv val e)) (den σ (positive val e)) ∧
        Compat ρ (conv val e)) ∧
    Stays c d.fn.evaluateShape (fun s => Shp.dims τ s = (den ρ (conv val e)).dims ∧
      (den σ (positive val e)).dims = (den ρ (conv val e)).dims) :=
  d.holds_spec hv.calc (Q := fun _ => True) (fun _ _ => near.exact u _) he hr c hD hc
    (ranges_unlimited (fun _ => trivial) he)

omit [Div F] in
theorem nearT_sum (hv : Rounding val u) {τ : BTy} {x : Buf F τ} {A M : Tensor ℝ} {k : ℕ}
    (hx : NearT val u k x A M) :
    near u (k + A.dims.prod) (val (Buf.sum τ x)) (sumOver A.dims A.val) (sumOver M.dims M.val) :=
  holdsT_sum hv.calc hx trivial

omit [Div F] in
theorem nearT_sumSpec (hv : Rounding val u) {τ : BTy} {x : BSpec F τ} {A M : Tensor ℝ} {k : ℕ}
    (hx : NearT val u k x.unwrap A M) {s : BSpec F .scalar} (h : sumSpec x = .ok s) :
    near u (k + A.dims.prod + 2) (val s.unwrap) (sumOver A.dims A.val)
      (sumOver M.dims M.val) :=
  holdsT_sumSpec hv.calc hx h trivial (.inr trivial)

omit [Div F] in
theorem nearT_contract (hv : Rounding val u) {axes : ℕ} {a b c : BTy} (z : ContractImpl axes a b c)
    (hmv : ∀ n m, axes = 1 → a = .array [n, m] → b = .array [n] → n = m)
    (hvm : ∀ n m, axes = 1 → a = .array [n] → b = .array [n, m] → n = m)
    {x : BSpec F a} {y : BSpec F b} {A MA B MB : Tensor ℝ} {k l : ℕ}
    (hx : NearT val u k x.unwrap A MA) (hy : NearT val u l y.unwrap B MB) {s : BSpec F c}
    (h : BSpec.contract z x y = .ok s) :
    NearT val u (k + l + (B.dims.take axes).prod + 3) s.unwrap
      (.contract (if A.dims = [] ∧ B.dims = [] then 0 else axes) A B)
      (.contract (if MA.dims = [] ∧ MB.dims = [] then 0 else axes) MA MB) :=
  holdsT_contract hv.calc z hmv hvm hx hy h (fun _ _ => trivial) (fun _ _ => trivial) (.inr trivial)

omit [Zero F] [One F] [Add F] [Sub F] [Mul F] [Div F] [Neg F] [ScalarFns F] in
theorem envOf_conv_dims (f : F → ℝ) (c : Ctx F Γ) (i : Id) :
    (envOf (convCtx f c) i).dims = ctxDims c i := by
  unfold envOf convCtx ctxDims
  cases c i with
  | none => rfl
  | some b => exact Buf.dims_map _ b f

omit [Zero F] [One F] [Add F] [Sub F] [Mul F] [Div F] [Neg F] [ScalarFns F] in
theorem holdsT_envOf {J : ℕ → F → ℝ → ℝ → Prop} {wt : F → ℝ} (c : Ctx F Γ) (i : Id)
    (b : Buf F (Γ i)) (h : c i = some b)
    (hb : ∀ ix x, Buf.getU (Γ i) b ix = some x → J 0 x (val x) |wt x|) :
    HoldsT J 0 b (envOf (convCtx val c) i) (envOf (convCtx (fun x => |wt x|) c) i) := by
  unfold envOf convCtx
  simp only [h, Option.map_some]
  exact holdsT_ofBuf b hb

omit [Zero F] [One F] [Add F] [Sub F] [Mul F] [Div F] [Neg F] [ScalarFns F] in
theorem nearT_envOf (c : Ctx F Γ) (i : Id) (b : Buf F (Γ i)) (h : c i = some b) :
    NearT val u 0 b (envOf (convCtx val c) i) (envOf (convCtx (fun x => |val x|) c) i) :=
  holdsT_envOf c i b h fun _ _ _ => near.exact u _

omit [Zero F] [One F] [Add F] [Sub F] [Mul F] [Div F] [Neg F] [ScalarFns F] in
/-- Differentiation does not look at constants. -/
theorem conv_adjoint {G : Type} (f : F → G) (e : Node F) (t : Id) :
    (conv f e).adjoint t = (e.adjoint t).map (conv f) := by
  have two : ∀ (x y : Option (Node F)) (k : Node F → Node F → Node F)
      (k' : Node G → Node G → Node G), (∀ a b, k' (conv f a) (conv f b) = conv f (k a b)) →
      ((x.map (conv f)).bind fun a => (y.map (conv f)).map fun b => k' a b)
        = (x.bind fun a => y.map fun b => k a b).map (conv f) := by
    intro x y k k' h
    cases x <;> cases y <;> simp [h]
  have one : ∀ (x : Option (Node F)) (k : Node F → Node F) (k' : Node G → Node G),
      (∀ a, k' (conv f a) = conv f (k a)) →
      ((x.map (conv f)).map fun a => k' a) = (x.map fun a => k a).map (conv f) := by
    intro x k k' h
    cases x <;> simp [h]
  induction e with
  | var i => rfl
  | varAdj i j => rfl
  | const τ b => rfl
  | constSpec τ s => rfl
  | constAdj n t => rfl
  | cached n i ih =>
    simp only [conv, Node.adjoint]
    split
    · exact ih
    · rfl
  | add l r ihl ihr =>
    simp only [conv, Node.adjoint, ihl, ihr]; exact two _ _ _ _ fun _ _ => rfl
  | sub l r ihl ihr =>
    simp only [conv, Node.adjoint, ihl, ihr]; exact two _ _ _ _ fun _ _ => rfl
  | mul l r ihl ihr =>
    simp only [conv, Node.adjoint, ihl, ihr]; exact two _ _ _ _ fun _ _ => rfl
  | div l r ihl ihr =>
    simp only [conv, Node.adjoint, ihl, ihr]; exact two _ _ _ _ fun _ _ => rfl
  | power l r ihl ihr =>
    simp only [conv, Node.adjoint, ihl, ihr]; exact two _ _ _ _ fun _ _ => rfl
  | contract k l r ihl ihr =>
    simp only [conv, Node.adjoint, ihl, ihr]; exact two _ _ _ _ fun _ _ => rfl
  | sum n ih => simp only [conv, Node.adjoint, ih]
  | un op n ih =>
    cases op <;> simp only [conv, Node.adjoint, ih] <;>
      first
        | rfl
        | exact one _ _ _ fun _ => rfl

omit [Zero F] [One F] [Add F] [Sub F] [Mul F] [Div F] [Neg F] [ScalarFns F] in
theorem Spec.RingExpr.adjoint {e e' : Node F} {t : Id} (he : RingExpr e)
    (h : e.adjoint t = some e') : RingExpr e' := by
  induction e generalizing e' with
  | var i => cases h; trivial
  | varAdj i j => cases h; trivial
  | const τ b => cases h; trivial
  | constSpec τ s => cases h
  | constAdj n t => cases h
  | cached n i ih => exact he.elim
  | div l r ihl ihr => exact he.elim
  | power l r ihl ihr => exact he.elim
  | add l r ihl ihr =>
    simp only [Node.adjoint, Option.bind_eq_some_iff, Option.map_eq_some_iff] at h
    obtain ⟨l', hl, r', hr, rfl⟩ := h
    exact ⟨ihl he.1 hl, ihr he.2 hr⟩
  | sub l r ihl ihr =>
    simp only [Node.adjoint, Option.bind_eq_some_iff, Option.map_eq_some_iff] at h
    obtain ⟨l', hl, r', hr, rfl⟩ := h
    exact ⟨ihl he.1 hl, ihr he.2 hr⟩
  | mul l r ihl ihr =>
    simp only [Node.adjoint, Option.bind_eq_some_iff, Option.map_eq_some_iff] at h
    obtain ⟨l', hl, r', hr, rfl⟩ := h
    exact ⟨⟨ihl he.1 hl, he.2⟩, ihr he.2 hr, he.1⟩
  | contract k l r ihl ihr =>
    simp only [Node.adjoint, Option.bind_eq_some_iff, Option.map_eq_some_iff] at h
    obtain ⟨l', hl, r', hr, rfl⟩ := h
    exact ⟨⟨he.1, ihr he.2 hr⟩, ihl he.1 hl, he.2⟩
  | sum n ih => exact ih he h
  | un op n ih =>
    have hm := he.1
    simp only [List.mem_cons, List.not_mem_nil, or_false] at hm
    rcases hm with rfl | rfl | rfl | rfl | rfl | rfl | rfl
    all_goals simp only [Node.adjoint, Option.map_eq_some_iff] at h
    · exact ih he.2 h
    · obtain ⟨n', hn, rfl⟩ := h
      exact ⟨by simp, ih he.2 hn⟩
    · exact ih he.2 h
    · obtain ⟨n', hn, rfl⟩ := h
      exact ⟨⟨by simp, he.2⟩, ih he.2 hn⟩
    · obtain ⟨n', hn, rfl⟩ := h
      exact ⟨by simp, ih he.2 hn⟩
    · obtain ⟨n', hn, rfl⟩ := h
      exact ⟨by simp, ih he.2 hn⟩
    · obtain ⟨n', hn, rfl⟩ := h
      exact ⟨⟨by simp, by simp, he.2⟩, ih he.2 hn⟩

omit [Zero F] [One F] [Add F] [Sub F] [Mul F] [Div F] [Neg F] [ScalarFns F] in
theorem Buf.map_congr {A : Type} {τ : BTy} (b : Buf F τ) {f g : F → A}
    (h : ∀ x, Buf.Entry b x → f x = g x) : Buf.map τ b f = Buf.map τ b g := by
  refine Buf.ext τ _ _ (by rw [Buf.shape_map, Buf.shape_map]) fun ix _ => ?_
  rw [Buf.getU_map, Buf.getU_map]
  cases hg : Buf.getU τ b ix with
  | none => rfl
  | some x => simp [h x ⟨ix, hg⟩]

omit [Zero F] [One F] [Add F] [Sub F] [Mul F] [Div F] [Neg F] [ScalarFns F] in
theorem positive_eq_conv {e : Node F} (h : PositiveExpr val e) : positive val e = conv val e := by
  induction e with
  | var i => rfl
  | varAdj i t => rfl
  | const τ b =>
    simp only [positive, conv]
    rw [Buf.map_congr b fun x hx => by obtain ⟨ix, hix⟩ := hx; exact abs_of_nonneg (h ix x hix)]
  | constSpec τ s =>
    cases s with
    | raw b =>
      simp only [positive, conv, convSpec]
      rw [Buf.map_congr b fun x hx => by obtain ⟨ix, hix⟩ := hx; exact abs_of_nonneg (h ix x hix)]
    | full t x => simp only [positive, conv, convSpec, abs_of_nonneg (show 0 ≤ val x from h)]
    | diagonal t x => simp only [positive, conv, convSpec, abs_of_nonneg (show 0 ≤ val x from h)]
  | constAdj n t ih => simp only [positive, conv, ih h]
  | add l r ihl ihr => simp only [positive, conv, ihl h.1, ihr h.2]
  | mul l r ihl ihr => simp only [positive, conv, ihl h.1, ihr h.2]
  | contract k l r ihl ihr => simp only [positive, conv, ihl h.1, ihr h.2]
  | sum n ih => simp only [positive, conv, ih h]
  | un op n ih =>
    have hm := h.1
    simp only [List.mem_cons, List.not_mem_nil, or_false] at hm
    rcases hm with rfl | rfl | rfl <;> simp only [positive, conv, ih h.2]
  | cached => exact h.elim
  | sub => exact h.elim
  | div => exact h.elim
  | power => exact h.elim

omit [Zero F] [One F] [Add F] [Sub F] [Mul F] [Div F] [Neg F] [ScalarFns F] in
theorem Spec.PositiveExpr.ring {e : Node F} (h : PositiveExpr val e) : RingExpr e := by
  induction e with
  | var | varAdj | const | constSpec => trivial
  | constAdj n t ih => exact ih h
  | add l r ihl ihr => exact ⟨ihl h.1, ihr h.2⟩
  | mul l r ihl ihr => exact ⟨ihl h.1, ihr h.2⟩
  | contract k l r ihl ihr => exact ⟨ihl h.1, ihr h.2⟩
  | sum n ih => exact ih h
  | un op n ih =>
    refine ⟨?_, ih h.2⟩
    have hm := h.1
    simp only [List.mem_cons, List.not_mem_nil, or_false] at hm
    rcases hm with rfl | rfl | rfl <;> simp
  | cached => exact h.elim
  | sub => exact h.elim
  | div => exact h.elim
  | power => exact h.elim

omit [Zero F] [One F] [Add F] [Sub F] [Mul F] [Div F] [Neg F] [ScalarFns F] in
/-- The magnitudes only depend on the real numbers the scalars stand for. -/
theorem positive_conv (f : F → ℝ) (e : Node F) : positive f e = positive id (conv f e) := by
  have hb : ∀ {τ : BTy} (b : Buf F τ),
      Buf.map τ b (fun x => |f x|) = Buf.map τ (Buf.map τ b f) (fun x => |id x|) := fun b => by
    rw [Buf.map_map]; rfl
  induction e with
  | var i => rfl
  | varAdj i t => rfl
  | const τ b => simp only [positive, conv, hb b]
  | constSpec τ s =>
    cases s with
    | raw b => simp only [positive, conv, convSpec, hb b]
    | _ => rfl
  | constAdj n t ih => simp only [positive, conv, ih]
  | cached n i ih => simp only [positive, conv, ih]
  | add l r ihl ihr => simp only [positive, conv, ihl, ihr]
  | sub l r ihl ihr => simp only [positive, conv, ihl, ihr]
  | mul l r ihl ihr => simp only [positive, conv, ihl, ihr]
  | div l r ihl ihr => simp only [positive, conv, ihl, ihr]
  | power l r ihl ihr => simp only [positive, conv, ihl, ihr]
  | contract k l r ihl ihr => simp only [positive, conv, ihl, ihr]
  | sum n ih => simp only [positive, conv, ih]
  | un op n ih => cases op <;> simp only [positive, conv, ih]

omit [Zero F] [One F] [Add F] [Sub F] [Mul F] [Div F] [Neg F] [ScalarFns F] in
theorem extents_conv {G : Type} (f : F → G) (D : Id → Dims) (e : Node F) :
    extents D (conv f e) = extents D e := by
  induction e with
  | var i => rfl
  | varAdj i t => rfl
  | const τ b => exact Buf.dims_map τ b f
  | constSpec τ s =>
    cases s with
    | raw b => exact Buf.dims_map τ b f
    | _ => rfl
  | constAdj n t ih => simp only [conv, extents, ih]
  | cached n i ih => exact ih
  | add l r ihl ihr => simp only [conv, extents, ihl, ihr]
  | sub l r ihl ihr => simp only [conv, extents, ihl, ihr]
  | mul l r ihl ihr => simp only [conv, extents, ihl, ihr]
  | div l r ihl ihr => simp only [conv, extents, ihl, ihr]
  | power l r _ _ => rfl
  | contract k l r ihl ihr => simp only [conv, extents, ihl, ihr]
  | sum n _ => rfl
  | un op n ih => simp only [conv, extents, ih]

omit [Zero F] [One F] [Add F] [Sub F] [Mul F] [Div F] [Neg F] [ScalarFns F] in
theorem roundings_conv {G : Type} (f : F → G) (D : Id → Dims) (e : Node F) :
    roundings D (conv f e) = roundings D e := by
  induction e with
  | var | varAdj | const | constSpec | constAdj | cached | div | power => rfl
  | add l r ihl ihr => simp only [conv, roundings, ihl, ihr]
  | sub l r ihl ihr => simp only [conv, roundings, ihl, ihr]
  | mul l r ihl ihr => simp only [conv, roundings, ihl, ihr]
  | contract k l r ihl ihr => simp only [conv, roundings, ihl, ihr, extents_conv]
  | sum n ih => simp only [conv, roundings, ih, extents_conv]
  | un op n ih => cases op <;> simp only [conv, roundings, ih]

end

end Aegir
