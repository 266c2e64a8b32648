import Verif.Lemmas.Chain
import Verif.Props.C19_Tensor
import Verif.Props.C52_Substitution
import Verif.Spec.Real
/-!
# C85: the chain rule

The adjoint of an expression with `n` in place of the variable `i` evaluates to what the chain rule
says. No smoothness is assumed: the rule holds for the code's formulas in every commutative ring.
-/

namespace Aegir.Props
open Spec

section
variable {F : Type} {Γ : Id → BTy}

theorem cacheFree_subst {i : Id} {n : Node F} (hn : CacheFree n) (e : Node F) (he : CacheFree e) :
    CacheFree (subst i n e) := by
  have free : ∀ {e m : Node F}, CacheFree e → m ∈ children e → CacheFree m := fun h hm =>
    ((cacheFree_iff _).1 h).2 _ hm
  induction e with
  | var j => unfold subst; split <;> assumption
  | varAdj | const | constSpec | constAdj => exact he
  | cached m j => exact absurd rfl (((cacheFree_iff _).1 he).1 m j)
  | add l r ihl ihr | sub l r ihl ihr | mul l r ihl ihr | div l r ihl ihr | power l r ihl ihr
  | contract k l r ihl ihr =>
    rw [cacheFree_iff]
    simp only [subst, children, List.mem_cons, List.not_mem_nil, or_false, forall_eq_or_imp, forall_eq]
    exact ⟨by simp, ihl (free he (by simp [children])), ihr (free he (by simp [children]))⟩
  | sum m ih | un op m ih =>
    rw [cacheFree_iff]
    simp only [subst, children, List.mem_cons, List.not_mem_nil, or_false, forall_eq]
    exact ⟨by simp, ih (free he (by simp [children]))⟩

variable [CommRing F] [Div F] [ScalarFns F] [LawfulScalar F] [LawfulPow F]

omit [LawfulScalar F] [LawfulPow F] [ScalarFns F] [Div F] [CommRing F] in
theorem scalar_dims {τ : BTy} (h : τ = .scalar) (b : Buf F τ) : Buf.dims τ b = [] := by
  subst h; rfl

omit [LawfulScalar F] [LawfulPow F] [ScalarFns F] [Div F] [CommRing F] in
theorem fixed_dims {τ : BTy} (h : τ ≠ .vec) (b b' : Buf F τ) : Buf.dims τ b = Buf.dims τ b' := by
  cases τ with
  | scalar => rfl
  | array ds => rfl
  | tuple => rfl
  | vec => exact absurd rfl h

theorem value_at {ρ : Id → Tensor F} {c : Ctx F Γ} (hρ : Describes ρ c) {e : Node F} {τ : BTy}
    (hf : CacheFree e) (d : FnImpl Γ e τ) (hr : FnImpl.Regular d) (hp : PowSafeIn c e) {v : Buf F τ}
    (hv : (d.evaluate c).1 = .ok v) : IsTensor v (den ρ e) :=
  (C19_value_partial d (fun n i hs => absurd hs (hf n i)) (hp ρ hρ) hr c hρ).2 v hv

omit [LawfulPow F] in
theorem compat_at {ρ : Id → Tensor F} {c : Ctx F Γ} (hρ : Describes ρ c) {e : Node F} {τ : BTy}
    (hf : CacheFree e) (d : FnImpl Γ e τ) (hr : FnImpl.Regular d) {v : Buf F τ}
    (hv : (d.evaluate c).1 = .ok v) : Compat ρ e := by
  have he : d.evaluate = d.fn.evaluateSpec.map BSpec.unwrap := d.evaluate_eq
  rw [he] at hv
  obtain ⟨s, hs, rfl⟩ := (Res.map_ok_iff _ _ _).1 hv
  exact (((d.compat_spec hf hr).1 c hρ).2 s hs).2

/-- The environments before and after binding `i`. -/
theorem environments {i : Id} {n : Node F} (dn : FnImpl Γ n (Γ i)) (hf : CacheFree n)
    (hr : FnImpl.Regular dn) (c : Ctx F Γ) (hp : PowSafeIn c n) (v : Buf F (Γ i))
    (hv : (dn.evaluate c).1 = .ok v) :
    ∃ ρ ρ' : Id → Tensor F, Describes ρ c ∧ Describes ρ' (c.write i v) ∧ ρ' i = den ρ n ∧
      (∀ j, j ≠ i → ρ' j = ρ j) ∧ (∀ j, Γ j = .scalar → (ρ j).dims = []) ∧
      ∀ j, Γ j = .scalar → (ρ' j).dims = [] := by
  have hd : Describes (envOf c) c := describes_envOf c
  have hv' := value_at hd hf dn hr hp hv
  have hs : ∀ j, Γ j = .scalar → (envOf c j).dims = [] := by
    intro j hj
    cases hcj : c j with
    | none => simp [envOf, hcj, Tensor.const]
    | some b => rw [← (hd j b hcj).1]; exact scalar_dims hj b
  refine ⟨envOf c, fun j => if j = i then den (envOf c) n else envOf c j, hd, ?_, by simp,
    fun j hj => by simp [hj], hs, ?_⟩
  · intro j b hb
    by_cases h : j = i
    · subst h
      simp only [Ctx.write, dite_true, Option.some.injEq] at hb
      subst hb
      simpa using hv'
    · simp only [Ctx.write, h, dite_false, if_false] at hb ⊢
      exact hd j b hb
  · intro j hj
    by_cases h : j = i
    · subst h
      simp only [if_true]
      rw [← hv'.1]
      exact scalar_dims hj v
    · simp only [h, if_false]
      exact hs j hj

/-- The derivative with respect to a scalar `t` of `e` with `n` in place of the scalar `i`, at a
context `c`: the derivative of `e` with respect to `t`, plus its derivative with respect to `i` times
the derivative `ν` of `n`; the derivatives of `e` are taken where `i` is bound to the value of `n`. -/
theorem C85_chain {i t : Id} {n e nt st et ei : Node F} {τ σ κ : BTy} (hti : t ≠ i)
    (hi : Γ i = .scalar) (ht : Γ t = .scalar) (hnt : n.adjoint t = some nt)
    (hst : (subst i n e).adjoint t = some st) (het : e.adjoint t = some et) (hei : e.adjoint i = some ei)
    (dn : FnImpl Γ n (Γ i)) (dnt : FnImpl Γ nt .scalar) (ds : FnImpl Γ st τ) (dt : FnImpl Γ et σ)
    (di : FnImpl Γ ei κ) (hn : CacheFree n) (he : CacheFree e) (hd : DivisionOk e) (hp : Plain i e)
    (rn : FnImpl.Regular dn) (rnt : FnImpl.Regular dnt) (rs : FnImpl.Regular ds)
    (rt : FnImpl.Regular dt) (ri : FnImpl.Regular di) (c : Ctx F Γ) (v : Buf F (Γ i)) (ν : F)
    (pn : PowSafeIn c n) (pnt : PowSafeIn c nt) (ps : PowSafeIn c st) (pt : PowSafeIn (c.write i v) et)
    (pi : PowSafeIn (c.write i v) ei) (hv : (dn.evaluate c).1 = .ok v) (hν : (dnt.evaluate c).1 = .ok ν)
    (A : Buf F τ) (hA : (ds.evaluate c).1 = .ok A)
    (B : Buf F σ) (hB : (dt.evaluate (c.write i v)).1 = .ok B)
    (C : Buf F κ) (hC : (di.evaluate (c.write i v)).1 = .ok C) :
    Buf.dims τ A = Buf.dims σ B ∧ Buf.dims κ C = Buf.dims σ B ∧
      ∀ ix, InBounds (Buf.dims σ B) ix → ∃ x y z : F, Buf.getU τ A ix = some x ∧
        Buf.getU σ B ix = some y ∧ Buf.getU κ C ix = some z ∧ x = y + z * ν := by
  obtain ⟨ρ, ρ', h1, h2, h3, h4, h5, h6⟩ := environments dn hn rn c pn v hv
  have fs := adjoint_cacheFree hst (cacheFree_subst hn e he)
  have hN := value_at h1 (adjoint_cacheFree hnt hn) dnt rnt pnt hν
  have hN0 : (den ρ nt).dims = [] := hN.1.symm
  have hNv : ν = (den ρ nt).val [] := Option.some.inj (hN.2 [] (by rw [hN0]; exact .nil))
  have L := chain h3 h4 (h5 t ht) (by rw [← h3]; exact h6 i hi) hnt hN0 e hst het hei he hd hp
    (compat_at h2 (adjoint_cacheFree het he) dt rt hB)
  have a := value_at h1 fs ds rs ps hA
  have b := value_at h2 (adjoint_cacheFree het he) dt rt pt hB
  have z := value_at h2 (adjoint_cacheFree hei he) di ri pi hC
  refine ⟨by rw [a.1, b.1, L.dimsA], by rw [z.1, b.1, L.dimsC], fun ix hix => ?_⟩
  rw [b.1] at hix
  refine ⟨_, _, _, a.2 ix (by rw [L.dimsA]; exact hix), b.2 ix hix, z.2 ix (by rw [L.dimsC]; exact hix), ?_⟩
  rw [L.val ix hix, if_neg hti, mul_one, hNv]

/-- The same when the substituted variable is itself the target: `n` may refer to the variable it
replaces. -/
theorem C85_chain_self {i : Id} {n e ni si ei : Node F} {τ κ : BTy}
    (hi : Γ i = .scalar) (hni : n.adjoint i = some ni)
    (hsi : (subst i n e).adjoint i = some si) (hei : e.adjoint i = some ei)
    (dn : FnImpl Γ n (Γ i)) (dni : FnImpl Γ ni .scalar) (ds : FnImpl Γ si τ)
    (di : FnImpl Γ ei κ) (hn : CacheFree n) (he : CacheFree e) (hd : DivisionOk e) (hp : Plain i e)
    (rn : FnImpl.Regular dn) (rni : FnImpl.Regular dni) (rs : FnImpl.Regular ds)
    (ri : FnImpl.Regular di) (c : Ctx F Γ) (v : Buf F (Γ i)) (ν : F)
    (pn : PowSafeIn c n) (pni : PowSafeIn c ni) (ps : PowSafeIn c si)
    (pi : PowSafeIn (c.write i v) ei) (hv : (dn.evaluate c).1 = .ok v) (hν : (dni.evaluate c).1 = .ok ν)
    (A : Buf F τ) (hA : (ds.evaluate c).1 = .ok A)
    (C : Buf F κ) (hC : (di.evaluate (c.write i v)).1 = .ok C) :
    Buf.dims τ A = Buf.dims κ C ∧
      ∀ ix, InBounds (Buf.dims κ C) ix → ∃ x z : F, Buf.getU τ A ix = some x ∧
        Buf.getU κ C ix = some z ∧ x = z * ν := by
  obtain ⟨ρ, ρ', h1, h2, h3, h4, h5, h6⟩ := environments dn hn rn c pn v hv
  have fs := adjoint_cacheFree hsi (cacheFree_subst hn e he)
  have hN := value_at h1 (adjoint_cacheFree hni hn) dni rni pni hν
  have hN0 : (den ρ ni).dims = [] := hN.1.symm
  have hNv : ν = (den ρ ni).val [] := Option.some.inj (hN.2 [] (by rw [hN0]; exact .nil))
  have L := chain h3 h4 (h5 i hi) (by rw [← h3]; exact h6 i hi) hni hN0 e hsi hei hei he hd hp
    (compat_at h2 (adjoint_cacheFree hei he) di ri hC)
  have a := value_at h1 fs ds rs ps hA
  have z := value_at h2 (adjoint_cacheFree hei he) di ri pi hC
  refine ⟨by rw [a.1, z.1, L.dimsA], fun ix hix => ?_⟩
  rw [z.1] at hix
  refine ⟨_, _, a.2 ix (by rw [L.dimsA]; exact hix), z.2 ix hix, ?_⟩
  rw [L.val ix hix, if_pos rfl, mul_zero, zero_add, hNv]

/-- Gradients: for a scalar expression `e` and a target `t` of any shape that occurs only in `n`, the
gradient of `e` with `n` in place of `i` is the gradient of `n` times the derivative of `e` with respect
to `i`. -/
theorem C85_gradient {i t : Id} {n e nt st ei : Node F} {τ κ : BTy}
    (hi : Γ i = .scalar) (hnt : n.adjoint t = some nt)
    (hst : (subst i n e).adjoint t = some st) (hei : e.adjoint i = some ei)
    (dn : FnImpl Γ n (Γ i)) (dnt : FnImpl Γ nt (Γ t)) (ds : FnImpl Γ st τ)
    (di : FnImpl Γ ei κ) (hn : CacheFree n) (he : CacheFree e) (hd : DivisionOk e) (hp : Plain i e)
    (hs : AllScalar Γ e) (hte : e.contains t = false)
    (rn : FnImpl.Regular dn) (rnt : FnImpl.Regular dnt) (rs : FnImpl.Regular ds)
    (ri : FnImpl.Regular di) (c : Ctx F Γ) (hct : c t ≠ none) (v : Buf F (Γ i)) (ν : Buf F (Γ t))
    (pn : PowSafeIn c n) (pnt : PowSafeIn c nt) (ps : PowSafeIn c st)
    (pi : PowSafeIn (c.write i v) ei) (hv : (dn.evaluate c).1 = .ok v) (hν : (dnt.evaluate c).1 = .ok ν)
    (A : Buf F τ) (hA : (ds.evaluate c).1 = .ok A)
    (C : Buf F κ) (hC : (di.evaluate (c.write i v)).1 = .ok C) :
    Buf.dims τ A = Buf.dims (Γ t) ν ∧ ∃ z : F, Buf.dims κ C = [] ∧ Buf.getU κ C [] = some z ∧
      ∀ ix, InBounds (Buf.dims (Γ t) ν) ix → ∃ x y : F, Buf.getU τ A ix = some x ∧
        Buf.getU (Γ t) ν ix = some y ∧ x = z * y := by
  obtain ⟨ρ, ρ', h1, h2, h3, h4, h5, h6⟩ := environments dn hn rn c pn v hv
  have fs := adjoint_cacheFree hst (cacheFree_subst hn e he)
  have hN := value_at h1 (adjoint_cacheFree hnt hn) dnt rnt pnt hν
  have htv := (fixedSize_of_adjoint hnt hn dn dnt).2
  have hN0 : (den ρ nt).dims = (ρ t).dims := by
    cases hb : c t with
    | none => exact absurd hb hct
    | some b => rw [← hN.1, ← (h1 t b hb).1]; exact fixed_dims htv ν b
  have L := chain_gradient h3 h4 h6 (h6 i hi) hnt hN0 e hst hei hs hte he hd hp
    (compat_at h1 fs ds rs hA)
  have a := value_at h1 fs ds rs ps hA
  have z := value_at h2 (adjoint_cacheFree hei he) di ri pi hC
  refine ⟨by rw [a.1, hN.1, L.dimsA], _, by rw [z.1, L.dimsC], z.2 [] (by rw [L.dimsC]; exact .nil), ?_⟩
  intro ix hix
  rw [hN.1] at hix
  exact ⟨_, _, a.2 ix (by rw [L.dimsA]; exact hix), hN.2 ix hix, L.val ix hix⟩

omit [LawfulPow F] in
/-- All evaluations that the chain rule speaks of succeed when the variables have values. -/
theorem C85_evaluates {i t : Id} {n e nt st et ei : Node F} {τ σ κ η θ : BTy}
    (hi : Γ i ≠ .vec) (hnt : n.adjoint t = some nt)
    (hst : (subst i n e).adjoint t = some st) (het : e.adjoint t = some et) (hei : e.adjoint i = some ei)
    (d : FnImpl Γ e η)
    (dn : FnImpl Γ n (Γ i)) (dnt : FnImpl Γ nt θ) (ds : FnImpl Γ st τ) (dt : FnImpl Γ et σ)
    (di : FnImpl Γ ei κ) (hn : CacheFree n) (he : CacheFree e) (hp : Plain i e)
    (rn : FnImpl.Regular dn) (rnt : FnImpl.Regular dnt) (rs : FnImpl.Regular ds)
    (rt : FnImpl.Regular dt) (ri : FnImpl.Regular di) (c : Ctx F Γ)
    (cn : ∀ j, n.contains j = true → c j ≠ none) (ce : ∀ j, e.contains j = true → j ≠ i → c j ≠ none)
    (ct : c t ≠ none) :
    ∃ v, (dn.evaluate c).1 = .ok v ∧ (∃ ν, (dnt.evaluate c).1 = .ok ν) ∧
      (∃ A, (ds.evaluate c).1 = .ok A) ∧ (∃ B, (dt.evaluate (c.write i v)).1 = .ok B) ∧
      ∃ C, (di.evaluate (c.write i v)).1 = .ok C := by
  have hU : ∀ n, (ScalarFns.fromUsize n : Option F) ≠ none := fun n => by
    rw [LawfulScalar.fromUsize_eq]; simp
  obtain ⟨fn, tv⟩ := fixedSize_of_adjoint hnt hn dn dnt
  have fe := (fixedSize_of_adjoint het he d dt).1
  obtain ⟨dsub⟩ := C52_type dn d
  have hsub := cacheFree_subst (i := i) hn e he
  have fsub := (fixedSize_of_adjoint hst hsub dsub ds).1
  have run : ∀ {m : Node F} {ω : BTy} (dm : FnImpl Γ m ω), FixedSize Γ m → FnImpl.Regular dm →
      ∀ c' : Ctx F Γ, (∀ j, NeedsId m j → c' j ≠ none) → ∃ w, (dm.evaluate c').1 = .ok w := by
    intro m ω dm hfm hrm c' hc'
    obtain ⟨w, c'', hw⟩ := (dm.total hU hfm hrm.inRange (P := NeedsId m) fun _ h => h).1 c' hc'
    exact ⟨w, congrArg Prod.fst hw⟩
  obtain ⟨v, hv⟩ := run dn fn rn c fun j hj => cn j (contains_of_needs hj)
  have cw : ∀ j, (j ≠ i → c j ≠ none) → (c.write i v) j ≠ none := by
    intro j h
    by_cases hj : j = i
    · subst hj; simp [Ctx.write]
    · simpa [Ctx.write, hj] using h hj
  refine ⟨v, hv, run dnt (adjoint_fixedSize hnt hn fn tv) rnt c ?_,
    run ds (adjoint_fixedSize hst hsub fsub tv) rs c ?_,
    run dt (adjoint_fixedSize het he fe tv) rt _ ?_, run di (adjoint_fixedSize hei he fe hi) ri _ ?_⟩
  · intro j hj
    rcases adjoint_needs hnt hj with h | rfl
    exacts [cn j (contains_of_needs h), ct]
  · intro j hj
    rcases adjoint_needs hst hj with h | rfl
    · rcases (C52_contains i n e hp j).1 (contains_of_needs h) with ⟨h1, h2⟩ | ⟨-, h⟩
      exacts [ce j h1 h2, cn j h]
    · exact ct
  · intro j hj
    refine cw j fun hji => ?_
    rcases adjoint_needs het hj with h | rfl
    exacts [ce j (contains_of_needs h) hji, ct]
  · intro j hj
    refine cw j fun hji => ?_
    rcases adjoint_needs hei hj with h | rfl
    exacts [ce j (contains_of_needs h) hji, absurd rfl hji]

end

/-! ### A concrete case: `s·x + z·x` with `z²` for `s`, for a vector `x` -/

/-- `0` and `1` are vectors, the rest scalars. -/
private def c85Ty : Id → BTy
  | 0 => .array [2]
  | 1 => .array [2]
  | _ => .scalar

private def c85Vec (a b : ℤ) : Buf ℤ (.array [2]) :=
  Buf.build (.array [2]) () fun ix => if ix = [0] then a else b

/-- `x = [3, 4]`, `w = [2, 7]`, `s` unset, `y = 30`, `z = 5`. -/
private def c85Ctx : Ctx ℤ c85Ty
  | 0 => some (c85Vec 3 4)
  | 1 => some (c85Vec 2 7)
  | 2 => none
  | 3 => some (30 : ℤ)
  | 4 => some (5 : ℤ)
  | _ + 5 => none

private def c85N : FnImpl (F := ℤ) c85Ty (.un .square (.var 4)) .scalar := .un .square (.var (Γ := c85Ty) 4)

private def c85Nt : FnImpl (F := ℤ) c85Ty (.mul (.un .double (.var 4)) (.varAdj 4 4)) .scalar :=
  .mul (.un .double (.var (Γ := c85Ty) 4)) (.varAdj (Γ := c85Ty) 4 4 .ss (Nat.zero_le _)) .ss

private def c85E : Node ℤ := .add (.mul (.var 2) (.var 0)) (.mul (.var 4) (.var 0))

/-- The derivative of `s·x + z·x`, given that of the factors. -/
private def c85D {m m' : Node ℤ} (t : Id) (k : ConcatImpl (c85Ty 4) (c85Ty t) .scalar)
    (k' : ConcatImpl (c85Ty 0) (c85Ty t) (.array [2])) (d : FnImpl c85Ty m .scalar)
    (d' : FnImpl c85Ty m' .scalar) : FnImpl (F := ℤ) c85Ty (.add
      (.add (.mul m' (.var 0)) (.mul (.varAdj 0 t) m))
      (.add (.mul (.varAdj 4 t) (.var 0)) (.mul (.varAdj 0 t) (.var 4)))) (.array [2]) :=
  .add
    (.add (.mul d' (.var (Γ := c85Ty) 0) (.sa [2]))
      (.mul (.varAdj (Γ := c85Ty) 0 t k' (by decide)) d (.as [2])) (.aa [2]))
    (.add (.mul (.varAdj (Γ := c85Ty) 4 t k (by decide)) (.var (Γ := c85Ty) 0) (.sa [2]))
      (.mul (.varAdj (Γ := c85Ty) 0 t k' (by decide)) (.var (Γ := c85Ty) 4) (.as [2])) (.aa [2]))
    (.aa [2])

/-- At `z = 5` the derivative of `z²·x + z·x` is `11·[3, 4] = [3, 4] + [3, 4]·10`. -/
example : ∀ ix, InBounds [2] ix → ∃ x y z : ℤ,
    Buf.getU (.array [2]) (c85Vec 33 44) ix = some x ∧ Buf.getU (.array [2]) (c85Vec 3 4) ix = some y ∧
      Buf.getU (.array [2]) (c85Vec 3 4) ix = some z ∧ x = y + z * 10 :=
  (C85_chain (i := 2) (t := 4) (e := c85E) (by decide) rfl rfl rfl rfl rfl rfl c85N c85Nt
    (c85D 4 .ss (.as [2]) c85N c85Nt) (c85D 4 .ss (.as [2]) (.var (Γ := c85Ty) 2) (.varAdj (Γ := c85Ty) 2 4 .ss (Nat.zero_le _)))
    (c85D 2 .ss (.as [2]) (.var (Γ := c85Ty) 2) (.varAdj (Γ := c85Ty) 2 2 .ss (Nat.zero_le _)))
    (by simp [CacheFree]) (by simp [CacheFree, c85E]) (.inr (by simp [c85E])) (by simp [c85E, Plain])
    (by simp [c85N, FnImpl.Regular]) (by simp [c85Nt, FnImpl.Regular])
    (by simp [c85D, c85N, c85Nt, FnImpl.Regular]) (by simp [c85D, FnImpl.Regular])
    (by simp [c85D, FnImpl.Regular]) c85Ctx (25 : ℤ) 10 (fun _ _ => by simp [PowSafe])
    (fun _ _ => by simp [PowSafe]) (fun _ _ => by simp [PowSafe]) (fun _ _ => by simp [PowSafe])
    (fun _ _ => by simp [PowSafe]) rfl rfl (c85Vec 33 44) rfl (c85Vec 3 4) rfl (c85Vec 3 4) rfl).2.2

/-- All of them evaluate. -/
example : ∃ v : ℤ, (c85N.evaluate c85Ctx).1 = .ok v := by
  obtain ⟨v, hv, -⟩ := C85_evaluates (i := 2) (t := 4) (e := c85E) (by decide) rfl rfl rfl rfl
    (.add (.mul (.var (Γ := c85Ty) 2) (.var (Γ := c85Ty) 0) (.sa [2]))
      (.mul (.var (Γ := c85Ty) 4) (.var (Γ := c85Ty) 0) (.sa [2])) (.aa [2])) c85N c85Nt
    (c85D 4 .ss (.as [2]) c85N c85Nt) (c85D 4 .ss (.as [2]) (.var (Γ := c85Ty) 2) (.varAdj (Γ := c85Ty) 2 4 .ss (Nat.zero_le _)))
    (c85D 2 .ss (.as [2]) (.var (Γ := c85Ty) 2) (.varAdj (Γ := c85Ty) 2 2 .ss (Nat.zero_le _)))
    (by simp [CacheFree]) (by simp [CacheFree, c85E]) (by simp [c85E, Plain])
    (by simp [c85N, FnImpl.Regular]) (by simp [c85Nt, FnImpl.Regular])
    (by simp [c85D, c85N, c85Nt, FnImpl.Regular]) (by simp [c85D, FnImpl.Regular])
    (by simp [c85D, FnImpl.Regular]) c85Ctx
    (fun j hj => by
      simp only [Node.contains, beq_iff_eq] at hj
      subst hj
      simp [c85Ctx])
    (fun j hj hj' => by
      simp only [c85E, Node.contains, beq_iff_eq, Bool.or_eq_true] at hj
      rcases hj with (rfl | rfl) | (rfl | rfl)
      · exact absurd rfl hj'
      all_goals simp [c85Ctx])
    (by simp [c85Ctx])
  exact ⟨v, hv⟩

/-- `z²` with `z²` for `z`: at `z = 5` the derivative `500` of `z⁴` is `50·10`. -/
example : ∃ x z : ℤ, Buf.getU .scalar (500 : ℤ) [] = some x ∧ Buf.getU .scalar (50 : ℤ) [] = some z ∧
    x = z * 10 :=
  (C85_chain_self (i := 4) (e := .un .square (.var 4)) rfl rfl rfl rfl c85N c85Nt
    (.mul (.un .double c85N) c85Nt .ss) c85Nt (by simp [CacheFree]) (by simp [CacheFree])
    (.inr (by simp)) (by simp [Plain]) (by simp [c85N, FnImpl.Regular]) (by simp [c85Nt, FnImpl.Regular])
    (by simp [c85N, c85Nt, FnImpl.Regular]) (by simp [c85Nt, FnImpl.Regular]) c85Ctx (25 : ℤ) 10
    (fun _ _ => by simp [PowSafe]) (fun _ _ => by simp [PowSafe]) (fun _ _ => by simp [PowSafe])
    (fun _ _ => by simp [PowSafe]) rfl rfl (500 : ℤ) rfl (50 : ℤ) rfl).2 [] .nil

/-! ### A concrete case: the squared error `(s - y)²` with `x·w` for `s` -/

private def c85M : FnImpl (F := ℤ) c85Ty (.contract 1 (.var 0) (.var 1)) .scalar :=
  .contract (.var (Γ := c85Ty) 0) (.var (Γ := c85Ty) 1) (.dot 2)

private def c85Mt : FnImpl (F := ℤ) c85Ty (.add (.contract 1 (.var 0) (.varAdj 1 1))
    (.contract 1 (.varAdj 0 1) (.var 1))) (.array [2]) :=
  .add (.contract (.var (Γ := c85Ty) 0) (.varAdj (Γ := c85Ty) 1 1 (.aa [2] [2] (by decide)) (by decide)) (.vm 2 2))
    (.contract (.varAdj (Γ := c85Ty) 0 1 (.aa [2] [2] (by decide)) (by decide)) (.var (Γ := c85Ty) 1) (.mv 2 2))
    (.aa [2])

/-- The gradient `[24, 32]` of the squared error is `[3, 4]` times its derivative `8` at `s = 34`. -/
example : ∀ ix, InBounds [2] ix → ∃ x y : ℤ, Buf.getU (.array [2]) (c85Vec 24 32) ix = some x ∧
    Buf.getU (.array [2]) (c85Vec 3 4) ix = some y ∧ x = 8 * y := by
  obtain ⟨-, z, -, hz, h⟩ := C85_gradient (i := 2) (t := 1)
    (e := .un .square (.sub (.var 2) (.var 3))) rfl rfl rfl rfl c85M c85Mt
    (.mul (.un .double (.sub c85M (.var (Γ := c85Ty) 3) .ss))
      (.sub c85Mt (.varAdj (Γ := c85Ty) 3 1 (.sa [2]) (by decide)) (.aa [2])) (.sa [2]))
    (.mul (.un .double (.sub (.var (Γ := c85Ty) 2) (.var (Γ := c85Ty) 3) .ss))
      (.sub (.varAdj (Γ := c85Ty) 2 2 .ss (by decide)) (.varAdj (Γ := c85Ty) 3 2 .ss (by decide)) .ss) .ss)
    (by simp [CacheFree]) (by simp [CacheFree]) (.inr (by simp)) (by simp [Plain])
    ⟨fun j hj => by
      simp only [Node.contains, beq_iff_eq, Bool.or_eq_true] at hj
      rcases hj with rfl | rfl <;> rfl, by simp, by simp⟩ rfl
    (by simp [c85M, FnImpl.Regular, c85Ty]) (by simp [c85Mt, FnImpl.Regular, c85Ty])
    (by simp [c85M, c85Mt, FnImpl.Regular, c85Ty]) (by simp [FnImpl.Regular, c85Ty]) c85Ctx
    (by simp [c85Ctx]) (34 : ℤ) (c85Vec 3 4)
    (fun _ _ => by simp [PowSafe]) (fun _ _ => by simp [PowSafe]) (fun _ _ => by simp [PowSafe])
    (fun _ _ => by simp [PowSafe]) rfl rfl (c85Vec 24 32) rfl (8 : ℤ) rfl
  cases hz
  exact h

/-- In a field every expression may divide. -/
theorem lawfulDiv_field (K : Type) [Field K] : LawfulDiv K := ⟨fun y => y⁻¹, div_eq_mul_inv⟩

end Aegir.Props
