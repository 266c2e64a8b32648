import Verif.Lemmas.Forward
import Verif.Props.C19_Tensor
import Verif.Props.C63_Total
/-!
# C72: evaluation over dual numbers is forward-mode differentiation

The crate is generic in its scalar type. Evaluating an expression in a context of dual numbers
`x + ε y` gives, entry by entry, its value at `x` and the derivative of the value in the direction `y`.
For this no adjoint is needed: it also holds for expressions that have none (`tan`, `erf`), whose
adjoints do not evaluate (vectors of dynamic length) or are wrong (sums, C31; products, C32).
-/

namespace Aegir.Props

open Aegir Aegir.Spec TrivSqZeroExt

variable {Γ : Id → BTy} {e : Node ℝ} {τ : BTy}

open Filter Topology in
/-- Let `v s` be the value of an expression at time `s`, when all entries of the context move along
straight lines, and `w` its value over the dual numbers: `w` has an entry for each entry of `v 0`, whose
real part is the latter and whose dual part is the derivative of the entry of `v` at time `0`. -/
theorem C72_forward (hf : CacheFree e) (d : FnImpl Γ e τ) (hr : FnImpl.Regular d) (c : Ctx Jet Γ)
    (hs : SmoothFor (envOf c) e) {w : Buf Jet τ} (hw : ((d.conv inl).evaluate c).1 = .ok w)
    {v : ℝ → Buf ℝ τ} (hv : ∀ s, (d.evaluate (convCtx (Jet.at s) c)).1 = .ok (v s)) :
    Buf.dims τ w = Buf.dims τ (v 0) ∧ ∀ ix, InBounds (Buf.dims τ (v 0)) ix →
      ∃ z : Jet, Buf.getU τ w ix = some z ∧ Buf.getU τ (v 0) ix = some z.fst ∧
        HasDerivAt (fun s => (Buf.getU τ (v s) ix).getD 0) z.snd 0 := by
  have hc := compat_of_eval hf d hr (hv 0)
  rw [envOf_convCtx] at hc
  have hT : ∀ᶠ s in 𝓝 (0 : ℝ), IsTensor (v s) (den (envAt (envOf c) s) e) := by
    filter_upwards [powSafe_near hc hs] with s h
    have := C19_value_cache_free_partial d hf (convCtx (Jet.at s) c) (by rwa [envOf_convCtx]) hr _ (hv s)
    rwa [envOf_convCtx] at this
  obtain ⟨wd, wv⟩ := C19_value_cache_free_partial (d.conv inl) (cacheFree_conv _ hf) c
    (powSafe_jet hc hs) (regular_conv _ d hr) w hw
  obtain ⟨vd, vv⟩ := hT.self_of_nhds
  have hd := den_jet_dims (envOf c) 0 e
  refine ⟨by rw [wd, vd, hd], fun ix hix => ?_⟩
  rw [vd] at hix
  obtain ⟨h1, h2⟩ := den_forward hc hs ix hix
  refine ⟨_, wv ix (by rwa [hd]), by rw [h1]; exact vv ix hix, h2.congr_of_eventuallyEq ?_⟩
  filter_upwards [hT] with s h
  rw [h.2 ix (by rwa [den_dims_congr (ρ := envAt (envOf c) s) (ρ' := envAt (envOf c) 0)
    (fun _ => rfl) e]), Option.getD_some]

/-- With variables of fixed size no evaluation fails: values and derivatives always exist. -/
theorem C72_total (hf : CacheFree e) (hz : FixedSize Γ e) (d : FnImpl Γ e τ) (hr : FnImpl.Regular d)
    (c : Ctx Jet Γ) (hc : ∀ i, NeedsId e i → c i ≠ none) (hs : SmoothFor (envOf c) e) :
    ∃ (w : Buf Jet τ) (v : ℝ → Buf ℝ τ), ((d.conv inl).evaluate c).1 = .ok w ∧
      (∀ s, (d.evaluate (convCtx (Jet.at s) c)).1 = .ok (v s)) ∧
      Buf.dims τ w = Buf.dims τ (v 0) ∧ ∀ ix, InBounds (Buf.dims τ (v 0)) ix →
        ∃ z : Jet, Buf.getU τ w ix = some z ∧ Buf.getU τ (v 0) ix = some z.fst ∧
          HasDerivAt (fun s => (Buf.getU τ (v s) ix).getD 0) z.snd 0 := by
  obtain ⟨w, c', hw⟩ := ((d.conv inl).total (by simp [LawfulScalar.fromUsize_eq])
    (fixedSize_conv _ hz) (regular_conv _ d hr).inRange (P := NeedsId e)
    (fun i hi => needsId_conv _ hi)).1 c hc
  have hex : ∀ s, ∃ v, (d.evaluate (convCtx (Jet.at s) c)).1 = .ok v := fun s => by
    obtain ⟨v, c', hv⟩ := (d.total (by simp [LawfulScalar.fromUsize_eq]) hz hr.inRange
      (P := NeedsId e) (fun _ hi => hi)).1 (convCtx (Jet.at s) c)
      (fun i hi => by simpa [convCtx] using hc i hi)
    exact ⟨v, congrArg Prod.fst hv⟩
  choose v hv using hex
  have hw' : ((d.conv inl).evaluate c).1 = .ok w := congrArg Prod.fst hw
  exact ⟨w, v, hw', hv, C72_forward hf d hr c hs hw' hv⟩

/-- Forward mode agrees with the adjoints, where these are right: the dual part of an entry is the sum,
over all entries `S` of the context that move, of the entry of the evaluated adjoint times the
velocity. -/
theorem C72_adjoint {S : Finset (Id × Idx)} {adj : Id → Node ℝ} {σ : Id → BTy} (hf : CacheFree e)
    (d : FnImpl Γ e τ) (hr : FnImpl.Regular d) (hne : S.Nonempty)
    (ha : ∀ p ∈ S, e.adjoint p.1 = some (adj p.1)) (da : ∀ p : S, FnImpl Γ (adj p.1.1) (σ p.1.1))
    (hra : ∀ p, FnImpl.Regular (da p)) (c : Ctx Jet Γ) (hc : ∀ i, NeedsId e i → c i ≠ none)
    (hS : ∀ p ∈ S, ∃ b, c p.1 = some b ∧ InBounds (Buf.dims _ b) p.2)
    (hm : ∀ i b ix x, c i = some b → Buf.getU _ b ix = some x → x.snd ≠ 0 → (i, ix) ∈ S)
    (hs : SmoothFor (envOf c) e) (hs' : ∀ p ∈ S, Smooth (envOf (convCtx (Jet.at 0) c)) p.1 e) :
    ∃ w, ((d.conv inl).evaluate c).1 = .ok w ∧ ∀ ix, InBounds (Buf.dims τ w) ix →
      ∃ (z : Jet) (g : S → ℝ), Buf.getU τ w ix = some z ∧
        (∀ p : S, ∃ a, ((da p).evaluate (convCtx (Jet.at 0) c)).1 = .ok a ∧
          Buf.getU _ a (ix ++ p.1.2) = some (g p)) ∧
        z.snd = ∑ p : S, g p * ((envOf c p.1.1).val p.1.2).snd := by
  obtain ⟨p₀, hp₀⟩ := hne
  have hz := (fixedSize_of_adjoint (ha p₀ hp₀) hf d (da ⟨p₀, hp₀⟩)).1
  obtain ⟨w, v, hw, hv, hd, h⟩ := C72_total hf hz d hr c hc hs
  refine ⟨w, hw, fun ix hix => ?_⟩
  rw [hd] at hix
  obtain ⟨z, hz, -, hD⟩ := h ix hix
  obtain ⟨g, hg, hC⟩ := C63_chain hf d hr ⟨p₀, hp₀⟩ ha da hra (convCtx (Jet.at 0) c)
    (fun i hi => by simpa [convCtx] using hc i hi)
    (fun p hp => by
      obtain ⟨b, hb, hi⟩ := hS p hp
      exact ⟨Buf.map _ b (Jet.at 0), by simp [convCtx, hb], by rwa [Buf.dims_map]⟩)
    hs' (hv 0) hix (γ := fun s p => Jet.at s ((envOf c p.1.1).val p.1.2))
    (γ' := fun p => ((envOf c p.1.1).val p.1.2).snd) (s := 0) (fun p => by
      have := ((hasDerivAt_id (0 : ℝ)).mul_const ((envOf c p.1.1).val p.1.2).snd).const_add
        ((envOf c p.1.1).val p.1.2).fst
      simpa [Jet.at] using this)
    (by
      funext p
      obtain ⟨b, hb, hi⟩ := hS p.1 p.2
      obtain ⟨x, hx⟩ := Buf.getU_some _ b _ hi
      simp [entries, convCtx, hb, envOf, Tensor.ofBuf, Buf.getU_map, hx])
  refine ⟨z, g, hz, hg, hD.unique ?_⟩
  refine hC.congr_of_eventuallyEq (.of_forall fun s => ?_)
  have hset : setEntries (convCtx (Jet.at 0) c) S (fun p => Jet.at s ((envOf c p.1.1).val p.1.2))
      = convCtx (Jet.at s) c := by
    funext i
    cases hci : c i with
    | none => simp [setEntries, convCtx, hci]
    | some b =>
      simp only [setEntries, convCtx, hci, Option.map_some]
      congr 1
      refine Buf.ext _ _ _ (by simp [Buf.shape_build, Buf.shape_map]) fun jx hj => ?_
      rw [Buf.dims_build, ← Buf.dims, Buf.dims_map] at hj
      obtain ⟨x, hx⟩ := Buf.getU_some _ b _ hj
      rw [Buf.getU_build _ _ _ _ (by rwa [Buf.shape_map]), Buf.getU_map, Buf.getU_map, hx]
      by_cases hm' : (i, jx) ∈ S
      · simp [hm', envOf, hci, Tensor.ofBuf, hx]
      · have : x.snd = 0 := by
          by_contra h0
          exact hm' (hm i b jx x hci hx h0)
        simp [hm', Jet.at, this]
  simp only [alongAll, hset, hv s]

/-! ### Concrete cases -/

/-- `Σ tan(x)` for a vector `x` of any length: `tan` has no adjoint, the adjoint of a sum is not summed
(C31), and no adjoint of an expression in a `Vec` evaluates. -/
def c72E : Node ℝ := .sum (.un .tan (.var 0))

example : c72E.adjoint 0 = none := rfl

/-- Evaluation of `c72E`. -/
def c72D : FnImpl (fun _ => .vec) c72E .scalar := .sum (.un .tan (.var (Γ := fun _ => .vec) 0))

/-- For every vector without odd multiples of `π/2`, and every direction, dual numbers give the
derivative of `c72E`. -/
example (x : List Jet) (hx : ∀ z ∈ x, Real.cos z.fst ≠ 0) :
    ∃ z : Jet, ((c72D.conv inl).evaluate (fun _ => some x)).1 = .ok z ∧
      ∃ v : ℝ → ℝ, (∀ s, (c72D.evaluate (fun _ => some (x.map (Jet.at s)))).1 = .ok (v s)) ∧
        v 0 = z.fst ∧ HasDerivAt v z.snd 0 := by
  have hs : SmoothFor (envOf (Γ := fun _ => .vec) (fun _ => some x)) c72E := by
    refine ⟨trivial, fun ix hix => ?_⟩
    have hix : InBounds [x.length] ix := hix
    cases hix with | cons hi h => cases h with | nil =>
    rename_i i
    have : (den (fun i => tensorAt 0 (envOf (Γ := fun _ => .vec) (fun _ => some x) i))
        (.var 0)).val [i] = (x[i]).fst := by
      have h1 : Buf.getU .vec x [i] = some x[i] := List.getElem?_eq_getElem hi
      show Jet.at 0 ((Buf.getU .vec x [i]).getD 0) = _
      rw [h1]
      simp [Jet.at]
    rw [this]
    exact hx _ (List.getElem_mem hi)
  obtain ⟨-, h⟩ := C72_forward (Γ := fun _ => .vec) (e := c72E) (by simp [CacheFree, c72E]) c72D
    trivial (fun _ => some x) hs rfl (v := fun s => _) (fun s => rfl)
  obtain ⟨z, h1, h2, h3⟩ := h [] .nil
  exact ⟨z, congrArg Res.ok (Option.some.inj h1), _, fun s => rfl, Option.some.inj h2, h3⟩

/-- The squared error `(⟨w, x⟩ + b - y)²` of a linear model, over the dual numbers. -/
def c72C (n : Nat) (w x : NArr Jet [n]) (y b : Jet) : Ctx Jet (c63Ty n)
  | 0 => some w
  | 1 => some x
  | 3 => some b
  | _ + 2 => some y

/-- Weights and bias of a model with two weights move in any direction: the derivative of the loss is
what its two adjoints predict. -/
example (w x : NArr Jet [2]) (y b : Jet) (hx : ∀ ix z, Buf.getU (.array [2]) x ix = some z → z.snd = 0)
    (hy : y.snd = 0) : ∃ (z : Jet) (g : c63S → ℝ),
    ((FnImpl.conv inl (.un .square (c63RD 2))).evaluate (c72C 2 w x y b)).1 = .ok z ∧
    (∀ p : c63S, ∃ a, ((c63DA 2 p.1.1).evaluate (convCtx (Jet.at 0) (c72C 2 w x y b))).1 = .ok a ∧
      Buf.getU _ a p.1.2 = some (g p)) ∧
    z.snd = ∑ p : c63S, g p * ((envOf (c72C 2 w x y b) p.1.1).val p.1.2).snd := by
  have hS : ∀ p ∈ c63S, p = (0, [0]) ∨ p = (0, [1]) ∨ p = (3, []) := fun p hp => by
    simpa [c63S] using hp
  obtain ⟨z, hz, h⟩ := C72_adjoint (Γ := c63Ty 2) (e := .un .square c63R) (S := c63S) (adj := c63A)
    (σ := c63Ty 2) (by simp [CacheFree, c63R]) (.un .square (c63RD 2))
    ⟨⟨⟨trivial, trivial, by simp [c63Ty], by simp [c63Ty]⟩, trivial⟩, trivial, by simp [c63Ty]⟩ ⟨(3, []), by simp [c63S]⟩
    (fun p _ => rfl) (fun p => c63DA 2 p.1.1) (fun p => by
      rcases hS p.1 p.2 with h | h | h <;> rw [h] <;>
        simp [FnImpl.Regular, c63DA, c63RD, c63Ty])
    (c72C 2 w x y b)
    (fun i _ => by unfold c72C; split <;> simp) (fun p hp => by
      rcases hS p hp with rfl | rfl | rfl
      · exact ⟨w, rfl, .cons (by simp) .nil⟩
      · exact ⟨w, rfl, .cons (by simp) .nil⟩
      · exact ⟨b, rfl, .nil⟩)
    (fun i b' ix z hi hz h0 => by
      match i, b', hi, hz with
      | 0, _, rfl, hz =>
        have hb : InBounds [2] ix :=
          (Buf.getU_isSome_iff (.array [2]) w ix).1 (Option.isSome_iff_exists.2 ⟨z, hz⟩)
        cases hb with | cons hj h => cases h with | nil =>
        rename_i j _
        have : j = 0 ∨ j = 1 := by omega
        rcases this with rfl | rfl <;> simp [c63S]
      | 1, _, rfl, hz => exact absurd (hx ix z hz) h0
      | 2, _, rfl, hz =>
        have hz : (if ix = [] then some y else none) = some z := hz
        split at hz
        · cases hz; exact absurd hy h0
        · exact absurd hz nofun
      | 3, _, rfl, hz =>
        have hz : (if ix = [] then some b else none) = some z := hz
        split at hz
        · simp [c63S, *]
        · exact absurd hz nofun
      | i + 4, _, rfl, hz =>
        have hz : (if ix = [] then some y else none) = some z := hz
        split at hz
        · cases hz; exact absurd hy h0
        · exact absurd hz nofun)
    ⟨⟨⟨⟨trivial, trivial⟩, trivial⟩, trivial⟩, fun _ _ => trivial⟩ (fun p hp => by
      refine ⟨⟨⟨⟨trivial, trivial, ?_⟩, trivial⟩, trivial⟩, fun _ _ => trivial⟩
      rcases hS p hp with rfl | rfl | rfl
      · exact .inr (.inr (.inr ⟨rfl, ⟨2, rfl, rfl, rfl⟩, .var 0⟩))
      · exact .inr (.inr (.inr ⟨rfl, ⟨2, rfl, rfl, rfl⟩, .var 0⟩))
      · exact .inl rfl)
  obtain ⟨z', g, h1, h2, h3⟩ := h [] .nil
  cases h1
  exact ⟨z, g, hz, h2, h3⟩

end Aegir.Props
