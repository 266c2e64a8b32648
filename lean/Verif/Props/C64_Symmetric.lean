import Verif.Lemmas.SecondEval
import Verif.Props.C28_C32_Derivatives
/-!
# C64: second adjoints do not depend on the order of differentiation
-/

namespace Aegir.Props

open Aegir Aegir.Spec

variable {Γ : Id → BTy} {t u : Id} {e et eu etu eut : Node ℝ} {τ σt σu σtu σut : BTy}

/-- The adjoint with respect to `u` of the adjoint with respect to `t` evaluates to the mixed second
derivative. -/
theorem C64_mixed (hf : CacheFree e) (ht : e.adjoint t = some et) (htu : et.adjoint u = some etu)
    (d : FnImpl Γ e τ) (dt : FnImpl Γ et σt) (dtu : FnImpl Γ etu σtu) (hr : FnImpl.Regular d)
    (hrt : FnImpl.Regular dt) (hrtu : FnImpl.Regular dtu) (c : Ctx ℝ Γ)
    (hc : ∀ i, NeedsId e i → c i ≠ none) {bt : Buf ℝ (Γ t)} {bu : Buf ℝ (Γ u)} (hbt : c t = some bt)
    (hbu : c u = some bu) (hst : Smooth (envOf c) t e) (hsu : Smooth (envOf c) u e)
    (hstu : Smooth (envOf c) u et) :
    ∃ v a, (d.evaluate c).1 = .ok v ∧ (dtu.evaluate c).1 = .ok a ∧
      ∀ ix K L, InBounds (Buf.dims τ v) ix → (hK : InBounds (Buf.dims _ bt) K) →
        (hL : InBounds (Buf.dims _ bu) L) →
        Buf.getU σtu a (ix ++ K ++ L) = some
          (fderiv ℝ (fderiv ℝ (alongAll d c {(t, K), (u, L)} ix)) (entries c {(t, K), (u, L)})
            (Pi.single ⟨(u, L), by simp⟩ 1) (Pi.single ⟨(t, K), by simp⟩ 1)) := by
  obtain ⟨v, a, hv, ha, h⟩ := eval_mixed hf ht htu d dt dtu hr hrt hrtu c hc hbt hbu hst hsu hstu
  exact ⟨v, a, hv, ha, fun ix K L hix hK hL =>
    (h {(t, K), (u, L)} ix K L hix hK hL ⟨(t, K), by simp⟩ ⟨(u, L), by simp⟩ rfl rfl
      fun r hr => by simpa using hr).2⟩

/-- Differentiating with respect to `t` and then `u`, or the other way round, makes different
expressions with the same values: only the axes of the two targets are exchanged. -/
theorem C64_symmetric (hf : CacheFree e) (ht : e.adjoint t = some et) (htu : et.adjoint u = some etu)
    (hu : e.adjoint u = some eu) (hut : eu.adjoint t = some eut) (d : FnImpl Γ e τ)
    (dt : FnImpl Γ et σt) (dtu : FnImpl Γ etu σtu) (du : FnImpl Γ eu σu) (dut : FnImpl Γ eut σut)
    (hr : FnImpl.Regular d) (hrt : FnImpl.Regular dt) (hrtu : FnImpl.Regular dtu)
    (hru : FnImpl.Regular du) (hrut : FnImpl.Regular dut) (c : Ctx ℝ Γ)
    (hc : ∀ i, NeedsId e i → c i ≠ none) {bt : Buf ℝ (Γ t)} {bu : Buf ℝ (Γ u)} (hbt : c t = some bt)
    (hbu : c u = some bu) (hst : Smooth (envOf c) t e) (hsu : Smooth (envOf c) u e)
    (hstu : Smooth (envOf c) u et) (hsut : Smooth (envOf c) t eu) :
    ∃ v a a', (d.evaluate c).1 = .ok v ∧ (dtu.evaluate c).1 = .ok a ∧ (dut.evaluate c).1 = .ok a' ∧
      ∀ ix K L, InBounds (Buf.dims τ v) ix → InBounds (Buf.dims _ bt) K → InBounds (Buf.dims _ bu) L →
        ∃ g, Buf.getU σtu a (ix ++ K ++ L) = some g ∧ Buf.getU σut a' (ix ++ L ++ K) = some g := by
  obtain ⟨v, a, hv, ha, h⟩ := eval_mixed hf ht htu d dt dtu hr hrt hrtu c hc hbt hbu hst hsu hstu
  obtain ⟨v', a', hv', ha', h'⟩ := eval_mixed hf hu hut d du dut hr hru hrut c hc hbu hbt hsu hst hsut
  rw [hv] at hv'
  cases hv'
  refine ⟨v, a, a', hv, ha, ha', fun ix K L hix hK hL => ?_⟩
  obtain ⟨hC, h1⟩ := h {(t, K), (u, L)} ix K L hix hK hL ⟨(t, K), by simp⟩ ⟨(u, L), by simp⟩ rfl rfl
    fun r hr => by simpa using hr
  obtain ⟨-, h2⟩ := h' {(t, K), (u, L)} ix L K hix hL hK ⟨(u, L), by simp⟩ ⟨(t, K), by simp⟩ rfl rfl
    fun r hr => (by simpa using hr : r = (t, K) ∨ r = (u, L)).symm
  refine ⟨_, h1, h2.trans ?_⟩
  rw [hC.isSymmSndFDerivAt (by simp)]

/-! ### Concrete cases -/

/-- `0` is a scalar, `1` and `2` are vectors. -/
def c64Ty (n : Nat) : Id → BTy
  | 0 => .scalar
  | _ + 1 => .array [n]

/-- A context for it. -/
def c64C (n : Nat) (s : ℝ) (w x : NArr ℝ [n]) : Ctx ℝ (c64Ty n)
  | 0 => some s
  | 1 => some w
  | _ + 2 => some x

/-- `s · ⟨w, x⟩`, first with respect to `s` and then to `w`, or the other way round: both second
adjoints evaluate, and to the same vector, although the expressions differ. -/
example (n : Nat) (s : ℝ) (w x : NArr ℝ [n]) : ∃ (e et eu etu eut : Node ℝ)
    (d : FnImpl (c64Ty n) e .scalar) (dtu dut : FnImpl (c64Ty n) _ (.array [n])) (v : ℝ)
    (a a' : NArr ℝ [n]),
    e.adjoint 0 = some et ∧ et.adjoint 1 = some etu ∧ e.adjoint 1 = some eu ∧
    eu.adjoint 0 = some eut ∧ (d.evaluate (c64C n s w x)).1 = .ok v ∧
    ((dtu : FnImpl (c64Ty n) etu (.array [n])).evaluate (c64C n s w x)).1 = .ok a ∧
    ((dut : FnImpl (c64Ty n) eut (.array [n])).evaluate (c64C n s w x)).1 = .ok a' ∧
    ∀ k, InBounds [n] k → ∃ g, Buf.getU (.array [n]) a k = some g ∧
      Buf.getU (.array [n]) a' k = some g := by
  let v0 : FnImpl (c64Ty n) (.var 0 : Node ℝ) .scalar := .var (Γ := c64Ty n) 0
  let v1 : FnImpl (c64Ty n) (.var 1 : Node ℝ) (.array [n]) := .var (Γ := c64Ty n) 1
  let v2 : FnImpl (c64Ty n) (.var 2 : Node ℝ) (.array [n]) := .var (Γ := c64Ty n) 2
  let a00 : FnImpl (c64Ty n) (.varAdj 0 0 : Node ℝ) .scalar :=
    .varAdj (Γ := c64Ty n) 0 0 .ss (by simp [c64Ty, BTy.rank])
  let a10 : FnImpl (c64Ty n) (.varAdj 1 0 : Node ℝ) (.array [n]) :=
    .varAdj (Γ := c64Ty n) 1 0 (.as [n]) (by simp [c64Ty, BTy.rank])
  let a20 : FnImpl (c64Ty n) (.varAdj 2 0 : Node ℝ) (.array [n]) :=
    .varAdj (Γ := c64Ty n) 2 0 (.as [n]) (by simp [c64Ty, BTy.rank])
  let a01 : FnImpl (c64Ty n) (.varAdj 0 1 : Node ℝ) (.array [n]) :=
    .varAdj (Γ := c64Ty n) 0 1 (.sa [n]) (by simp [c64Ty, BTy.rank])
  let a11 : FnImpl (c64Ty n) (.varAdj 1 1 : Node ℝ) (.array [n, n]) :=
    .varAdj (Γ := c64Ty n) 1 1 (.aa [n] [n] (by simp)) (by simp [c64Ty, BTy.rank])
  let a21 : FnImpl (c64Ty n) (.varAdj 2 1 : Node ℝ) (.array [n, n]) :=
    .varAdj (Γ := c64Ty n) 2 1 (.aa [n] [n] (by simp)) (by simp [c64Ty, BTy.rank])
  let dot := FnImpl.contract v1 v2 (.dot n)
  -- with respect to `s`
  let dot0 := FnImpl.add (.contract v1 a20 (.dot n)) (.contract a10 v2 (.dot n)) .ss
  let d0 := FnImpl.add (.mul a00 dot .ss) (.mul dot0 v0 .ss) .ss
  -- with respect to `w`
  let dot1 := FnImpl.add (.contract v1 a21 (.vm n n)) (.contract a11 v2 (.mv n n)) (.aa [n])
  let d1 := FnImpl.add (.mul a01 dot (.as [n])) (.mul dot1 v0 (.as [n])) (.aa [n])
  -- twice
  let dot01 := FnImpl.add
    (.add (.contract v1 (.constAdj a20 1 (.aa [n] [n] (by simp))) (.vm n n))
      (.contract a11 a20 (.mv n n)) (.aa [n]))
    (.add (.contract a10 a21 (.vm n n))
      (.contract (.constAdj a10 1 (.aa [n] [n] (by simp))) v2 (.mv n n)) (.aa [n])) (.aa [n])
  let d01 := FnImpl.add
    (.add (.mul (.constAdj a00 1 (.sa [n])) dot (.as [n])) (.mul dot1 a00 (.as [n])) (.aa [n]))
    (.add (.mul dot01 v0 (.as [n])) (.mul a01 dot0 (.as [n])) (.aa [n])) (.aa [n])
  let dot10 := FnImpl.add
    (.add (.contract v1 (.constAdj a21 0 (.as [n, n])) (.vm n n))
      (.contract a10 a21 (.vm n n)) (.aa [n]))
    (.add (.contract a11 a20 (.mv n n))
      (.contract (.constAdj a11 0 (.as [n, n])) v2 (.mv n n)) (.aa [n])) (.aa [n])
  let d10 := FnImpl.add
    (.add (.mul (.constAdj a01 0 (.as [n])) dot (.as [n])) (.mul dot0 a01 (.sa [n])) (.aa [n]))
    (.add (.mul dot10 v0 (.as [n])) (.mul a00 dot1 (.sa [n])) (.aa [n])) (.aa [n])
  obtain ⟨v, a, a', h1, h2, h3, h4⟩ := C64_symmetric (Γ := c64Ty n) (t := 0) (u := 1)
    (e := .mul (.var 0) (.contract 1 (.var 1) (.var 2))) (by simp [CacheFree]) rfl rfl rfl rfl
    (.mul v0 dot .ss) d0 d01 d1 d10 (by simp [FnImpl.Regular, v0, dot, v1, v2])
    (by simp [FnImpl.Regular, d0, dot0, v0, dot, v1, v2, a00, a10, a20])
    (by simp [FnImpl.Regular, d01, dot01, dot1, dot0, v0, dot, v1, v2, a00, a10, a20, a01, a11, a21])
    (by simp [FnImpl.Regular, d1, dot1, v0, dot, v1, v2, a01, a11, a21])
    (by simp [FnImpl.Regular, d10, dot10, dot1, dot0, v0, dot, v1, v2, a00, a10, a20, a01, a11, a21])
    (c64C n s w x) (fun i _ => by unfold c64C; split <;> simp) (bt := s) (bu := w) rfl rfl
    ⟨trivial, trivial, trivial, .inl rfl⟩
    ⟨trivial, trivial, trivial, .inr (.inr (.inr ⟨rfl, ⟨n, rfl, rfl, rfl⟩, .var 1⟩))⟩
    ⟨⟨trivial, trivial, trivial, .inr (.inr (.inr ⟨rfl, ⟨n, rfl, rfl, rfl⟩, .var 1⟩))⟩,
      ⟨⟨trivial, trivial, .inr (.inr (.inr ⟨rfl, ⟨n, rfl, rfl, rfl⟩, .var 1⟩))⟩,
        trivial, trivial, .inr (.inr (.inr ⟨rfl, ⟨n, rfl, rfl, rfl⟩, .varAdj 1 0⟩))⟩, trivial⟩
    ⟨⟨trivial, trivial, trivial, .inl rfl⟩,
      ⟨⟨trivial, trivial, .inl rfl⟩, trivial, trivial, .inl rfl⟩, trivial⟩
  refine ⟨_, _, _, _, _, _, d01, d10, v, a, a', rfl, rfl, rfl, rfl, h1, h2, h3, fun k hk => ?_⟩
  obtain ⟨g, h5, h6⟩ := h4 [] [] k .nil .nil hk
  exact ⟨g, by simpa using h5, by simpa using h6⟩

end Aegir.Props
