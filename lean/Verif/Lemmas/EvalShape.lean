import Verif.Lemmas.Frame
import Verif.Lemmas.OpSpec
import Verif.Props.C07_C10_Buffers
/-!
# Shapes, errors and success of evaluation
-/

namespace Aegir

open Spec

variable {F : Type} {Γ : Id → BTy}

theorem contractShape_ok {axes : Nat} {a b c : BTy} (z : ContractImpl axes a b c) (s : Shp a)
    (t : Shp b) (r : Shp c) : contractShape z s t = .ok r := by cases z <;> rfl

theorem contract_ne_vec {axes : Nat} {a b c : BTy} (z : ContractImpl axes a b c) : c ≠ .vec := by
  cases z <;> simp

theorem concat_ne_vec {a b c : BTy} (k : ConcatImpl a b c) : c ≠ .vec := by cases k <;> simp

theorem concat_dims {a b c : BTy} (k : ConcatImpl a b c) (s : Shp a) (t : Shp b) (r : Shp c) :
    Shp.dims c r = Shp.dims a s ++ Shp.dims b t := by
  cases k <;> simp [Shp.dims]

section
variable [Zero F] [One F]

/-- A variable's own adjoint: an identity tensor is always built. -/
theorem varAdjSpec_ok (i t : Id) {a b c : BTy} (k : ConcatImpl a b c) (si : Shp a) (st : Shp b) :
    ∃ s, (varAdjSpec i t k si st : Res EvalErr (BSpec F c)) = .ok s ∧ s.shape = k.shape si st := by
  unfold varAdjSpec
  simp only
  split
  · split
    · exact ⟨_, rfl, rfl⟩
    · obtain ⟨b, hb, hs, _⟩ := Props.C08_build_subset c (k.shape si st) (0 : F)
        (((Shape.indices (Shp.dims a si)).zip (Shape.indices (Shp.dims b st))).map
          (fun p => Shape.concatIndices p.1 p.2)) (fun _ => 1) (by
          intro ix hix
          simp only [List.mem_map] at hix
          obtain ⟨⟨p, q⟩, hpq, rfl⟩ := hix
          have h := List.of_mem_zip hpq
          rw [concat_dims k si st]
          exact List.rel_append (mem_indices.1 h.1) (mem_indices.1 h.2))
      rw [hb]
      exact ⟨.raw b, rfl, hs⟩
  · exact ⟨_, rfl, rfl⟩

end

section
variable [Zero F] [One F] [Add F] [Sub F] [Mul F] [Div F] [Neg F] [ScalarFns F]

omit [One F] [Add F] [Sub F] [Mul F] [Div F] [Neg F] [ScalarFns F] in
theorem unSpec_shape {τ : BTy} (f : F → F) (x : BSpec F τ) : (unSpec f x).shape = x.shape := by
  rw [← BSpec.shape_unwrap, unSpec_unwrap, Buf.mutate_eq_map, Buf.shape_map, BSpec.shape_unwrap]

theorem FnImpl.shape_spec {e : Node F} {τ : BTy} (d : FnImpl Γ e τ) (h : ShapeSafe e) :
    (∀ c v c', d.fn.evaluate c = (.ok v, c') → d.fn.evaluateShape c = (.ok (Buf.shape τ v), c')) ∧
    (∀ c s c', d.fn.evaluateSpec c = (.ok s, c') → d.fn.evaluateShape c = (.ok s.shape, c')) := by
  have ofSpec : ∀ {e : Node F} {τ : BTy} (d : FnImpl Γ e τ)
      (_ : d.fn.evaluate = d.fn.evaluateSpec.map BSpec.unwrap),
      (∀ c s c', d.fn.evaluateSpec c = (.ok s, c') → d.fn.evaluateShape c = (.ok s.shape, c')) →
      (∀ c v c', d.fn.evaluate c = (.ok v, c') →
        d.fn.evaluateShape c = (.ok (Buf.shape τ v), c')) ∧
      (∀ c s c', d.fn.evaluateSpec c = (.ok s, c') →
        d.fn.evaluateShape c = (.ok s.shape, c')) := by
    intro e τ d he hs
    refine ⟨fun c v c' hv => ?_, hs⟩
    rw [he, EvalM.map_ok_iff] at hv
    obtain ⟨s, hs', rfl⟩ := hv
    rw [hs c s c' hs', BSpec.shape_unwrap]
  have bin : ∀ {a b g : BTy} {l r : Node F} (dl : FnImpl Γ l a) (dr : FnImpl Γ r b)
      (k : BSpec F a → BSpec F b → Res IncShapes (BSpec F g))
      (ks : Shp a → Shp b → Except IncShapes (Shp g))
      (_ : ∀ x y s, k x y = .ok s → ks x.shape y.shape = .ok s.shape)
      (_ : ∀ c s c', dl.fn.evaluateSpec c = (.ok s, c') → dl.fn.evaluateShape c = (.ok s.shape, c'))
      (_ : ∀ c s c', dr.fn.evaluateSpec c = (.ok s, c') → dr.fn.evaluateShape c = (.ok s.shape, c')),
      ∀ c s c', binM dl.fn.evaluateSpec dr.fn.evaluateSpec k c = (.ok s, c') →
        binM dl.fn.evaluateShape dr.fn.evaluateShape (fun s t => Res.ofExcept (ks s t)) c
          = (.ok s.shape, c') := by
    intro a b g l r dl dr k ks hk hl hr c s c' hs
    rw [binM_ok_iff] at hs ⊢
    obtain ⟨x, c1, y, h1, h2, h3⟩ := hs
    exact ⟨_, _, _, hl _ _ _ h1, hr _ _ _ h2, by rw [hk _ _ _ h3]; rfl⟩
  induction d with
  | var i =>
    constructor
    · intro c v c' hv
      exact (EvalM.map_ok_iff _ _ _ _ _).2 ⟨v, hv, rfl⟩
    · intro c s c' hs
      obtain ⟨v, hv, rfl⟩ := (EvalM.map_ok_iff _ _ _ _ _).1 hs
      exact (EvalM.map_ok_iff _ _ _ _ _).2 ⟨v, hv, rfl⟩
  | varAdj i t k hk =>
    refine ofSpec _ rfl (fun c s c' hs => ?_)
    obtain ⟨si, c1, h1, h2⟩ := (EvalM.bind_ok_iff _ _ _ _ _).1 hs
    obtain ⟨st, c2, h3, h4⟩ := (EvalM.bind_ok_iff _ _ _ _ _).1 h2
    obtain ⟨h5, h6⟩ := (EvalM.lift_ok_iff _ _ _ _).1 h4
    refine (EvalM.bind_ok_iff _ _ _ _ _).2 ⟨si, c1, h1, (EvalM.bind_ok_iff _ _ _ _ _).2
      ⟨st, c2, h3, (EvalM.lift_ok_iff _ _ _ _).2 ⟨?_, h6⟩⟩⟩
    obtain ⟨s', hs', hsh⟩ := varAdjSpec_ok (F := F) i t k si st
    rw [h5] at hs'; cases hs'
    rw [hsh]
  | const τ b =>
    refine ofSpec _ rfl (fun c s c' hs => ?_)
    obtain ⟨h1, h2⟩ := (EvalM.lift_ok_iff _ _ _ _).1 hs
    cases h1; subst h2; rfl
  | constSpec τ s =>
    refine ofSpec _ rfl (fun c s c' hs => ?_)
    obtain ⟨h1, h2⟩ := (EvalM.lift_ok_iff _ _ _ _).1 hs
    cases h1; subst h2; rfl
  | constAdj d t k ih =>
    refine ofSpec _ rfl (fun c s c' hs => ?_)
    obtain ⟨v, hv, rfl⟩ := (EvalM.map_ok_iff _ _ _ _ _).1 hs
    exact hv
  | cached i d ih =>
    constructor
    · intro c v c' hv
      exact (EvalM.map_ok_iff (FnImpl.cached i d).fn.evaluate _ _ _ _).2 ⟨v, hv, rfl⟩
    · intro c s c' hs
      obtain ⟨v, hv, rfl⟩ := (EvalM.map_ok_iff (FnImpl.cached i d).fn.evaluate _ _ _ _).1 hs
      exact (EvalM.map_ok_iff (FnImpl.cached i d).fn.evaluate _ _ _ _).2 ⟨v, hv, rfl⟩
  | add dl dr z ihl ihr =>
    exact ofSpec _ rfl (bin dl dr _ z.broadcast (fun x y s hs => (addSpec_follows z x y).ok hs)
      (ihl (h.child (by simp [children]))).2 (ihr (h.child (by simp [children]))).2)
  | sub dl dr z ihl ihr =>
    exact ofSpec _ rfl (bin dl dr _ z.broadcast (fun x y s hs => (subSpec_follows z x y).ok hs)
      (ihl (h.child (by simp [children]))).2 (ihr (h.child (by simp [children]))).2)
  | mul dl dr z ihl ihr =>
    exact ofSpec _ rfl (bin dl dr _ z.broadcast (fun x y s hs => (mulSpec_follows z x y).ok hs)
      (ihl (h.child (by simp [children]))).2 (ihr (h.child (by simp [children]))).2)
  | div dl dr z ihl ihr =>
    have key : ∀ c v c', (FnImpl.div dl dr z).fn.evaluate c = (.ok v, c') →
        (FnImpl.div dl dr z).fn.evaluateShape c = (.ok (Buf.shape _ v), c') := by
      intro c v c' hv
      obtain ⟨x, c1, y, h1, h2, h3⟩ := (binM_ok_iff _ _ _ _ _ _).1 hv
      refine (binM_ok_iff _ _ _ _ _ _).2 ⟨_, _, _, (ihl (h.child (by simp [children]))).1 _ _ _ h1,
        (ihr (h.child (by simp [children]))).1 _ _ _ h2, ?_⟩
      rw [Res.ofExcept_ok_iff, Buf.zipMapId_eq] at h3
      rw [Buf.broadcast_eq z x y, h3]; rfl
    refine ⟨key, fun c s c' hs => ?_⟩
    obtain ⟨v, hv, rfl⟩ := (EvalM.map_ok_iff _ _ _ _ _).1 hs
    exact key c v c' hv
  | power dl dr ihl ihr =>
    refine ofSpec _ rfl (fun c s c' hs => ?_)
    have hcf := h.2 _ _ (.refl _)
    have h1 := ((FnImpl.power dl dr).ctx_eq hcf c).2.1
    rw [hs] at h1
    exact Prod.ext rfl h1.symm
  | contract dl dr z ihl ihr =>
    exact ofSpec _ rfl (bin dl dr _ (contractShape z) (fun x y s _ => contractShape_ok z _ _ _)
      (ihl (h.child (by simp [children]))).2 (ihr (h.child (by simp [children]))).2)
  | sum d ih =>
    have hcf := h.1 _ (.refl _)
    constructor
    · intro c v c' hv
      obtain ⟨b, hb, _⟩ := (EvalM.map_ok_iff _ _ _ _ _).1 hv
      have h1 := (d.ctx_eq hcf c).1
      rw [hb] at h1
      exact Prod.ext rfl h1.symm
    · intro c s c' hs
      obtain ⟨b, c1, hb, h2⟩ := (EvalM.bind_ok_iff _ _ _ _ _).1 hs
      have h1 := (d.ctx_eq hcf c).2.1
      rw [hb] at h1
      obtain ⟨_, rfl⟩ := (EvalM.lift_ok_iff _ _ _ _).1 h2
      exact Prod.ext rfl h1.symm
  | un op d ih =>
    have ih := ih (h.child (by simp [children]))
    constructor
    · intro c v c' hv
      obtain ⟨b, hb, rfl⟩ := (EvalM.map_ok_iff _ _ _ _ _).1 hv
      show d.fn.evaluateShape c = _
      rw [ih.1 _ _ _ hb, Buf.mutate_eq_map, Buf.shape_map]
    · intro c s c' hs
      obtain ⟨b, hb, rfl⟩ := (EvalM.map_ok_iff _ _ _ _ _).1 hs
      show d.fn.evaluateShape c = _
      rw [ih.2 _ _ _ hb, unSpec_shape]

end

end Aegir
