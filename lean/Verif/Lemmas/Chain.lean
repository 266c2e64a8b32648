import Verif.Lemmas.Formal
import Verif.Props.C23_C27_Contexts
import Verif.Lemmas.AdjointSub
import Verif.Lemmas.EvalDeriv
import Verif.Spec.Subst
import Verif.Spec.Chain
/-!
# The chain rule for tensor semantics
-/

namespace Aegir
open Spec

variable {F : Type} [CommRing F] [Div F] [ScalarFns F]

/-! ### Substitution -/

/-- Substitution is a change of environment. -/
theorem den_subst {ρ ρ' : Id → Tensor F} {i : Id} {n : Node F} (hi : ρ' i = den ρ n)
    (hj : ∀ j, j ≠ i → ρ' j = ρ j) (e : Node F) (hp : Plain i e) :
    den ρ (subst i n e) = den ρ' e := by
  induction e with
  | var j =>
    unfold subst
    by_cases h : j = i
    · rw [if_pos h, h]; exact hi.symm
    · rw [if_neg h]; exact (hj j h).symm
  | varAdj j t => simp only [subst, den, hj j hp.1, hj t hp.2]
  | const | constSpec => rfl
  | constAdj m t ih =>
    have h : den ρ m = den ρ' m := den_congr m fun j ho => by
      refine (hj j ?_).symm
      rintro rfl
      have := (C25_contains_iff m j).2 ho
      rw [hp.1] at this
      cases this
    simp only [subst, den, h, hj t hp.2]
  | cached m j ih => exact ih hp.1
  | add l r ihl ihr | sub l r ihl ihr | mul l r ihl ihr | div l r ihl ihr | power l r ihl ihr
  | contract k l r ihl ihr => simp only [subst, den, ihl hp.1, ihr hp.2]
  | sum m ih | un op m ih => simp only [subst, den, ih hp]

/-! ### Linear combinations -/

/-- `A` is `B` times `α` plus `C` times `ν`. -/
structure Lin (α ν : F) (A B C : Tensor F) : Prop where
  dimsA : A.dims = B.dims
  dimsC : C.dims = B.dims
  val : ∀ ix, InBounds B.dims ix → A.val ix = B.val ix * α + C.val ix * ν

namespace Lin
variable {α ν : F} {A B C A' B' C' R : Tensor F}

omit [Div F] [ScalarFns F] in
theorem zip {f : F → F → F}
    (hf : ∀ b c b' c', f (b * α + c * ν) (b' * α + c' * ν) = f b b' * α + f c c' * ν)
    (h : Lin α ν A B C) (h' : Lin α ν A' B' C') (hc : B.dims = [] ∨ B'.dims = [] ∨ B.dims = B'.dims) :
    Lin α ν (.zip f A A') (.zip f B B') (.zip f C C') := by
  refine ⟨by simp only [Tensor.zip, h.dimsA, h'.dimsA], by simp only [Tensor.zip, h.dimsC, h'.dimsC], ?_⟩
  intro ix hix
  obtain ⟨h1, h2⟩ := bcast_inBounds hc hix
  simp only [Tensor.zip, h.dimsA, h'.dimsA, h.dimsC, h'.dimsC, h.val _ h1, h'.val _ h2, hf]

omit [Div F] [ScalarFns F] in
theorem zipL {f : F → F → F} (hf : ∀ b c r, f (b * α + c * ν) r = f b r * α + f c r * ν)
    (h : Lin α ν A B C) (hc : B.dims = [] ∨ R.dims = [] ∨ B.dims = R.dims) :
    Lin α ν (.zip f A R) (.zip f B R) (.zip f C R) := by
  refine ⟨by simp only [Tensor.zip, h.dimsA], by simp only [Tensor.zip, h.dimsC], ?_⟩
  intro ix hix
  obtain ⟨h1, h2⟩ := bcast_inBounds hc hix
  simp only [Tensor.zip, h.dimsA, h.dimsC, h.val _ h1, hf]

omit [Div F] [ScalarFns F] in
theorem zipR {f : F → F → F} (hf : ∀ b c r, f r (b * α + c * ν) = f r b * α + f r c * ν)
    (h : Lin α ν A B C) (hc : R.dims = [] ∨ B.dims = [] ∨ R.dims = B.dims) :
    Lin α ν (.zip f R A) (.zip f R B) (.zip f R C) := by
  refine ⟨by simp only [Tensor.zip, h.dimsA], by simp only [Tensor.zip, h.dimsC], ?_⟩
  intro ix hix
  obtain ⟨h1, h2⟩ := bcast_inBounds hc hix
  simp only [Tensor.zip, h.dimsA, h.dimsC, h.val _ h2, hf]

omit [Div F] [ScalarFns F] in
theorem map {f : F → F} (hf : ∀ b c, f (b * α + c * ν) = f b * α + f c * ν) (h : Lin α ν A B C) :
    Lin α ν (A.map f) (B.map f) (C.map f) := by
  refine ⟨h.dimsA, h.dimsC, fun ix hix => ?_⟩
  simp only [Tensor.map, h.val ix hix, hf]

omit [Div F] [ScalarFns F] in
theorem contractL {k : ℕ} {p q s : Dims} (hq : q.length = k) (hB : B.dims = p ++ q) (hR : R.dims = q ++ s)
    (h : Lin α ν A B C) : Lin α ν (.contract k A R) (.contract k B R) (.contract k C R) := by
  obtain ⟨d1, v1⟩ := tcontract_eq (h.dimsA.trans hB) hR hq
  obtain ⟨d2, v2⟩ := tcontract_eq hB hR hq
  obtain ⟨d3, v3⟩ := tcontract_eq (h.dimsC.trans hB) hR hq
  refine ⟨d1.trans d2.symm, d3.trans d2.symm, fun ix hix => ?_⟩
  rw [d2] at hix
  obtain ⟨i1, i2, h1, h2, rfl⟩ := inBounds_append.1 hix
  rw [v1 i1 i2 h1, v2 i1 i2 h1, v3 i1 i2 h1, ← sumOver_mul_right, ← sumOver_mul_right, ← sumOver_add]
  refine sumOver_congr fun t ht => ?_
  rw [h.val (i1 ++ t) (by rw [hB]; exact inBounds_append.2 ⟨_, _, h1, ht, rfl⟩)]
  ring

omit [Div F] [ScalarFns F] in
theorem contractR {k : ℕ} {p q s : Dims} (hq : q.length = k) (hR : R.dims = p ++ q) (hB : B.dims = q ++ s)
    (h : Lin α ν A B C) : Lin α ν (.contract k R A) (.contract k R B) (.contract k R C) := by
  obtain ⟨d1, v1⟩ := tcontract_eq hR (h.dimsA.trans hB) hq
  obtain ⟨d2, v2⟩ := tcontract_eq hR hB hq
  obtain ⟨d3, v3⟩ := tcontract_eq hR (h.dimsC.trans hB) hq
  refine ⟨d1.trans d2.symm, d3.trans d2.symm, fun ix hix => ?_⟩
  rw [d2] at hix
  obtain ⟨i1, i2, h1, h2, rfl⟩ := inBounds_append.1 hix
  rw [v1 i1 i2 h1, v2 i1 i2 h1, v3 i1 i2 h1, ← sumOver_mul_right, ← sumOver_mul_right, ← sumOver_add]
  refine sumOver_congr fun t ht => ?_
  rw [h.val (t ++ i2) (by rw [hB]; exact inBounds_append.2 ⟨_, _, ht, h2, rfl⟩)]
  ring

end Lin

omit [Div F] [ScalarFns F] in
theorem zero_lin {α ν : F} {D D' D'' : Dims} (h : D = D') (h' : D'' = D') :
    Lin α ν (.const D 0) (.const D' 0) (.const D'' 0) :=
  ⟨h, h', fun _ _ => by simp [Tensor.const]⟩

/-- The adjoint of a substitution is a linear combination of the two adjoints. -/
theorem chain {ρ ρ' : Id → Tensor F} {i t : Id} {n nt : Node F} (hi : ρ' i = den ρ n)
    (hj : ∀ j, j ≠ i → ρ' j = ρ j) (ht : (ρ t).dims = []) (hn : (den ρ n).dims = [])
    (hnt : n.adjoint t = some nt) (hN : (den ρ nt).dims = []) (e : Node F) :
    ∀ {st et ei : Node F}, (subst i n e).adjoint t = some st → e.adjoint t = some et →
      e.adjoint i = some ei → CacheFree e → DivisionOk e → Plain i e → Compat ρ' et →
      Lin (if t = i then 0 else 1) ((den ρ nt).val []) (den ρ st) (den ρ' et) (den ρ' ei) := by
  have hdc : ∀ {e m : Node F}, DivisionOk e → m ∈ children e → DivisionOk m := fun h hm =>
    h.imp id fun h => ⟨fun l r hs => h.1 l r (.step hm hs), fun a hs => h.2 a (.step hm hs)⟩
  have hti : (ρ' t).dims = [] := by
    by_cases h : t = i
    · rw [h, hi, hn]
    · rw [hj t h, ht]
  have hii : (ρ' i).dims = [] := by rw [hi, hn]
  have hs := fun (m : Node F) (hp : Plain i m) => den_subst (n := n) hi hj m hp
  have free : ∀ {e m : Node F}, CacheFree e → m ∈ children e → CacheFree m := fun h hm =>
    ((cacheFree_iff _).1 h).2 _ hm
  induction e with
  | var j =>
    intro st et ei h1 h2 h3 _ _ _ _
    cases h2
    cases h3
    unfold subst at h1
    by_cases h : j = i
    · subst h
      rw [if_pos rfl, hnt] at h1
      cases h1
      refine ⟨by simp [den, Tensor.delta, hN, hii, hti], by simp [den, Tensor.delta, hii, hti], ?_⟩
      intro ix hix
      simp only [den, Tensor.delta, hii, hti, List.append_nil] at hix
      cases hix
      by_cases hh : t = j
      · subst hh; simp [den, Tensor.delta, hii]
      · have : ¬ j = t := fun h => hh h.symm
        simp [den, Tensor.delta, hii, hh, this]
    · rw [if_neg h] at h1
      cases h1
      refine ⟨by simp [den, Tensor.delta, hj j h, ht, hti], by simp [den, Tensor.delta, hii, hti], ?_⟩
      intro ix hix
      by_cases hh : t = i
      · subst hh; simp [den, Tensor.delta, h]
      · simp [den, Tensor.delta, h, hh, hj j h, hj t hh]
  | varAdj j s =>
    intro st et ei h1 h2 h3 _ _ hp _
    cases h1
    cases h2
    cases h3
    have := hs _ hp
    rw [subst] at this
    exact zero_lin (by rw [this, ht, hti]) (by rw [hii, hti])
  | const τ b =>
    intro st et ei h1 h2 h3 _ _ _ _
    cases h1
    cases h2
    cases h3
    exact zero_lin (by simp [den, ht, hti]) (by rw [hii, hti])
  | constSpec | constAdj => intro st et ei h1 h2; cases h2
  | cached m j => intro st et ei _ _ _ hf; exact absurd rfl (((cacheFree_iff _).1 hf).1 m j)
  | add l r ihl ihr =>
    intro st et ei h1 h2 h3 hf hd hp hc
    simp only [subst, Node.adjoint, Option.bind_eq_some_iff, Option.map_eq_some_iff] at h1 h2 h3
    obtain ⟨sl, hsl, sr, hsr, rfl⟩ := h1
    obtain ⟨el, hel, er, her, rfl⟩ := h2
    obtain ⟨il, hil, ir, hir, rfl⟩ := h3
    have el' := hs l hp.1
    have er' := hs r hp.2
    have L := ihl hsl hel hil (free hf (by simp [children])) (hdc hd (by simp [children])) hp.1
    have R := ihr hsr her hir (free hf (by simp [children])) (hdc hd (by simp [children])) hp.2
    exact (L hc.1).zip (fun _ _ _ _ => by ring) (R hc.2.1) hc.2.2
  | sub l r ihl ihr =>
    intro st et ei h1 h2 h3 hf hd hp hc
    simp only [subst, Node.adjoint, Option.bind_eq_some_iff, Option.map_eq_some_iff] at h1 h2 h3
    obtain ⟨sl, hsl, sr, hsr, rfl⟩ := h1
    obtain ⟨el, hel, er, her, rfl⟩ := h2
    obtain ⟨il, hil, ir, hir, rfl⟩ := h3
    have el' := hs l hp.1
    have er' := hs r hp.2
    have L := ihl hsl hel hil (free hf (by simp [children])) (hdc hd (by simp [children])) hp.1
    have R := ihr hsr her hir (free hf (by simp [children])) (hdc hd (by simp [children])) hp.2
    exact (L hc.1).zip (fun _ _ _ _ => by ring) (R hc.2.1) hc.2.2
  | mul l r ihl ihr =>
    intro st et ei h1 h2 h3 hf hd hp hc
    simp only [subst, Node.adjoint, Option.bind_eq_some_iff, Option.map_eq_some_iff] at h1 h2 h3
    obtain ⟨sl, hsl, sr, hsr, rfl⟩ := h1
    obtain ⟨el, hel, er, her, rfl⟩ := h2
    obtain ⟨il, hil, ir, hir, rfl⟩ := h3
    have el' := hs l hp.1
    have er' := hs r hp.2
    have L := ihl hsl hel hil (free hf (by simp [children])) (hdc hd (by simp [children])) hp.1
    have R := ihr hsr her hir (free hf (by simp [children])) (hdc hd (by simp [children])) hp.2
    obtain ⟨⟨c1, -, c2⟩, ⟨c3, -, c4⟩, c5⟩ := hc
    simp only [den, el', er']
    exact ((L c1).zipL (fun _ _ _ => by ring) c2).zip (fun _ _ _ _ => by ring)
      ((R c3).zipL (fun _ _ _ => by ring) c4) c5
  | div l r ihl ihr =>
    intro st et ei h1 h2 h3 hf hd hp hc
    obtain ⟨inv, hinv⟩ : LawfulDiv F := hd.resolve_right fun h => h.1 l r (.refl _)
    simp only [subst, Node.adjoint, Option.bind_eq_some_iff, Option.map_eq_some_iff] at h1 h2 h3
    obtain ⟨sl, hsl, sr, hsr, rfl⟩ := h1
    obtain ⟨el, hel, er, her, rfl⟩ := h2
    obtain ⟨il, hil, ir, hir, rfl⟩ := h3
    have el' := hs l hp.1
    have er' := hs r hp.2
    have L := ihl hsl hel hil (free hf (by simp [children])) (hdc hd (by simp [children])) hp.1
    have R := ihr hsr her hir (free hf (by simp [children])) (hdc hd (by simp [children])) hp.2
    obtain ⟨⟨⟨-, c1, c2⟩, ⟨-, c3, c4⟩, c5⟩, -, c6⟩ := hc
    simp only [den, el', er']
    exact (((L c1).zipR (fun _ _ _ => by ring) c2).zip (fun _ _ _ _ => by ring)
      ((R c3).zipR (fun _ _ _ => by ring) c4) c5).zipL (fun _ _ _ => by simp only [hinv]; ring) c6
  | power l r ihl ihr =>
    intro st et ei h1 h2 h3 hf hd hp hc
    simp only [subst, Node.adjoint, Option.bind_eq_some_iff, Option.map_eq_some_iff] at h1 h2 h3
    obtain ⟨sl, hsl, sr, hsr, rfl⟩ := h1
    obtain ⟨el, hel, er, her, rfl⟩ := h2
    obtain ⟨il, hil, ir, hir, rfl⟩ := h3
    have el' := hs l hp.1
    have er' := hs r hp.2
    have L := ihl hsl hel hil (free hf (by simp [children])) (hdc hd (by simp [children])) hp.1
    have R := ihr hsr her hir (free hf (by simp [children])) (hdc hd (by simp [children])) hp.2
    obtain ⟨-, ⟨⟨-, c1, c2⟩, ⟨-, c3, c4⟩, c5⟩, c6⟩ := hc
    simp only [den, el', er']
    exact (((L c1).zipR (fun _ _ _ => by ring) c2).zip (fun _ _ _ _ => by ring)
      ((R c3).zipR (fun _ _ _ => by ring) c4) c5).zipR (fun _ _ _ => by ring) c6
  | contract k l r ihl ihr =>
    intro st et ei h1 h2 h3 hf hd hp hc
    simp only [subst, Node.adjoint, Option.bind_eq_some_iff, Option.map_eq_some_iff] at h1 h2 h3
    obtain ⟨sl, hsl, sr, hsr, rfl⟩ := h1
    obtain ⟨el, hel, er, her, rfl⟩ := h2
    obtain ⟨il, hil, ir, hir, rfl⟩ := h3
    have el' := hs l hp.1
    have er' := hs r hp.2
    have L := ihl hsl hel hil (free hf (by simp [children])) (hdc hd (by simp [children])) hp.1
    have R := ihr hsr her hir (free hf (by simp [children])) (hdc hd (by simp [children])) hp.2
    obtain ⟨⟨-, c1, c2⟩, ⟨c3, -, c4⟩, c5⟩ := hc
    have R := R c1
    have L := L c3
    simp only [den, el', er']
    rw [R.dimsA, R.dimsC, L.dimsA, L.dimsC]
    refine Lin.zip (fun _ _ _ _ => by ring) ?_ ?_ c5
    · rcases c2 with c2 | ⟨p, q, s, hq, hl, hr⟩
      · rw [if_pos c2]
        exact R.contractR (p := []) (q := []) (s := []) rfl c2.1 c2.2
      · by_cases hz : (den ρ' l).dims = [] ∧ (den ρ' er).dims = []
        · rw [if_pos hz]
          exact R.contractR (p := []) (q := []) (s := []) rfl hz.1 hz.2
        · rw [if_neg hz]
          exact R.contractR hq hl hr
    · by_cases hz : (den ρ' el).dims = [] ∧ (den ρ' r).dims = []
      · rw [if_pos hz]
        exact L.contractL (p := []) (q := []) (s := []) rfl hz.1 hz.2
      · rw [if_neg hz]
        rcases c4 with c4 | ⟨p, q, s, hq, hl, hr⟩
        · exact absurd c4 hz
        · exact L.contractL hq hl hr
  | sum m ih =>
    intro st et ei h1 h2 h3 hf hd hp hc
    exact ih h1 h2 h3 (free hf (by simp [children])) (hdc hd (by simp [children])) hp hc
  | un op m ih =>
    intro st et ei h1 h2 h3 hf hd hp hc
    have hm := hs m hp
    have M := fun {sm em im : Node F} (h1 : (subst i n m).adjoint t = some sm)
      (h2 : m.adjoint t = some em) (h3 : m.adjoint i = some im) =>
      ih h1 h2 h3 (free hf (by simp [children])) (hdc hd (by simp [children])) hp
    cases op <;> simp only [subst, Node.adjoint, Option.map_eq_some_iff, reduceCtorEq] at h1 h2 h3
    case subOne | addOne => exact M h1 h2 h3 hc
    all_goals
      obtain ⟨sm, hsm, rfl⟩ := h1
      obtain ⟨em, hem, rfl⟩ := h2
      obtain ⟨im, him, rfl⟩ := h3
    case oneSub | negate | double =>
      exact (M hsm hem him hc).map fun _ _ => by simp only [UnOp.apply]; ring
    case square | sign | abs | exp | rabbit =>
      simp only [den, hm]
      exact (M hsm hem him hc.2.1).zipR (fun _ _ _ => by ring) hc.2.2
    case xlnx | sigmoid | logGamma | sin =>
      simp only [den, hm]
      exact (M hsm hem him hc.1).zipL (fun _ _ _ => by ring) hc.2.2
    case ln =>
      obtain ⟨inv, hinv⟩ : LawfulDiv F := hd.resolve_right fun h => h.2 m (.refl _)
      simp only [den, hm]
      exact (M hsm hem him hc.1).zipL (fun _ _ _ => by simp only [hinv]; ring) hc.2.2
    case cos =>
      simp only [den, hm]
      exact ((M hsm hem him hc.1).zipL (fun _ _ _ => by ring) hc.2.2).map
        fun _ _ => by simp only [UnOp.apply]; ring
    case gamma =>
      simp only [den, hm]
      exact ((M hsm hem him hc.1.1).zipL (fun _ _ _ => by ring) hc.1.2.2).zipL
        (fun _ _ _ => by ring) hc.2.2

/-! ### Gradients through a scalar -/

/-- `A` is the scalar `C` times `N`. -/
structure Scaled (N A C : Tensor F) : Prop where
  dimsA : A.dims = N.dims
  dimsC : C.dims = []
  val : ∀ ix, InBounds N.dims ix → A.val ix = C.val [] * N.val ix

theorem bIdx_nil' (ix : Idx) : bIdx [] ix = [] := rfl

namespace Scaled
variable {N A C A' C' R : Tensor F}

omit [Div F] [ScalarFns F] in
theorem zip {f : F → F → F} (hf : ∀ c c' x, f (c * x) (c' * x) = f c c' * x)
    (h : Scaled N A C) (h' : Scaled N A' C') : Scaled N (.zip f A A') (.zip f C C') := by
  refine ⟨by simp [Tensor.zip, h.dimsA, h'.dimsA], by simp [Tensor.zip, h.dimsC, h'.dimsC], ?_⟩
  intro ix hix
  simp [Tensor.zip, h.dimsA, h'.dimsA, h.dimsC, h'.dimsC, bIdx_self hix, h.val _ hix, h'.val _ hix, hf,
    bIdx_nil']

omit [Div F] [ScalarFns F] in
theorem zipL {f : F → F → F} (hf : ∀ c x r, f (c * x) r = f c r * x)
    (h : Scaled N A C) (hR : R.dims = []) : Scaled N (.zip f A R) (.zip f C R) := by
  refine ⟨by simp +contextual [Tensor.zip, h.dimsA, hR], by simp [Tensor.zip, h.dimsC, hR], ?_⟩
  intro ix hix
  simp [Tensor.zip, h.dimsA, h.dimsC, hR, bIdx_self hix, h.val _ hix, hf, bIdx_nil']

omit [Div F] [ScalarFns F] in
theorem zipR {f : F → F → F} (hf : ∀ c x r, f r (c * x) = f r c * x)
    (h : Scaled N A C) (hR : R.dims = []) : Scaled N (.zip f R A) (.zip f R C) := by
  refine ⟨by simp [Tensor.zip, h.dimsA, hR], by simp [Tensor.zip, h.dimsC, hR], ?_⟩
  intro ix hix
  simp [Tensor.zip, h.dimsA, h.dimsC, hR, bIdx_self hix, h.val _ hix, hf, bIdx_nil']

omit [Div F] [ScalarFns F] in
theorem map {f : F → F} (hf : ∀ c x, f (c * x) = f c * x) (h : Scaled N A C) :
    Scaled N (A.map f) (C.map f) :=
  ⟨h.dimsA, h.dimsC, fun ix hix => by simp only [Tensor.map, h.val ix hix, hf]⟩

omit [Div F] [ScalarFns F] in
theorem contractL (h : Scaled N A C) (hR : R.dims = []) :
    Scaled N (.contract 0 A R) (.contract 0 C R) := by
  obtain ⟨d1, v1⟩ := tcontract_eq (S := A) (T := R) (p := N.dims) (q := []) (s := []) (k := 0)
    (by simp [h.dimsA]) hR rfl
  obtain ⟨d2, v2⟩ := tcontract_eq (S := C) (T := R) (p := []) (q := []) (s := []) (k := 0)
    h.dimsC hR rfl
  refine ⟨by simp [d1], d2, fun ix hix => ?_⟩
  have a := v1 ix [] hix
  have b := v2 [] [] .nil
  simp only [sumOver, List.append_nil, h.val ix hix] at a b
  rw [a, b]
  ring

omit [Div F] [ScalarFns F] in
theorem contractR (h : Scaled N A C) (hR : R.dims = []) :
    Scaled N (.contract 0 R A) (.contract 0 R C) := by
  obtain ⟨d1, v1⟩ := tcontract_eq (S := R) (T := A) (p := []) (q := []) (s := N.dims) (k := 0)
    hR h.dimsA rfl
  obtain ⟨d2, v2⟩ := tcontract_eq (S := R) (T := C) (p := []) (q := []) (s := []) (k := 0)
    hR h.dimsC rfl
  refine ⟨by simp [d1], d2, fun ix hix => ?_⟩
  have a := v1 [] ix .nil
  have b := v2 [] [] .nil
  simp only [sumOver, List.nil_append, List.append_nil, h.val ix hix] at a b
  rw [a, b]
  ring

omit [Div F] [ScalarFns F] in
theorem zero {D : Dims} (h : D = N.dims) : Scaled N (.const D 0) (.const [] 0) :=
  ⟨h, rfl, fun _ _ => by simp [Tensor.const]⟩

end Scaled

/-- An expression in scalars only is a scalar. -/
theorem den_scalar {Γ : Id → BTy} {ρ : Id → Tensor F} (hρ : ∀ j, Γ j = .scalar → (ρ j).dims = [])
    (e : Node F) (he : AllScalar Γ e) : (den ρ e).dims = [] := by
  induction e with
  | var j => exact hρ j (he.1 j (by simp [Node.contains]))
  | varAdj j t =>
    simp [den, Tensor.delta, hρ j (he.1 j (by simp [Node.contains])),
      hρ t (he.1 t (by simp [Node.contains]))]
  | const τ b => cases he.2.1 τ b (.refl _); rfl
  | constSpec τ s => cases he.2.2 τ s (.refl _); cases s <;> rfl
  | constAdj m t ih =>
    simp [den, Tensor.const, hρ t (he.1 t (by simp [Node.contains])), ih (he.child (by simp [children]))]
  | cached m i ih => exact ih (he.child (by simp [children]))
  | add l r ihl ihr | sub l r ihl ihr | mul l r ihl ihr | div l r ihl ihr =>
    simp [den, Tensor.zip, ihl (he.child (by simp [children])), ihr (he.child (by simp [children]))]
  | power | sum => rfl
  | contract k l r ihl ihr =>
    simp [den, Tensor.contract, ihl (he.child (by simp [children])), ihr (he.child (by simp [children]))]
  | un op m ih => exact ih (he.child (by simp [children]))

/-- The adjoint of a scalar expression in a scalar argument is the adjoint of the argument times the
derivative. -/
theorem chain_gradient {Γ : Id → BTy} {ρ ρ' : Id → Tensor F} {i t : Id} {n nt : Node F}
    (hi : ρ' i = den ρ n) (hj : ∀ j, j ≠ i → ρ' j = ρ j) (hρ : ∀ j, Γ j = .scalar → (ρ' j).dims = [])
    (hii : (ρ' i).dims = []) (hnt : n.adjoint t = some nt) (hN : (den ρ nt).dims = (ρ t).dims) (e : Node F) :
    ∀ {st ei : Node F}, (subst i n e).adjoint t = some st →
      e.adjoint i = some ei → AllScalar Γ e → e.contains t = false → CacheFree e → DivisionOk e →
      Plain i e → Compat ρ st → Scaled (den ρ nt) (den ρ st) (den ρ' ei) := by
  have hdc : ∀ {e m : Node F}, DivisionOk e → m ∈ children e → DivisionOk m := fun h hm =>
    h.imp id fun h => ⟨fun l r hs => h.1 l r (.step hm hs), fun a hs => h.2 a (.step hm hs)⟩
  have hs := fun (m : Node F) (hp : Plain i m) => den_subst (n := n) hi hj m hp
  have free : ∀ {e m : Node F}, CacheFree e → m ∈ children e → CacheFree m := fun h hm =>
    ((cacheFree_iff _).1 h).2 _ hm
  have sc := den_scalar hρ
  induction e with
  | var j =>
    intro st ei h1 h3 hS ht _ _ _ _
    cases h3
    have hjt : j ≠ t := by
      rintro rfl
      simp [Node.contains] at ht
    have hjs := hρ j (hS.1 j (by simp [Node.contains]))
    unfold subst at h1
    by_cases h : j = i
    · subst h
      rw [if_pos rfl, hnt] at h1
      cases h1
      refine ⟨rfl, by simp [den, Tensor.delta, hii], fun ix _ => ?_⟩
      simp [den, Tensor.delta, hii]
    · rw [if_neg h] at h1
      cases h1
      rw [hj j h] at hjs
      refine ⟨by simp [den, Tensor.delta, hjs, hN], by simp [den, Tensor.delta, hii, hj j h, hjs], ?_⟩
      intro ix _
      simp [den, Tensor.delta, h, hjt]
  | varAdj j s =>
    intro st ei h1 h3 hS _ _ _ hp _
    cases h1
    cases h3
    have e1 := hs _ hp
    rw [subst] at e1
    have e2 := sc _ hS
    refine ⟨?_, ?_, fun _ _ => ?_⟩
    · show (den ρ (.varAdj j s)).dims ++ _ = _
      rw [e1, e2, hN]; rfl
    · show (den ρ' (.varAdj j s)).dims ++ _ = _
      rw [e2, hii]; rfl
    · simp [den, Tensor.const]
  | const τ b =>
    intro st ei h1 h3 hS _ _ _ _ _
    cases h1
    cases h3
    have e2 : (Tensor.ofBuf b).dims = [] := sc _ hS
    refine ⟨by simp [den, Tensor.const, e2, hN], by simp [den, Tensor.const, e2, hii], fun _ _ => ?_⟩
    simp [den, Tensor.const]
  | constSpec | constAdj => intro st ei _ h3; cases h3
  | cached m j => intro st ei _ _ _ _ hf; exact absurd rfl (((cacheFree_iff _).1 hf).1 m j)
  | add l r ihl ihr =>
    intro st ei h1 h3 hS ht hf hd hp hc
    simp only [subst, Node.adjoint, Option.bind_eq_some_iff, Option.map_eq_some_iff] at h1 h3
    obtain ⟨sl, hsl, sr, hsr, rfl⟩ := h1
    obtain ⟨il, hil, ir, hir, rfl⟩ := h3
    simp only [Node.contains, Bool.or_eq_false_iff] at ht
    have el' := hs l hp.1
    have er' := hs r hp.2
    have sl' := sc l (hS.child (by simp [children]))
    have sr' := sc r (hS.child (by simp [children]))
    have L := ihl hsl hil (hS.child (by simp [children])) ht.1 (free hf (by simp [children])) (hdc hd (by simp [children])) hp.1
    have R := ihr hsr hir (hS.child (by simp [children])) ht.2 (free hf (by simp [children])) (hdc hd (by simp [children])) hp.2
    exact (L hc.1).zip (fun _ _ _ => by ring) (R hc.2.1)
  | sub l r ihl ihr =>
    intro st ei h1 h3 hS ht hf hd hp hc
    simp only [subst, Node.adjoint, Option.bind_eq_some_iff, Option.map_eq_some_iff] at h1 h3
    obtain ⟨sl, hsl, sr, hsr, rfl⟩ := h1
    obtain ⟨il, hil, ir, hir, rfl⟩ := h3
    simp only [Node.contains, Bool.or_eq_false_iff] at ht
    have el' := hs l hp.1
    have er' := hs r hp.2
    have sl' := sc l (hS.child (by simp [children]))
    have sr' := sc r (hS.child (by simp [children]))
    have L := ihl hsl hil (hS.child (by simp [children])) ht.1 (free hf (by simp [children])) (hdc hd (by simp [children])) hp.1
    have R := ihr hsr hir (hS.child (by simp [children])) ht.2 (free hf (by simp [children])) (hdc hd (by simp [children])) hp.2
    exact (L hc.1).zip (fun _ _ _ => by ring) (R hc.2.1)
  | mul l r ihl ihr =>
    intro st ei h1 h3 hS ht hf hd hp hc
    simp only [subst, Node.adjoint, Option.bind_eq_some_iff, Option.map_eq_some_iff] at h1 h3
    obtain ⟨sl, hsl, sr, hsr, rfl⟩ := h1
    obtain ⟨il, hil, ir, hir, rfl⟩ := h3
    simp only [Node.contains, Bool.or_eq_false_iff] at ht
    have el' := hs l hp.1
    have er' := hs r hp.2
    have sl' := sc l (hS.child (by simp [children]))
    have sr' := sc r (hS.child (by simp [children]))
    have L := ihl hsl hil (hS.child (by simp [children])) ht.1 (free hf (by simp [children])) (hdc hd (by simp [children])) hp.1
    have R := ihr hsr hir (hS.child (by simp [children])) ht.2 (free hf (by simp [children])) (hdc hd (by simp [children])) hp.2
    obtain ⟨⟨c1, -, -⟩, ⟨c3, -, -⟩, -⟩ := hc
    simp only [den, el', er']
    exact ((L c1).zipL (fun _ _ _ => by ring) sr').zip (fun _ _ _ => by ring)
      ((R c3).zipL (fun _ _ _ => by ring) sl')
  | div l r ihl ihr =>
    intro st ei h1 h3 hS ht hf hd hp hc
    obtain ⟨inv, hinv⟩ : LawfulDiv F := hd.resolve_right fun h => h.1 l r (.refl _)
    simp only [subst, Node.adjoint, Option.bind_eq_some_iff, Option.map_eq_some_iff] at h1 h3
    obtain ⟨sl, hsl, sr, hsr, rfl⟩ := h1
    obtain ⟨il, hil, ir, hir, rfl⟩ := h3
    simp only [Node.contains, Bool.or_eq_false_iff] at ht
    have el' := hs l hp.1
    have er' := hs r hp.2
    have sl' := sc l (hS.child (by simp [children]))
    have sr' := sc r (hS.child (by simp [children]))
    have L := ihl hsl hil (hS.child (by simp [children])) ht.1 (free hf (by simp [children])) (hdc hd (by simp [children])) hp.1
    have R := ihr hsr hir (hS.child (by simp [children])) ht.2 (free hf (by simp [children])) (hdc hd (by simp [children])) hp.2
    obtain ⟨⟨⟨-, c1, -⟩, ⟨-, c3, -⟩, -⟩, -, -⟩ := hc
    simp only [den, el', er']
    exact (((L c1).zipR (fun _ _ _ => by ring) sr').zip (fun _ _ _ => by ring)
      ((R c3).zipR (fun _ _ _ => by ring) sl')).zipL (fun _ _ _ => by simp only [hinv]; ring) sr'
  | power l r ihl ihr =>
    intro st ei h1 h3 hS ht hf hd hp hc
    simp only [subst, Node.adjoint, Option.bind_eq_some_iff, Option.map_eq_some_iff] at h1 h3
    obtain ⟨sl, hsl, sr, hsr, rfl⟩ := h1
    obtain ⟨il, hil, ir, hir, rfl⟩ := h3
    simp only [Node.contains, Bool.or_eq_false_iff] at ht
    have el' := hs l hp.1
    have er' := hs r hp.2
    have sl' := sc l (hS.child (by simp [children]))
    have sr' := sc r (hS.child (by simp [children]))
    have L := ihl hsl hil (hS.child (by simp [children])) ht.1 (free hf (by simp [children])) (hdc hd (by simp [children])) hp.1
    have R := ihr hsr hir (hS.child (by simp [children])) ht.2 (free hf (by simp [children])) (hdc hd (by simp [children])) hp.2
    obtain ⟨-, ⟨⟨-, c1, -⟩, ⟨-, c3, -⟩, -⟩, -⟩ := hc
    simp only [den, el', er']
    exact Scaled.zipR (f := (· * ·)) (fun _ _ _ => by ring)
      (((L c1).zipR (f := (· * ·)) (fun _ _ _ => by ring) sr').zip (f := (· + ·)) (fun _ _ _ => by ring)
      ((R c3).zipR (f := (· * ·)) (fun _ _ _ => by ring) sl')) rfl
  | contract k l r ihl ihr =>
    intro st ei h1 h3 hS ht hf hd hp hc
    simp only [subst, Node.adjoint, Option.bind_eq_some_iff, Option.map_eq_some_iff] at h1 h3
    obtain ⟨sl, hsl, sr, hsr, rfl⟩ := h1
    obtain ⟨il, hil, ir, hir, rfl⟩ := h3
    simp only [Node.contains, Bool.or_eq_false_iff] at ht
    have el' := hs l hp.1
    have er' := hs r hp.2
    have sl' := sc l (hS.child (by simp [children]))
    have sr' := sc r (hS.child (by simp [children]))
    have L := ihl hsl hil (hS.child (by simp [children])) ht.1 (free hf (by simp [children])) (hdc hd (by simp [children])) hp.1
    have R := ihr hsr hir (hS.child (by simp [children])) ht.2 (free hf (by simp [children])) (hdc hd (by simp [children])) hp.2
    obtain ⟨⟨-, c1, c2⟩, ⟨c3, -, c4⟩, -⟩ := hc
    have R := R c1
    have L := L c3
    simp only [den]
    rw [el', sl'] at c2
    rw [er', sr'] at c4
    rw [el', er', sl', sr']
    have k1 : (if ([] : Dims) = [] ∧ (den ρ sr).dims = [] then 0 else k) = 0 := by
      split_ifs with h
      · rfl
      · rcases c2 with c2 | ⟨p, q, s, hq, hl, -⟩
        · exact absurd c2 h
        · rw [← hq, (List.nil_eq_append_iff.1 hl).2]; rfl
    have k2 : (if (den ρ sl).dims = [] ∧ ([] : Dims) = [] then 0 else k) = 0 := by
      split_ifs with h
      · rfl
      · rcases c4 with c4 | ⟨p, q, s, hq, -, hr⟩
        · exact absurd c4 h
        · rw [← hq, (List.nil_eq_append_iff.1 hr).1]; rfl
    rw [k1, k2, if_pos ⟨rfl, R.dimsC⟩, if_pos ⟨L.dimsC, rfl⟩]
    exact (R.contractR sl').zip (fun _ _ _ => by ring) (L.contractL sr')
  | sum m ih =>
    intro st ei h1 h3 hS ht hf hd hp hc
    exact ih h1 h3 (hS.child (by simp [children])) ht (free hf (by simp [children])) (hdc hd (by simp [children])) hp hc
  | un op m ih =>
    intro st ei h1 h3 hS ht hf hd hp hc
    have hm := hs m hp
    have sm' := sc m (hS.child (by simp [children]))
    have smap : ∀ f : F → F, ((den ρ' m).map f).dims = [] := fun _ => sm'
    have M := fun {sm im : Node F} (h1 : (subst i n m).adjoint t = some sm)
      (h3 : m.adjoint i = some im) =>
      ih h1 h3 (hS.child (by simp [children])) ht (free hf (by simp [children])) (hdc hd (by simp [children])) hp
    cases op <;> simp only [subst, Node.adjoint, Option.map_eq_some_iff, reduceCtorEq] at h1 h3
    case subOne | addOne => exact M h1 h3 hc
    all_goals
      obtain ⟨sm, hsm, rfl⟩ := h1
      obtain ⟨im, him, rfl⟩ := h3
    case oneSub | negate | double =>
      exact (M hsm him hc).map fun _ _ => by simp only [UnOp.apply]; ring
    case square | sign | abs | exp | rabbit =>
      simp only [den, hm]
      exact (M hsm him hc.2.1).zipR (fun _ _ _ => by ring) sm'
    case xlnx | sigmoid | logGamma | sin =>
      simp only [den, hm]
      exact (M hsm him hc.1).zipL (fun _ _ _ => by ring) sm'
    case ln =>
      obtain ⟨inv, hinv⟩ : LawfulDiv F := hd.resolve_right fun h => h.2 m (.refl _)
      simp only [den, hm]
      exact (M hsm him hc.1).zipL (fun _ _ _ => by simp only [hinv]; ring) sm'
    case cos =>
      simp only [den, hm]
      exact ((M hsm him hc.1).zipL (f := (· * ·)) (fun _ _ _ => by ring) (smap _)).map
        fun _ _ => by simp only [UnOp.apply]; ring
    case gamma =>
      simp only [den, hm]
      exact ((M hsm him hc.1.1).zipL (f := (· * ·)) (fun _ _ _ => by ring) (smap _)).zipL
        (f := (· * ·)) (fun _ _ _ => by ring) (smap _)

end Aegir
