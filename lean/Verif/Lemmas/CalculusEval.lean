import Verif.Lemmas.Calculus
import Verif.Lemmas.AdjointSub
import Verif.Lemmas.Types
import Verif.Lemmas.Total
import Mathlib.Topology.Algebra.Order.LiminfLimsup
/-!
# Adjoints evaluate to derivatives
-/

namespace Aegir

open Spec

variable {Γ : Id → BTy}

section
variable {F : Type} [CommRing F] [Div F] [ScalarFns F] [LawfulScalar F]

theorem bcast_cases {a b c : Dims} (h : BCast a b c) : a = [] ∨ b = [] ∨ a = b := by
  cases h with
  | same => exact .inr (.inr rfl)
  | left => exact .inl rfl
  | right => exact .inr (.inl rfl)

/-- Whatever evaluates has operands of fitting shapes. -/
theorem FnImpl.compat_spec {ρ : Id → Tensor F} {e : Node F} {τ : BTy} (d : FnImpl Γ e τ)
    (hf : CacheFree e) (hr : FnImpl.Regular d) :
    Post ρ d.fn.evaluateSpec (fun s => Shp.dims τ s.shape = (den ρ e).dims ∧ Compat ρ e) ∧
      Post ρ d.fn.evaluateShape (fun s => Shp.dims τ s = (den ρ e).dims) := by
  have shapes : ∀ {a b c : BTy} {dl dr : Dims} {l : EvalM F Γ (Shp a)} {r : EvalM F Γ (Shp b)}
      (z : ZipImpl a b c), Post ρ l (fun s => Shp.dims a s = dl) →
      Post ρ r (fun s => Shp.dims b s = dr) →
      Post ρ (binM l r fun s t => Res.ofExcept (z.broadcast s t))
        (fun s => Shp.dims c s = if dl = [] then dr else dl) := by
    intro a b c dl dr l r z hl hr
    refine hl.binM hr fun x y s hx hy h => ?_
    have := bcast_dims (broadcast_ok z x y s ((Res.ofExcept_ok_iff _ _).1 h))
    rwa [hx, hy] at this
  have zips : ∀ {a b c : BTy} (z : ZipImpl a b c) {x : BSpec F a} {y : BSpec F b} {s : BSpec F c}
      {k : Res IncShapes (BSpec F c)} {dl dr : Dims}, FollowsShape k (z.broadcast x.shape y.shape) →
      k = .ok s → Shp.dims a x.shape = dl → Shp.dims b y.shape = dr →
      Shp.dims c s.shape = (if dl = [] then dr else dl) ∧ (dl = [] ∨ dr = [] ∨ dl = dr) := by
    intro a b c z x y s k dl dr hk h hx hy
    have := broadcast_ok z _ _ _ (hk.ok h)
    rw [hx, hy] at this
    exact ⟨bcast_dims this, bcast_cases this⟩
  induction d with
  | var i => exact ⟨(Post.read i).map fun _ h => ⟨h.1, trivial⟩, (Post.read i).map fun _ h => h.1⟩
  | varAdj i t k hrk =>
    have key : ∀ {α : Type} {P : α → Prop} (f : Shp (Γ i) → Shp (Γ t) → Res EvalErr α),
        (∀ si st x, Shp.dims _ si = (ρ i).dims → Shp.dims _ st = (ρ t).dims → f si st = .ok x → P x) →
        Post ρ ((((EvalM.read i).map (Buf.shape _)).mapErr .left).bind fun si =>
          (((EvalM.read t).map (Buf.shape _)).mapErr .right).bind fun st =>
            EvalM.lift (f si st)) P := by
      intro α P f hP
      exact (((Post.read i).map (Q := fun s => Shp.dims _ s = (ρ i).dims)
        fun _ h => h.1).mapErr _).bind fun si hi => (((Post.read t).map
          (Q := fun s => Shp.dims _ s = (ρ t).dims) fun _ h => h.1).mapErr _).bind fun st ht =>
          .lift fun s hs => hP si st s hi ht hs
    constructor
    · refine key _ fun si st s hi ht hs => ⟨?_, trivial⟩
      have := (varAdjSpec_tensor i t k hi ht (fun h => by rw [h]) s hs).1
      refine Eq.trans ?_ this
      rw [← BSpec.shape_unwrap]
      rfl
    · refine key _ fun si st s hi ht hs => ?_
      cases hs
      rw [concat_dims k si st, hi, ht]; rfl
  | const τ b =>
    refine ⟨.lift fun s hs => ?_, .lift fun s hs => ?_⟩
    · cases hs; exact ⟨rfl, trivial⟩
    · cases hs; rfl
  | constSpec τ s =>
    refine ⟨.lift fun s' hs => ?_, .lift fun s' hs => ?_⟩
    · cases hs; exact ⟨by cases s <;> rfl, trivial⟩
    · cases hs; cases s <;> rfl
  | constAdj d t k ih =>
    have ih := ih (hf.child (by simp [children])) hr
    have key := (ih.2.mapErr EvalErr.left).bind (f := fun sn =>
        (((EvalM.read t).map (Buf.shape _)).mapErr EvalErr.right).bind fun st =>
          EvalM.lift (.ok (k.shape sn st)))
      (Q := fun s => Shp.dims _ s = (den ρ (.constAdj _ t)).dims)
      fun sn hsn => (((Post.read t).map
          (Q := fun s => Shp.dims _ s = (ρ t).dims) fun _ h => h.1).mapErr _).bind fun st ht =>
          .lift fun s hs => by
            cases hs
            rw [concat_dims k sn st, hsn, ht]; rfl
    exact ⟨key.map fun s hs => ⟨hs, trivial⟩, key⟩
  | cached i d ih => exact absurd (.refl _) (hf _ i)
  | sum d ih =>
    have ih := ih (hf.child (by simp [children])) hr
    refine ⟨ih.1.bind fun s hs => .lift fun s' hs' => ⟨rfl, hs.2⟩, .lift fun _ _ => rfl⟩
  | un op d ih =>
    have ih := ih (hf.child (by simp [children])) hr
    refine ⟨ih.1.map fun s hs => ⟨?_, hs.2⟩, ih.2⟩
    rw [unSpec_shape]
    exact hs.1
  | add dl dr z ihl ihr =>
    have ihl := ihl (hf.child (by simp [children])) hr.1
    have ihr := ihr (hf.child (by simp [children])) hr.2
    refine ⟨ihl.1.binM ihr.1 fun x y s hx hy h => ?_, shapes z ihl.2 ihr.2⟩
    have := zips z (addSpec_follows z x y) h hx.1 hy.1
    exact ⟨this.1, hx.2, hy.2, this.2⟩
  | sub dl dr z ihl ihr =>
    have ihl := ihl (hf.child (by simp [children])) hr.1
    have ihr := ihr (hf.child (by simp [children])) hr.2.1
    refine ⟨ihl.1.binM ihr.1 fun x y s hx hy h => ?_, shapes z ihl.2 ihr.2⟩
    have := zips z (subSpec_follows z x y) h hx.1 hy.1
    exact ⟨this.1, hx.2, hy.2, this.2⟩
  | mul dl dr z ihl ihr =>
    have ihl := ihl (hf.child (by simp [children])) hr.1
    have ihr := ihr (hf.child (by simp [children])) hr.2
    refine ⟨ihl.1.binM ihr.1 fun x y s hx hy h => ?_, shapes z ihl.2 ihr.2⟩
    have := zips z (mulSpec_follows z x y) h hx.1 hy.1
    exact ⟨this.1, hx.2, hy.2, this.2⟩
  | div dl dr z ihl ihr =>
    rename_i l r a b c
    have ihl := ihl (hf.child (by simp [children])) hr.1
    have ihr := ihr (hf.child (by simp [children])) hr.2.1
    have ofEval : ∀ {e : Node F} {τ : BTy} {d : FnImpl Γ e τ},
        Post ρ d.fn.evaluateSpec (fun s => Shp.dims τ s.shape = (den ρ e).dims ∧ Compat ρ e) →
        Post ρ d.fn.evaluate (fun b => Buf.dims τ b = (den ρ e).dims ∧ Compat ρ e) := by
      intro e τ d h
      rw [FnImpl.evaluate_eq]
      refine h.map fun s h => ⟨?_, h.2⟩
      rw [← h.1, ← BSpec.shape_unwrap]
      rfl
    refine ⟨((ofEval ihl.1).binM (ofEval ihr.1)
      (R := fun s => Buf.dims c s = (den ρ (.div l r)).dims ∧ Compat ρ (.div l r))
      fun x y s hx hy h => ?_).map fun _ h => h, shapes z ihl.2 ihr.2⟩
    rw [Buf.zipMapId_eq] at h
    have h1 := (Buf.zipMap_isZip z _ _ _ _ ((Res.ofExcept_ok_iff _ _).1 h)).1
    rw [hx.1, hy.1] at h1
    exact ⟨bcast_dims h1, hx.2, hy.2, bcast_cases h1⟩
  | power dl dr ihl ihr =>
    have ihl := ihl (hf.child (by simp [children])) hr.1
    have ihr := ihr (hf.child (by simp [children])) hr.2
    exact ⟨ihl.1.binM ihr.1 fun x y s hx hy h => ⟨rfl, hx.2, hy.2, hx.1.symm, hy.1.symm⟩,
      .lift fun s _ => rfl⟩
  | contract dl dr z ihl ihr =>
    have ihl := ihl (hf.child (by simp [children])) hr.1
    have ihr := ihr (hf.child (by simp [children])) hr.2.1
    have hmv := hr.2.2.1
    have hvm := hr.2.2.2
    refine ⟨ihl.1.binM ihr.1 fun x y s hx hy h => ?_, ihl.2.binM ihr.2 fun x y s hx hy h => ?_⟩
    · refine ⟨?_, hx.2, hy.2, ?_⟩
      · simp only [den, Tensor.contract]
        rw [← hx.1, ← hy.1]
        cases z with
        | mv n m => have := hmv n m rfl rfl rfl; subst this; rfl
        | vm n m => have := hvm n m rfl rfl rfl; subst this; rfl
        | _ => rfl
      · rw [← hx.1, ← hy.1]
        cases z with
        | ss0 | ss1 => exact .inl ⟨rfl, rfl⟩
        | vs0 | sv0 | ms0 | vv0 | sm0 => exact .inr ⟨_, [], _, rfl, (List.append_nil _).symm, rfl⟩
        | dot n => exact .inr ⟨[], [n], [], rfl, rfl, rfl⟩
        | mv n m => have := hmv n m rfl rfl rfl; subst this; exact .inr ⟨[n], [n], [], rfl, rfl, rfl⟩
        | mm n k m => exact .inr ⟨[n], [k], [m], rfl, rfl, rfl⟩
        | vm n m => exact .inr ⟨[], [n], [m], rfl, rfl, rfl⟩
    · exact contractShape_tensor z hmv hx hy ((Res.ofExcept_ok_iff _ _).1 h)

end

/-! ## Types of adjoints with respect to a scalar -/

section
variable {F : Type}

theorem ZipImpl.self_out {a c : BTy} (z : ZipImpl a a c) : c = a := by cases z <;> rfl

theorem ConcatImpl.scalar_right {a c : BTy} (z : ConcatImpl a .scalar c) : c = a := by
  cases z <;> rfl

/-- Regularity is a matter of the node, not of the derivation. -/
theorem Spec.FnImpl.Regular.transfer [CommRing F] {e : Node F} {τ σ : BTy} {d : FnImpl Γ e τ}
    (h : FnImpl.Regular d) (d' : FnImpl Γ e σ) : FnImpl.Regular d' := by
  induction d generalizing σ with
  | var i => cases d'; trivial
  | varAdj i t k _ => cases d'; trivial
  | const τ b => cases d'; trivial
  | constSpec τ s => cases d'; trivial
  | constAdj d t k ih => cases d' with | constAdj d' _ _ => exact ih h d'
  | cached i d ih => cases d' with | cached _ d' => exact ih h d'
  | add dl dr z ihl ihr =>
    cases d' with | add dl' dr' z' => exact ⟨ihl h.1 dl', ihr h.2 dr'⟩
  | mul dl dr z ihl ihr =>
    cases d' with | mul dl' dr' z' => exact ⟨ihl h.1 dl', ihr h.2 dr'⟩
  | power dl dr ihl ihr =>
    cases d' with | power dl' dr' => exact ⟨ihl h.1 dl', ihr h.2 dr'⟩
  | sub dl dr z ihl ihr =>
    cases d' with
    | sub dl' dr' z' =>
      obtain rfl := dl.type_unique dl'
      obtain rfl := dr.type_unique dr'
      exact ⟨ihl h.1 dl', ihr h.2.1 dr', h.2.2⟩
  | div dl dr z ihl ihr =>
    cases d' with
    | div dl' dr' z' =>
      obtain rfl := dl.type_unique dl'
      obtain rfl := dr.type_unique dr'
      exact ⟨ihl h.1 dl', ihr h.2.1 dr', h.2.2⟩
  | contract dl dr z ihl ihr =>
    cases d' with
    | contract dl' dr' z' =>
      obtain rfl := dl.type_unique dl'
      obtain rfl := dr.type_unique dr'
      exact ⟨ihl h.1 dl', ihr h.2.1 dr', h.2.2⟩
  | sum d ih => cases d' with | sum d' => exact ih h d'
  | un op d ih => cases d' with | un _ d' => exact ih h d'

/-- With respect to a scalar, the adjoint has the type of the expression, and it is regular if the
expression is. -/
theorem adjoint_regular [CommRing F] {e e' : Node F} {t : Id} (h : e.adjoint t = some e')
    (ht : Γ t = .scalar) (hs : SumFree e) {τ σ : BTy} {d : FnImpl Γ e τ} (hr : FnImpl.Regular d)
    (da : FnImpl Γ e' σ) : σ = τ ∧ FnImpl.Regular da := by
  induction e generalizing e' τ σ with
  | var i =>
    cases h
    cases d with | var =>
    cases da with | varAdj _ _ k _ =>
    rw [ht] at k
    exact ⟨k.scalar_right, trivial⟩
  | varAdj i j =>
    cases h
    cases da with
    | constAdj d' _ k =>
      obtain rfl := d.type_unique d'
      refine ⟨?_, hr.transfer d'⟩
      rw [ht] at k
      exact k.scalar_right
  | const σ b =>
    cases h
    cases da with
    | constAdj d' _ k =>
      obtain rfl := d.type_unique d'
      refine ⟨?_, hr.transfer d'⟩
      rw [ht] at k
      exact k.scalar_right
  | constSpec | constAdj => cases h
  | cached n i ih =>
    simp only [Node.adjoint] at h
    split at h
    · cases d with | cached _ d => exact ih h (hs.child (by simp [children])) hr da
    · cases h
  | add l r ihl ihr =>
    simp only [Node.adjoint, Option.bind_eq_some_iff, Option.map_eq_some_iff] at h
    obtain ⟨l', hl, r', hr', rfl⟩ := h
    cases d with | add dl dr z =>
    cases da with | add dl' dr' z' =>
    obtain ⟨rfl, h1⟩ := ihl hl (hs.child (by simp [children])) hr.1 dl'
    obtain ⟨rfl, h2⟩ := ihr hr' (hs.child (by simp [children])) hr.2 dr'
    exact ⟨z'.out_unique z, h1, h2⟩
  | sub l r ihl ihr =>
    simp only [Node.adjoint, Option.bind_eq_some_iff, Option.map_eq_some_iff] at h
    obtain ⟨l', hl, r', hr', rfl⟩ := h
    cases d with | sub dl dr z =>
    cases da with | sub dl' dr' z' =>
    obtain ⟨rfl, h1⟩ := ihl hl (hs.child (by simp [children])) hr.1 dl'
    obtain ⟨rfl, h2⟩ := ihr hr' (hs.child (by simp [children])) hr.2.1 dr'
    exact ⟨z'.out_unique z, h1, h2, hr.2.2⟩
  | mul l r ihl ihr =>
    simp only [Node.adjoint, Option.bind_eq_some_iff, Option.map_eq_some_iff] at h
    obtain ⟨l', hl, r', hr', rfl⟩ := h
    cases d with | mul dl dr z =>
    cases da with | add d1 d2 z' =>
    cases d1 with | mul d3 d4 z1 =>
    cases d2 with | mul d5 d6 z2 =>
    obtain rfl := dl.type_unique d6
    obtain rfl := dr.type_unique d4
    obtain ⟨rfl, h1⟩ := ihl hl (hs.child (by simp [children])) hr.1 d3
    obtain ⟨rfl, h2⟩ := ihr hr' (hs.child (by simp [children])) hr.2 d5
    obtain rfl := z1.out_unique z
    obtain rfl := z2.out_unique z.symm
    exact ⟨z'.self_out, ⟨h1, hr.2.transfer _⟩, h2, hr.1.transfer _⟩
  | div l r ihl ihr =>
    simp only [Node.adjoint, Option.bind_eq_some_iff, Option.map_eq_some_iff] at h
    obtain ⟨l', hl, r', hr', rfl⟩ := h
    cases d with | div dl dr z =>
    cases da with | div d1 d2 z' =>
    cases d2 with | un _ d7 =>
    cases d1 with | sub d1 d2 z'' =>
    cases d1 with | mul d3 d4 z1 =>
    cases d2 with | mul d5 d6 z2 =>
    obtain rfl := dl.type_unique d5
    obtain rfl := dr.type_unique d3
    obtain rfl := dr.type_unique d7
    obtain ⟨rfl, h1⟩ := ihl hl (hs.child (by simp [children])) hr.1 d4
    obtain ⟨rfl, h2⟩ := ihr hr' (hs.child (by simp [children])) hr.2.1 d6
    obtain rfl := z1.out_unique z.symm
    obtain rfl := z2.out_unique z
    obtain rfl := z''.self_out
    refine ⟨by cases z <;> cases z' <;> rfl, ⟨⟨hr.2.1.transfer _, h1⟩, ⟨hr.1.transfer _, h2⟩, ?_⟩,
      hr.2.1.transfer _, ?_⟩
    · rintro ⟨rfl, ds, hd, -⟩; cases hd
    · rintro ⟨rfl, ds, hd, -⟩
      cases (z.scalar_out).2.symm.trans hd
  | power l r ihl ihr =>
    simp only [Node.adjoint, Option.bind_eq_some_iff, Option.map_eq_some_iff] at h
    obtain ⟨l', hl, r', hr', rfl⟩ := h
    cases d with | power dl dr =>
    cases da with | mul d1 d2 z =>
    cases d1 with | power d3 d4 =>
    cases d4 with | un _ d4 =>
    cases d2 with | add d5 d6 z1 =>
    cases d5 with | mul d7 d8 z2 =>
    cases d6 with | mul d9 d10 z3 =>
    cases d9 with | un _ d9 =>
    obtain rfl := dl.type_unique d9
    obtain rfl := dr.type_unique d7
    obtain ⟨rfl, h1⟩ := ihl hl (hs.child (by simp [children])) hr.1 d8
    obtain ⟨rfl, h2⟩ := ihr hr' (hs.child (by simp [children])) hr.2 d10
    obtain rfl := z2.self_out
    obtain rfl := z3.self_out
    obtain rfl := z1.self_out
    exact ⟨z.self_out, ⟨hr.1.transfer _, hr.2.transfer _⟩, ⟨hr.2.transfer _, h1⟩,
      hr.1.transfer _, h2⟩
  | contract k l r ihl ihr =>
    simp only [Node.adjoint, Option.bind_eq_some_iff, Option.map_eq_some_iff] at h
    obtain ⟨l', hl, r', hr', rfl⟩ := h
    cases d with | contract dl dr z =>
    cases da with | add d1 d2 z' =>
    cases d1 with | contract d3 d4 z1 =>
    cases d2 with | contract d5 d6 z2 =>
    obtain rfl := dl.type_unique d3
    obtain rfl := dr.type_unique d6
    obtain ⟨rfl, h1⟩ := ihl hl (hs.child (by simp [children])) hr.1 d5
    obtain ⟨rfl, h2⟩ := ihr hr' (hs.child (by simp [children])) hr.2.1 d4
    obtain rfl := z1.out_unique z
    obtain rfl := z2.out_unique z
    exact ⟨z'.self_out, ⟨hr.1.transfer _, h2, hr.2.2⟩, h1, hr.2.1.transfer _, hr.2.2⟩
  | sum n ih => exact absurd (.refl _) (hs n)
  | un op n ih =>
    cases d with | un _ d =>
    have hr' : FnImpl.Regular d := hr
    have ih := fun {n'} {σ} hn (da : FnImpl Γ n' σ) =>
      ih (e' := n') (σ := σ) hn (hs.child (by simp [children])) hr' da
    have tr := fun {σ} (d' : FnImpl Γ n σ) => (⟨d'.type_unique d, hr'.transfer d'⟩ :
      σ = _ ∧ FnImpl.Regular d')
    cases op <;> simp only [Node.adjoint, Option.map_eq_some_iff, reduceCtorEq] at h
    case subOne | addOne => exact ih h da
    case oneSub | negate | double =>
      obtain ⟨n', hn, rfl⟩ := h
      cases da with | un _ da => exact ih hn da
    case square | sign | abs | exp =>
      obtain ⟨n', hn, rfl⟩ := h
      cases da with | mul d1 d2 z =>
      cases d1 with | un _ d1 =>
      obtain ⟨rfl, h1⟩ := ih hn d2
      obtain ⟨rfl, h2⟩ := tr d1
      exact ⟨z.self_out, h2, h1⟩
    case rabbit =>
      obtain ⟨n', hn, rfl⟩ := h
      cases da with | mul d1 d2 z =>
      cases d1 with | un _ d1 =>
      cases d1 with | un _ d1 =>
      obtain ⟨rfl, h1⟩ := ih hn d2
      obtain ⟨rfl, h2⟩ := tr d1
      exact ⟨z.self_out, h2, h1⟩
    case logGamma | sin =>
      obtain ⟨n', hn, rfl⟩ := h
      cases da with | mul d1 d2 z =>
      cases d2 with | un _ d2 =>
      obtain ⟨rfl, h1⟩ := ih hn d1
      obtain ⟨rfl, h2⟩ := tr d2
      exact ⟨z.self_out, h1, h2⟩
    case xlnx | sigmoid =>
      obtain ⟨n', hn, rfl⟩ := h
      cases da with | mul d1 d2 z =>
      cases d2 with | un _ d2 =>
      cases d2 with | un _ d2 =>
      obtain ⟨rfl, h1⟩ := ih hn d1
      obtain ⟨rfl, h2⟩ := tr d2
      exact ⟨z.self_out, h1, h2⟩
    case ln =>
      obtain ⟨n', hn, rfl⟩ := h
      cases da with | div d1 d2 z =>
      obtain ⟨rfl, h1⟩ := ih hn d1
      obtain ⟨rfl, h2⟩ := tr d2
      refine ⟨z.self_out, h1, h2, ?_⟩
      rintro ⟨rfl, ds, hd, -⟩
      cases hd
    case gamma =>
      obtain ⟨n', hn, rfl⟩ := h
      cases da with | mul d1 d2 z =>
      cases d2 with | un _ d2 =>
      cases d1 with | mul d3 d4 z' =>
      cases d4 with | un _ d4 =>
      obtain ⟨rfl, h1⟩ := ih hn d3
      obtain ⟨rfl, h2⟩ := tr d2
      obtain ⟨rfl, h3⟩ := tr d4
      obtain rfl := z'.self_out
      exact ⟨z.self_out, ⟨h1, h3⟩, h2⟩
    case cos =>
      obtain ⟨n', hn, rfl⟩ := h
      cases da with | un _ d1 =>
      cases d1 with | mul d3 d4 z' =>
      cases d4 with | un _ d4 =>
      obtain ⟨rfl, h1⟩ := ih hn d3
      obtain ⟨rfl, h2⟩ := tr d4
      exact ⟨z'.self_out, h1, h2⟩

end

/-! ## Smoothness and the `Power` shortcuts -/

theorem Spec.Smooth.sub {ρ : Id → Tensor ℝ} {t : Id} {s e : Node ℝ} (hs : SubExpr s e)
    (h : Smooth ρ t e) : Smooth ρ t s := by
  induction hs with
  | refl => exact h
  | @step e' e'' hc _ ih =>
    refine ih ?_
    cases e'' <;> simp only [children, List.mem_cons, List.not_mem_nil, or_false] at hc
    case constAdj | cached => subst hc; exact h
    case sum | un => subst hc; exact h.1
    case add | sub | mul => rcases hc with rfl | rfl <;> [exact h.1; exact h.2]
    case div | power | contract => rcases hc with rfl | rfl <;> [exact h.1; exact h.2.1]

theorem powSafe_of_smooth {ρ : Id → Tensor ℝ} {t : Id} {e : Node ℝ} (h : Smooth ρ t e) :
    PowSafe ρ e := by
  intro l r hs
  rcases (h.sub hs).2.2 with hp | ⟨-, n, hn, hv, -⟩
  · exact .inr fun h0 => absurd h0 hp.ne'
  · refine .inr fun _ => ?_
    rw [hv]
    exact Real.zero_rpow (by positivity)

theorem powSafe_adjoint {ρ : Id → Tensor ℝ} {t : Id} {e e' : Node ℝ} (ha : e.adjoint t = some e')
    (h : Smooth ρ t e) : PowSafe ρ e' := by
  intro l r hs'
  cases adjoint_sub ha hs' with
  | old hs => exact powSafe_of_smooth h l r hs
  | @power _ r hs =>
    rcases (h.sub hs).2.2 with hp | ⟨-, n, hn, hv, he | hb | h2⟩
    · exact .inr fun h0 => absurd h0 hp.ne'
    · exact .inl he
    · exact .inr fun h0 => absurd h0 hb
    · refine .inr fun _ => ?_
      have : (den ρ (.un .subOne r)).val [] = (n : ℝ) - 1 := by
        rw [← hv]; rfl
      rw [this]
      have h2 : (2 : ℝ) ≤ n := by exact_mod_cast h2
      exact Real.zero_rpow (by linarith)

open Topology Filter in
/-- Smoothness is an open condition on the value of an operand. -/
theorem smoothAt_open (op : UnOp) {x : ℝ} (h : UnOp.SmoothAt op x) :
    ∀ᶠ y in 𝓝 x, UnOp.SmoothAt op y := by
  have hg : (∀ m : ℕ, x ≠ -m) → ∀ᶠ y : ℝ in 𝓝 x, ∀ m : ℕ, y ≠ -m := by
    intro hx
    have hc : IsClosed ((fun z : ℤ => (z : ℝ)) '' {z | z ≤ 0}) :=
      Int.isClosedEmbedding_coe_real.isClosedMap _ (isClosed_discrete _)
    have hn : x ∉ (fun z : ℤ => (z : ℝ)) '' {z | z ≤ 0} := by
      rintro ⟨z, hz, rfl⟩
      obtain ⟨m, rfl⟩ := Int.exists_eq_neg_ofNat hz
      exact hx m (by push_cast; rfl)
    filter_upwards [hc.isOpen_compl.mem_nhds hn] with y hy m hm
    exact hy ⟨-m, by simp, by push_cast; exact hm.symm⟩
  cases op
  case sign | abs => exact isOpen_ne.mem_nhds h
  case ln | xlnx => exact lt_mem_nhds h
  case gamma | logGamma => exact hg h
  all_goals exact .of_forall fun _ => trivial

theorem affine_congr {ρ ρ' : Id → Tensor ℝ} {t : Id} (hd : ∀ i, (ρ i).dims = (ρ' i).dims)
    {e : Node ℝ} (h : Affine ρ t e) : Affine ρ' t e := by
  induction h with
  | var i => exact .var i
  | varAdj i j => exact .varAdj i j
  | const τ b => exact .const τ b
  | add _ _ ihl ihr => exact .add ihl ihr
  | sub _ _ ihl ihr => exact .sub ihl ihr
  | un hop _ ih => exact .un hop ih
  | scaleR _ hs hz ih => exact .scaleR ih hs (by rw [← den_dims_congr hd]; exact hz)
  | scaleL hs hz _ ih => exact .scaleL hs (by rw [← den_dims_congr hd]; exact hz) ih

theorem adjoint_children {ρ : Id → Tensor ℝ} {t : Id} {e e' : Node ℝ} (h : e.adjoint t = some e')
    (hc' : Compat ρ e') {n : Node ℝ} (hn : n ∈ children e) :
    ∃ n', n.adjoint t = some n' ∧ Compat ρ n' := by
  cases e with
  | var | varAdj | const | constSpec => simp [children] at hn
  | constAdj => cases h
  | cached m i =>
    simp only [children, List.mem_singleton] at hn
    subst hn
    simp only [Node.adjoint] at h
    split at h
    · exact ⟨e', h, hc'⟩
    · cases h
  | sum m =>
    simp only [children, List.mem_singleton] at hn
    subst hn
    exact ⟨e', h, hc'⟩
  | un op m =>
    simp only [children, List.mem_singleton] at hn
    subst hn
    obtain ⟨_, n', hn'⟩ := adjoint_un h
    exact ⟨n', hn', compat_un hn' h hc'⟩
  | add l r | sub l r =>
    simp only [children, List.mem_cons, List.not_mem_nil, or_false] at hn
    simp only [Node.adjoint, Option.bind_eq_some_iff, Option.map_eq_some_iff] at h
    obtain ⟨l', hl, r', hr, rfl⟩ := h
    rcases hn with rfl | rfl
    · exact ⟨l', hl, hc'.1⟩
    · exact ⟨r', hr, hc'.2.1⟩
  | mul l r =>
    simp only [children, List.mem_cons, List.not_mem_nil, or_false] at hn
    simp only [Node.adjoint, Option.bind_eq_some_iff, Option.map_eq_some_iff] at h
    obtain ⟨l', hl, r', hr, rfl⟩ := h
    rcases hn with rfl | rfl
    · exact ⟨l', hl, hc'.1.1⟩
    · exact ⟨r', hr, hc'.2.1.1⟩
  | div l r =>
    simp only [children, List.mem_cons, List.not_mem_nil, or_false] at hn
    simp only [Node.adjoint, Option.bind_eq_some_iff, Option.map_eq_some_iff] at h
    obtain ⟨l', hl, r', hr, rfl⟩ := h
    rcases hn with rfl | rfl
    · exact ⟨l', hl, hc'.1.1.2.1⟩
    · exact ⟨r', hr, hc'.1.2.1.2.1⟩
  | power l r =>
    simp only [children, List.mem_cons, List.not_mem_nil, or_false] at hn
    simp only [Node.adjoint, Option.bind_eq_some_iff, Option.map_eq_some_iff] at h
    obtain ⟨l', hl, r', hr, rfl⟩ := h
    rcases hn with rfl | rfl
    · exact ⟨l', hl, hc'.2.1.1.2.1⟩
    · exact ⟨r', hr, hc'.2.1.2.1.2.1⟩
  | contract k l r =>
    simp only [children, List.mem_cons, List.not_mem_nil, or_false] at hn
    simp only [Node.adjoint, Option.bind_eq_some_iff, Option.map_eq_some_iff] at h
    obtain ⟨l', hl, r', hr, rfl⟩ := h
    rcases hn with rfl | rfl
    · exact ⟨l', hl, hc'.2.1.1⟩
    · exact ⟨r', hr, hc'.1.2.1⟩

open Topology Filter in
theorem eventually_inBounds {α : Type} {l : Filter α} {D : Dims} {p : Idx → α → Prop}
    (h : ∀ ix, InBounds D ix → ∀ᶠ s in l, p ix s) : ∀ᶠ s in l, ∀ ix, InBounds D ix → p ix s := by
  induction D generalizing p with
  | nil =>
    filter_upwards [h [] .nil] with s hs ix hix
    cases hix
    exact hs
  | cons d D ih =>
    have : ∀ᶠ s in l, ∀ i ∈ Finset.range d, ∀ ix, InBounds D ix → p (i :: ix) s := by
      rw [Filter.eventually_all_finset]
      intro i hi
      exact ih fun ix hix => h _ (.cons (Finset.mem_range.1 hi) hix)
    filter_upwards [this] with s hs ix hix
    cases hix with
    | cons hi hix => exact hs _ (Finset.mem_range.2 hi) _ hix

open Topology Filter in
theorem den_eventually {ρ : Id → Tensor ℝ} {e e' : Node ℝ} {t : Id} (h : e.adjoint t = some e')
    (hc : Compat ρ e) (hc' : Compat ρ e') (hs : Smooth ρ t e) {K : Idx}
    (hk : InBounds (ρ t).dims K) {ix : Idx} (hix : InBounds (den ρ e).dims ix) {p : ℝ → Prop}
    (hp : ∀ᶠ y in 𝓝 ((den ρ e).val ix), p y) :
    ∀ᶠ s in 𝓝 ((ρ t).val K), p ((den (perturb ρ t K s) e).val ix) := by
  have := ((den_deriv h hc hc' hs hk).2 ix hix).continuousAt
  refine this.eventually ?_
  simp only [perturb_self]
  exact hp

open Topology Filter in
/-- Smoothness persists for nearby values of the target. -/
theorem smooth_eventually {ρ : Id → Tensor ℝ} {e e' : Node ℝ} {t : Id} (h : e.adjoint t = some e')
    (hc : Compat ρ e) (hc' : Compat ρ e') (hs : Smooth ρ t e) {K : Idx}
    (hk : InBounds (ρ t).dims K) :
    ∀ᶠ s in 𝓝 ((ρ t).val K), Smooth (perturb ρ t K s) t e := by
  have pd := den_perturb_dims ρ t K
  have pt : ∀ s, (perturb ρ t K s t).dims = (ρ t).dims := fun s => perturb_dims ρ t K s t
  induction e generalizing e' with
  | var | varAdj | const | constSpec => exact .of_forall fun _ => trivial
  | constAdj => cases h
  | cached n i ih =>
    obtain ⟨n', hn', hcn'⟩ := adjoint_children h hc' (n := n) (by simp [children])
    exact ih hn' hc hcn' hs
  | sum n ih =>
    obtain ⟨n', hn', hcn'⟩ := adjoint_children h hc' (n := n) (by simp [children])
    filter_upwards [ih hn' hc hcn' hs.1] with s hsn
    exact ⟨hsn, by rw [pd]; exact hs.2⟩
  | un op n ih =>
    obtain ⟨n', hn', hcn'⟩ := adjoint_children h hc' (n := n) (by simp [children])
    have : ∀ᶠ s in 𝓝 ((ρ t).val K), ∀ ix, InBounds (den ρ n).dims ix →
        UnOp.SmoothAt op ((den (perturb ρ t K s) n).val ix) :=
      eventually_inBounds fun ix hix =>
        den_eventually hn' hc hcn' hs.1 hk hix (smoothAt_open op (hs.2 ix hix))
    filter_upwards [ih hn' hc hcn' hs.1, this] with s hsn hop
    exact ⟨hsn, by rw [pd]; exact hop⟩
  | add l r ihl ihr | sub l r ihl ihr | mul l r ihl ihr =>
    obtain ⟨l', hl', hcl'⟩ := adjoint_children h hc' (n := l) (by simp [children])
    obtain ⟨r', hr', hcr'⟩ := adjoint_children h hc' (n := r) (by simp [children])
    filter_upwards [ihl hl' hc.1 hcl' hs.1, ihr hr' hc.2.1 hcr' hs.2] with s h1 h2
    exact ⟨h1, h2⟩
  | div l r ihl ihr =>
    obtain ⟨l', hl', hcl'⟩ := adjoint_children h hc' (n := l) (by simp [children])
    obtain ⟨r', hr', hcr'⟩ := adjoint_children h hc' (n := r) (by simp [children])
    have : ∀ᶠ s in 𝓝 ((ρ t).val K), ∀ ix, InBounds (den ρ r).dims ix →
        (den (perturb ρ t K s) r).val ix ≠ 0 :=
      eventually_inBounds fun ix hix =>
        den_eventually hr' hc.2.1 hcr' hs.2.1 hk hix (isOpen_ne.mem_nhds (hs.2.2 ix hix))
    filter_upwards [ihl hl' hc.1 hcl' hs.1, ihr hr' hc.2.1 hcr' hs.2.1, this] with s h1 h2 h3
    exact ⟨h1, h2, by rw [pd]; exact h3⟩
  | power l r ihl ihr =>
    obtain ⟨l', hl', hcl'⟩ := adjoint_children h hc' (n := l) (by simp [children])
    obtain ⟨r', hr', hcr'⟩ := adjoint_children h hc' (n := r) (by simp [children])
    have hix : InBounds (den ρ l).dims [] := by rw [hc.2.2.1]; exact .nil
    have : ∀ᶠ s in 𝓝 ((ρ t).val K),
        0 < (den (perturb ρ t K s) l).val [] ∨
        ¬ Occurs r t ∧ ∃ n : ℕ, 1 ≤ n ∧ (den (perturb ρ t K s) r).val [] = n ∧
          (EvalExplicit l ∨ (den (perturb ρ t K s) l).val [] ≠ 0 ∨ 2 ≤ n) := by
      rcases hs.2.2 with hp | ⟨ho, n, hn, hv, hb⟩
      · exact (den_eventually hl' hc.1 hcl' hs.1 hk hix (lt_mem_nhds hp)).mono fun s h => .inl h
      · have hv' : ∀ s, (den (perturb ρ t K s) r).val [] = n := fun s => by
          rw [den_congr (ρ' := ρ) r fun i hi => by
            simp only [perturb]
            rw [if_neg]
            rintro rfl
            exact ho hi, hv]
        rcases hb with he | hb | h2
        · exact .of_forall fun s => .inr ⟨ho, n, hn, hv' s, .inl he⟩
        · exact (den_eventually hl' hc.1 hcl' hs.1 hk hix (isOpen_ne.mem_nhds hb)).mono
            fun s h => .inr ⟨ho, n, hn, hv' s, .inr (.inl h)⟩
        · exact .of_forall fun s => .inr ⟨ho, n, hn, hv' s, .inr (.inr h2)⟩
    filter_upwards [ihl hl' hc.1 hcl' hs.1, ihr hr' hc.2.1 hcr' hs.2.1, this] with s h1 h2 h3
    exact ⟨h1, h2, h3⟩
  | contract k l r ihl ihr =>
    obtain ⟨l', hl', hcl'⟩ := adjoint_children h hc' (n := l) (by simp [children])
    obtain ⟨r', hr', hcr'⟩ := adjoint_children h hc' (n := r) (by simp [children])
    filter_upwards [ihl hl' hc.1 hcl' hs.1, ihr hr' hc.2.1 hcr' hs.2.1] with s h1 h2
    refine ⟨h1, h2, ?_⟩
    simp only [pd, pt]
    rcases hs.2.2 with h | h | h | ⟨h, h', h''⟩
    · exact .inl h
    · exact .inr (.inl h)
    · exact .inr (.inr (.inl h))
    · exact .inr (.inr (.inr ⟨h, h', affine_congr (fun i => (perturb_dims ρ t K s i).symm) h''⟩))

end Aegir
