import Verif.Lemmas.ApproxExpr
/-!
# Finite precision: shapes and derivatives
-/

namespace Aegir

open Spec

/-- What evaluates in finite precision is well-shaped. -/
theorem approx_compat {ρ : Id → Tensor ℝ} {E : Node ℝ} (hE : CacheFree E) {F : Type} [Zero F] [One F]
    [Add F] [Sub F] [Mul F] [Div F] [Neg F] [ScalarFns F] {val : F → ℝ} {u ε : ℝ} {Γ : Id → BTy}
    {e : Node F} {τ : BTy} (hA : Approx val u) (d : FnImpl Γ e τ) (hr : FnImpl.Regular d)
    (ha : Approximates val ε e E) (c : Ctx F Γ)
    (hc : ∀ i b, c i = some b → Buf.dims _ b = (ρ i).dims) :
    Stays c d.fn.evaluate (fun b => Buf.dims τ b = (den ρ E).dims ∧ Compat ρ E) ∧
      Stays c d.fn.evaluateSpec (fun s => Buf.dims τ s.unwrap = (den ρ E).dims ∧ Compat ρ E) ∧
      Stays c d.fn.evaluateShape (fun s => Shp.dims τ s = (den ρ E).dims) := by
  have shapes : ∀ {a b r : BTy} {dl dr : Dims}
      {l : EvalM F Γ (Shp a)} {m : EvalM F Γ (Shp b)}
      (z : ZipImpl a b r), Stays c l (fun s => Shp.dims a s = dl) →
      Stays c m (fun s => Shp.dims b s = dr) →
      Stays c (binM l m fun s t => Res.ofExcept (z.broadcast s t))
        (fun s => Shp.dims r s = if dl = [] then dr else dl) := by
    intro a b r dl dr l m z hl hr
    refine hl.binM hr fun x y s hx hy h => ?_
    have := bcast_dims (broadcast_ok z x y s ((Res.ofExcept_ok_iff _ _).1 h))
    rwa [hx, hy] at this
  have three : ∀ {τ : BTy} {ds : Dims} {ms : EvalM F Γ (BSpec F τ)} {P Q : Prop},
      Stays c ms (fun s => Buf.dims τ s.unwrap = ds ∧ Q) → P →
      Stays c (ms.map BSpec.unwrap) (fun b => Buf.dims τ b = ds ∧ Q) ∧
        Stays c ms (fun s => Buf.dims τ s.unwrap = ds ∧ Q) ∧ P :=
    fun h hp => ⟨h.map fun _ h => h, h, hp⟩
  have fits : ∀ {a b c : BTy} {x : Buf F a} {y : Buf F b} {r : Buf F c} {P : F → F → F → Prop}
      {A B : Tensor ℝ} {f : ℝ → ℝ → ℝ}, Buf.dims a x = A.dims → Buf.dims b y = B.dims →
      ZipRel x y P r →
      Buf.dims c r = (Tensor.zip f A B).dims ∧ (A.dims = [] ∨ B.dims = [] ∨ A.dims = B.dims) := by
    intro a b c x y r P A B f hx hy h
    have h1 := h.1
    rw [hx, hy] at h1
    exact ⟨bcast_dims h1, bcast_cases h1⟩
  have hfc : ∀ {E n : Node ℝ}, CacheFree E → n ∈ children E → CacheFree n :=
    fun hf he' m i hs => hf m i (.step he' hs)
  have hrd : ∀ j, Stays c (EvalM.read j : EvalM F Γ _) (fun b => Buf.dims _ b = (ρ j).dims) :=
    fun j => ⟨(Stays.read j).1, fun b hb => hc j b ((Stays.read j).2 b hb)⟩
  have hrs : ∀ j, Stays c ((EvalM.read j : EvalM F Γ _).map (Buf.shape _))
      (fun s => Shp.dims _ s = (ρ j).dims) := fun j => (hrd j).map fun b hb => hb
  induction E generalizing e τ with
  | var i =>
    cases ha
    cases d with
    | var =>
    exact ⟨⟨(hrd i).1, fun b hb => ⟨(hrd i).2 b hb, trivial⟩⟩, (hrd i).map fun _ h => ⟨h, trivial⟩,
      hrs i⟩
  | varAdj i t =>
    cases ha
    cases d with
    | varAdj _ _ k hrk =>
    refine three ?_ ?_
    · refine ((hrs i).mapErr _).bind fun si hi => ((hrs t).mapErr _).bind fun st ht =>
        .lift fun s hs => ?_
      have hT := varAdjSpec_tensor (S := .const (ρ i).dims (0 : F)) (T := .const (ρ t).dims 0) i t k
        hi ht (fun h => by rw [h]) s hs
      exact ⟨hT.1, trivial⟩
    · refine ((hrs i).mapErr _).bind fun si hi => ((hrs t).mapErr _).bind fun st ht =>
        .lift fun s hs => ?_
      cases hs
      rw [concat_dims k si st, hi, ht]; rfl
  | const τ b =>
    cases ha with
    | const hb =>
    cases d with
    | const =>
    refine three (.lift fun s hs => ?_) (.lift fun s hs => ?_)
    · cases hs; exact ⟨hb.1, trivial⟩
    · cases hs; exact hb.1
  | constSpec τ s =>
    cases ha with
    | constSpec hb =>
    cases d with
    | constSpec =>
    refine three (.lift fun s' hs => ?_) (.lift fun s' hs => ?_)
    · cases hs; exact ⟨hb.1, trivial⟩
    · cases hs
      refine Eq.trans ?_ hb.1
      rw [Buf.dims, BSpec.shape_unwrap]
  | constAdj n t ih =>
    cases ha with
    | constAdj _ ha =>
    cases d with
    | constAdj d _ k =>
    have ih := ih (hfc hE (by simp [children])) d hr ha
    have key := (ih.2.2.mapErr EvalErr.left).bind (f := fun sn =>
        (((EvalM.read t).map (Buf.shape _)).mapErr EvalErr.right).bind fun st =>
          EvalM.lift (.ok (k.shape sn st)))
      (Q := fun s => Shp.dims _ s = (den ρ (.constAdj n t)).dims)
      fun sn hsn => ((hrs t).mapErr _).bind fun st ht => .lift fun s hs => by
        cases hs
        rw [concat_dims k sn st, hsn, ht]; rfl
    refine three (key.map fun s hs => ⟨?_, trivial⟩) key
    rw [Buf.dims, BSpec.shape_unwrap]
    exact hs
  | cached n i ih => exact absurd (.refl _) (hE n i)
  | add l r ihl ihr =>
    cases ha with
    | add hal har =>
    cases d with
    | add dl dr z =>
    have ihl := ihl (hfc hE (by simp [children])) dl hr.1 hal
    have ihr := ihr (hfc hE (by simp [children])) dr hr.2 har
    refine three (ihl.2.1.binM ihr.2.1 fun x y s hx hy hs => ?_) (shapes z ihl.2.2 ihr.2.2)
    have := fits (f := (· + ·)) hx.1 hy.1 (addSpec_rel z x y s hs)
    exact ⟨this.1, hx.2, hy.2, this.2⟩
  | sub l r ihl ihr =>
    cases ha with
    | sub hal har =>
    cases d with
    | sub dl dr z =>
    have ihl := ihl (hfc hE (by simp [children])) dl hr.1 hal
    have ihr := ihr (hfc hE (by simp [children])) dr hr.2.1 har
    refine three (ihl.2.1.binM ihr.2.1 fun x y s hx hy hs => ?_) (shapes z ihl.2.2 ihr.2.2)
    have := fits (f := (· - ·)) hx.1 hy.1 (subSpec_rel z (not_swaps z hr.2.2) x y s hs)
    exact ⟨this.1, hx.2, hy.2, this.2⟩
  | mul l r ihl ihr =>
    cases ha with
    | mul hal har =>
    cases d with
    | mul dl dr z =>
    have ihl := ihl (hfc hE (by simp [children])) dl hr.1 hal
    have ihr := ihr (hfc hE (by simp [children])) dr hr.2 har
    refine three (ihl.2.1.binM ihr.2.1 fun x y s hx hy hs => ?_) (shapes z ihl.2.2 ihr.2.2)
    have := fits (f := (· * ·)) hx.1 hy.1 (mulSpec_rel z x y s hs)
    exact ⟨this.1, hx.2, hy.2, this.2⟩
  | div l r ihl ihr =>
    cases ha with
    | div hal har =>
    cases d with
    | div dl dr z =>
    have ihl := ihl (hfc hE (by simp [children])) dl hr.1 hal
    have ihr := ihr (hfc hE (by simp [children])) dr hr.2.1 har
    have key : Stays c (FnImpl.div dl dr z).fn.evaluate
        (fun b => Buf.dims _ b = (den ρ (.div l r)).dims ∧ Compat ρ (.div l r)) := by
      refine ihl.1.binM ihr.1 fun x y s hx hy hs => ?_
      rw [Buf.zipMapId_eq] at hs
      have := fits (P := fun _ _ _ => True) (f := (· / ·)) hx.1 hy.1
        (zipRel_of_zipMap ((Res.ofExcept_ok_iff _ _).1 hs) fun u v _ _ => trivial)
      exact ⟨this.1, hx.2, hy.2, this.2⟩
    exact ⟨key, key.map fun _ h => h, shapes z ihl.2.2 ihr.2.2⟩
  | power l r ihl ihr =>
    cases ha with
    | power hal har =>
    cases d with
    | power dl dr =>
    have ihl := ihl (hfc hE (by simp [children])) dl hr.1 hal
    have ihr := ihr (hfc hE (by simp [children])) dr hr.2 har
    exact three (ihl.2.1.binM ihr.2.1 fun x y s hx hy hs =>
      ⟨rfl, hx.2, hy.2, hx.1.symm, hy.1.symm⟩) (.lift fun s _ => rfl)
  | contract k l r ihl ihr =>
    cases ha with
    | contract _ hal har =>
    cases d with
    | contract dl dr z =>
    have ihl := ihl (hfc hE (by simp [children])) dl hr.1 hal
    have ihr := ihr (hfc hE (by simp [children])) dr hr.2.1 har
    obtain ⟨_, _, hmv, hvm⟩ := hr
    refine three (ihl.2.1.binM ihr.2.1 fun x y s hx hy hs => ?_)
      (ihl.2.2.binM ihr.2.2 fun x y s hx hy h =>
        contractShape_tensor z hmv hx hy ((Res.ofExcept_ok_iff _ _).1 h))
    have hn := nearT_contract hA.toRounding z hmv hvm (nearT_heldBy hx.1) (nearT_heldBy hy.1) hs
    refine ⟨hn.2.1, hx.2, hy.2, ?_⟩
    rw [← hx.1, ← hy.1]
    cases z with
    | ss0 | ss1 => exact .inl ⟨rfl, rfl⟩
    | vs0 | sv0 | ms0 | vv0 | sm0 => exact .inr ⟨_, [], _, rfl, (List.append_nil _).symm, rfl⟩
    | dot n => exact .inr ⟨[], [n], [], rfl, rfl, rfl⟩
    | mv n m => have := hmv n m rfl rfl rfl; subst this; exact .inr ⟨[n], [n], [], rfl, rfl, rfl⟩
    | mm n k m => exact .inr ⟨[n], [k], [m], rfl, rfl, rfl⟩
    | vm n m => exact .inr ⟨[], [n], [m], rfl, rfl, rfl⟩
  | sum n ih =>
    cases ha with
    | sum ha =>
    cases d with
    | sum d =>
    have ih := ih (hfc hE (by simp [children])) d hr ha
    exact ⟨ih.1.map fun b hb => ⟨rfl, hb.2⟩,
      ih.2.1.bind fun s hs => .lift fun s' hs' => ⟨rfl, hs.2⟩, .lift fun _ _ => rfl⟩
  | un op n ih =>
    cases ha with
    | un ha =>
    cases d with
    | un _ d =>
    have ih := ih (hfc hE (by simp [children])) d hr ha
    have key : ∀ b : Buf F τ, Buf.dims τ b = (den ρ n).dims ∧ Compat ρ n →
        Buf.dims τ (Buf.mutate τ b op.apply) = (den ρ n).dims ∧ Compat ρ n := fun b hb => by
      rw [Buf.mutate_eq_map]
      exact ⟨(Buf.dims_map τ b _).trans hb.1, hb.2⟩
    refine ⟨ih.1.map key, ih.2.1.map fun s hs => ?_, ih.2.2⟩
    rw [unSpec_unwrap]
    exact key _ hs

/-- The derivatives of approximations approximate the derivative. -/
theorem Spec.Approximates.adjoint {F : Type} [Zero F] {val : F → ℝ} {ε : ℝ} {e e' : Node F}
    {E : Node ℝ} {t : Id} (ha : Approximates val ε e E) (h : e.adjoint t = some e') :
    ∃ E', E.adjoint t = some E' ∧ Approximates val ε e' E' := by
  induction ha generalizing e' with
  | var i => cases h; exact ⟨_, rfl, .varAdj _ _⟩
  | varAdj i j => cases h; exact ⟨_, rfl, .constAdj _ (.varAdj _ _)⟩
  | const hb => cases h; exact ⟨_, rfl, .constAdj _ (.const hb)⟩
  | constSpec hb => cases h
  | constAdj j _ ih => cases h
  | cached i ha ih =>
    simp only [Node.adjoint] at h ⊢
    split at h
    · next ht => simpa only [if_pos ht] using ih h
    · cases h
  | add hl hr ihl ihr =>
    simp only [Node.adjoint, Option.bind_eq_some_iff, Option.map_eq_some_iff] at h
    obtain ⟨l1, h1, r1, h2, rfl⟩ := h
    obtain ⟨l2, el, al⟩ := ihl h1
    obtain ⟨r2, er, ar⟩ := ihr h2
    exact ⟨.add l2 r2, by simp [Node.adjoint, el, er], .add al ar⟩
  | sub hl hr ihl ihr =>
    simp only [Node.adjoint, Option.bind_eq_some_iff, Option.map_eq_some_iff] at h
    obtain ⟨l1, h1, r1, h2, rfl⟩ := h
    obtain ⟨l2, el, al⟩ := ihl h1
    obtain ⟨r2, er, ar⟩ := ihr h2
    exact ⟨.sub l2 r2, by simp [Node.adjoint, el, er], .sub al ar⟩
  | mul hl hr ihl ihr =>
    simp only [Node.adjoint, Option.bind_eq_some_iff, Option.map_eq_some_iff] at h
    obtain ⟨l1, h1, r1, h2, rfl⟩ := h
    obtain ⟨l2, el, al⟩ := ihl h1
    obtain ⟨r2, er, ar⟩ := ihr h2
    exact ⟨_, by simp [Node.adjoint, el, er], .add (.mul al hr) (.mul ar hl)⟩
  | div hl hr ihl ihr =>
    simp only [Node.adjoint, Option.bind_eq_some_iff, Option.map_eq_some_iff] at h
    obtain ⟨l1, h1, r1, h2, rfl⟩ := h
    obtain ⟨l2, el, al⟩ := ihl h1
    obtain ⟨r2, er, ar⟩ := ihr h2
    exact ⟨_, by simp [Node.adjoint, el, er], .div (.sub (.mul hr al) (.mul hl ar)) (.un hr)⟩
  | power hl hr ihl ihr =>
    simp only [Node.adjoint, Option.bind_eq_some_iff, Option.map_eq_some_iff] at h
    obtain ⟨l1, h1, r1, h2, rfl⟩ := h
    obtain ⟨l2, el, al⟩ := ihl h1
    obtain ⟨r2, er, ar⟩ := ihr h2
    exact ⟨_, by simp [Node.adjoint, el, er],
      .mul (.power hl (.un hr)) (.add (.mul hr al) (.mul (.un hl) ar))⟩
  | contract k hl hr ihl ihr =>
    simp only [Node.adjoint, Option.bind_eq_some_iff, Option.map_eq_some_iff] at h
    obtain ⟨l1, h1, r1, h2, rfl⟩ := h
    obtain ⟨l2, el, al⟩ := ihl h1
    obtain ⟨r2, er, ar⟩ := ihr h2
    exact ⟨_, by simp [Node.adjoint, el, er], .add (.contract _ hl ar) (.contract _ al hr)⟩
  | sum ha ih => exact ih h
  | @un op n n' ha ih =>
    cases op
    case subOne | addOne => exact ih h
    all_goals first
      | (simp [Node.adjoint] at h; done)
      | (simp only [Node.adjoint, Option.map_eq_some_iff] at h
         obtain ⟨n1, h1, rfl⟩ := h
         obtain ⟨n2, en, an⟩ := ih h1
         refine ⟨_, by simp only [Node.adjoint, en]; rfl, ?_⟩
         first
           | exact .un an
           | exact .mul (.un ha) an
           | exact .div an ha
           | exact .mul an (.un (.un ha))
           | exact .mul (.un (.un ha)) an
           | exact .mul (.mul an (.un ha)) (.un ha)
           | exact .mul an (.un ha)
           | exact .un (.mul an (.un ha)))

/-- Derivatives are continuous where every operator is applied inside of its domain. -/
theorem Spec.ContinuousFor.adjoint {ρ : Id → Tensor ℝ} {E E' : Node ℝ} {t : Id}
    (hE : ContinuousFor ρ E)
    (hc : Compat ρ E)
    (habs : ∀ n, SubExpr (.un .abs n) E → ∀ ix, InBounds (den ρ n).dims ix → (den ρ n).val ix ≠ 0)
    (h : E.adjoint t = some E') : ContinuousFor ρ E' := by
  have sub : ∀ {E n : Node ℝ}, n ∈ children E →
      (∀ n, SubExpr (.un .abs n) E → ∀ ix, InBounds (den ρ n).dims ix → (den ρ n).val ix ≠ 0) →
      ∀ m, SubExpr (.un .abs m) n → ∀ ix, InBounds (den ρ m).dims ix → (den ρ m).val ix ≠ 0 :=
    fun hn h m hm => h m (.step hn hm)
  induction E generalizing E' with
  | var i => cases h; trivial
  | varAdj i j => cases h; trivial
  | const τ b => cases h; trivial
  | constSpec τ s => cases h
  | constAdj n j => cases h
  | cached n i ih => exact hE.elim
  | add l r ihl ihr | sub l r ihl ihr =>
    simp only [Node.adjoint, Option.bind_eq_some_iff, Option.map_eq_some_iff] at h
    obtain ⟨l1, h1, r1, h2, rfl⟩ := h
    exact ⟨ihl hE.1 hc.1 (sub (by simp [children]) habs) h1, ihr hE.2 hc.2.1 (sub (by simp [children]) habs) h2⟩
  | mul l r ihl ihr =>
    simp only [Node.adjoint, Option.bind_eq_some_iff, Option.map_eq_some_iff] at h
    obtain ⟨l1, h1, r1, h2, rfl⟩ := h
    exact ⟨⟨ihl hE.1 hc.1 (sub (by simp [children]) habs) h1, hE.2⟩,
      ihr hE.2 hc.2.1 (sub (by simp [children]) habs) h2, hE.1⟩
  | div l r ihl ihr =>
    simp only [Node.adjoint, Option.bind_eq_some_iff, Option.map_eq_some_iff] at h
    obtain ⟨l1, h1, r1, h2, rfl⟩ := h
    refine ⟨⟨⟨hE.2.1, ihl hE.1 hc.1 (sub (by simp [children]) habs) h1⟩, hE.1,
      ihr hE.2.1 hc.2.1 (sub (by simp [children]) habs) h2⟩, ⟨hE.2.1, fun _ _ => .inr trivial⟩, ?_⟩
    intro ix hix
    have := hE.2.2 ix hix
    simp only [den, Tensor.map, UnOp.apply]
    rw [rpow_two']
    exact pow_ne_zero 2 this
  | power l r ihl ihr =>
    simp only [Node.adjoint, Option.bind_eq_some_iff, Option.map_eq_some_iff] at h
    obtain ⟨l1, h1, r1, h2, rfl⟩ := h
    refine ⟨⟨hE.1, ⟨hE.2.1, fun _ _ => .inr trivial⟩, hE.2.2⟩,
      ⟨hE.2.1, ihl hE.1 hc.1 (sub (by simp [children]) habs) h1⟩, ⟨hE.1, fun ix hix => .inr ?_⟩,
      ihr hE.2.1 hc.2.1 (sub (by simp [children]) habs) h2⟩
    rw [hc.2.2.1] at hix
    cases hix
    exact hE.2.2
  | contract k l r ihl ihr =>
    simp only [Node.adjoint, Option.bind_eq_some_iff, Option.map_eq_some_iff] at h
    obtain ⟨l1, h1, r1, h2, rfl⟩ := h
    exact ⟨⟨hE.1, ihr hE.2 hc.2.1 (sub (by simp [children]) habs) h2⟩,
      ihl hE.1 hc.1 (sub (by simp [children]) habs) h1, hE.2⟩
  | sum n ih => exact ih hE hc (sub (by simp [children]) habs) h
  | un op n ih =>
    have ih := fun {E'} (h : n.adjoint t = some E') =>
      ih hE.1 hc (sub (by simp [children]) habs) h
    have all : ∀ {op : UnOp} {m : Node ℝ}, (∀ x, UnOp.Inside op x) → ContinuousFor ρ m →
        ContinuousFor ρ (.un op m) := fun h hm => ⟨hm, fun _ _ => .inr (h _)⟩
    have inside : op ≠ .abs → ∀ ix, InBounds (den ρ n).dims ix →
        UnOp.Inside op ((den ρ n).val ix) := fun h ix hix => (hE.2 ix hix).resolve_left h
    cases op
    case subOne | addOne => exact ih h
    all_goals first
      | (simp [Node.adjoint] at h; done)
      | (simp only [Node.adjoint, Option.map_eq_some_iff] at h
         obtain ⟨n1, h1, rfl⟩ := h
         have ih := ih h1)
    case oneSub | negate | double => exact all (fun _ => trivial) ih
    case square => exact ⟨all (fun _ => trivial) hE.1, ih⟩
    case sign => exact ⟨⟨hE.1, fun ix hix => .inr (inside (by simp) ix hix)⟩, ih⟩
    case abs => exact ⟨⟨hE.1, fun ix hix => .inr (habs n (.refl _) ix hix)⟩, ih⟩
    case ln => exact ⟨ih, hE.1, fun ix hix => ne_of_gt (inside (by simp) ix hix)⟩
    case xlnx =>
      exact ⟨ih, all (fun _ => trivial) ⟨hE.1, fun ix hix => .inr (inside (by simp) ix hix)⟩⟩
    case exp => exact ⟨hE, ih⟩
    case rabbit => exact ⟨all (fun _ => trivial) (all (fun _ => trivial) hE.1), ih⟩
    case sigmoid => exact ⟨ih, all (fun _ => trivial) hE⟩
    case gamma => exact ⟨⟨ih, hE.1, fun ix hix => .inr (inside (by simp) ix hix)⟩, hE⟩
    case logGamma => exact ⟨ih, hE.1, fun ix hix => .inr (inside (by simp) ix hix)⟩
    case cos => exact all (fun _ => trivial) ⟨ih, all (fun _ => trivial) hE.1⟩
    case sin => exact ⟨ih, all (fun _ => trivial) hE.1⟩

theorem Spec.ContinuousFor.cacheFree {ρ : Id → Tensor ℝ} {E : Node ℝ} (hE : ContinuousFor ρ E) :
    CacheFree E := by
  have two : ∀ {E l r : Node ℝ}, children E = [l, r] → (∀ n i, E ≠ .cached n i) → CacheFree l →
      CacheFree r → CacheFree E := by
    intro E l r hc hne hl hr n i hs
    cases hs with
    | refl => exact hne n i rfl
    | step hm hs =>
      rw [hc] at hm
      rcases List.mem_cons.1 hm with rfl | hm
      · exact hl n i hs
      · rw [List.mem_singleton.1 hm] at hs
        exact hr n i hs
  have one : ∀ {E m : Node ℝ}, children E = [m] → (∀ n i, E ≠ .cached n i) → CacheFree m →
      CacheFree E := by
    intro E m hc hne hm n i hs
    cases hs with
    | refl => exact hne n i rfl
    | step hm' hs =>
      rw [hc] at hm'
      rw [List.mem_singleton.1 hm'] at hs
      exact hm n i hs
  have none : ∀ {E : Node ℝ}, children E = [] → (∀ n i, E ≠ .cached n i) → CacheFree E := by
    intro E hc hne n i hs
    cases hs with
    | refl => exact hne n i rfl
    | step hm hs => rw [hc] at hm; cases hm
  induction E with
  | var | varAdj | const | constSpec => exact none rfl (by simp)
  | constAdj n t ih => exact one rfl (by simp) (ih hE)
  | cached n i ih => exact hE.elim
  | add l r ihl ihr | sub l r ihl ihr | mul l r ihl ihr | contract k l r ihl ihr =>
    exact two rfl (by simp) (ihl hE.1) (ihr hE.2)
  | div l r ihl ihr | power l r ihl ihr => exact two rfl (by simp) (ihl hE.1) (ihr hE.2.1)
  | sum n ih => exact one rfl (by simp) (ih hE)
  | un op n ih => exact one rfl (by simp) (ih hE.1)

end Aegir
