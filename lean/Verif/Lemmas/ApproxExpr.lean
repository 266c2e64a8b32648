import Verif.Lemmas.Approx
/-!
# Finite precision: limits of whole expressions
-/

namespace Aegir

open Spec Filter Topology

section
variable {F : Type} {val : F → ℝ} {ε δ : ℝ}

theorem standsFor_mono {R R' : F → ℝ → Prop} {τ : BTy} {b : Buf F τ} {T : Tensor ℝ}
    (hR : ∀ {x a}, R x a → R' x a) (h : StandsFor R b T) : StandsFor R' b T :=
  ⟨h.1, fun ix hix => (h.2 ix hix).imp fun _ hx => ⟨hx.1, hR hx.2⟩⟩

theorem close_mono (h : δ ≤ ε) {x : F} {a : ℝ} (hx : Close val δ x a) : Close val ε x a :=
  hx.trans h

theorem Spec.Approximates.mono [Zero F] (h : δ ≤ ε) {e : Node F} {E : Node ℝ}
    (ha : Approximates val δ e E) : Approximates val ε e E := by
  induction ha with
  | var i => exact .var i
  | varAdj i t => exact .varAdj i t
  | const hb => exact .const (standsFor_mono (close_mono h) hb)
  | constSpec hb => exact .constSpec (standsFor_mono (close_mono h) hb)
  | constAdj t _ ih => exact .constAdj t ih
  | cached i _ ih => exact .cached i ih
  | add _ _ ihl ihr => exact .add ihl ihr
  | sub _ _ ihl ihr => exact .sub ihl ihr
  | mul _ _ ihl ihr => exact .mul ihl ihr
  | div _ _ ihl ihr => exact .div ihl ihr
  | power _ _ ihl ihr => exact .power ihl ihr
  | contract k _ _ ihl ihr => exact .contract k ihl ihr
  | sum _ ih => exact .sum ih
  | un _ ih => exact .un ih

/-- The numbers a buffer holds, continued by `A` outside of its extents. -/
noncomputable def heldBy [Zero F] (val : F → ℝ) {τ : BTy} (b : Buf F τ) (A : Tensor ℝ) : Tensor ℝ :=
  open Classical in
  ⟨A.dims, fun ix => if InBounds A.dims ix then val (Buf.read b ix) else A.val ix⟩

/-- Its absolute value. -/
def absT (A : Tensor ℝ) : Tensor ℝ := ⟨A.dims, fun ix => |A.val ix|⟩

theorem nearT_heldBy [Zero F] {u : ℝ} {τ : BTy} {b : Buf F τ} {A : Tensor ℝ}
    (h : Buf.dims τ b = A.dims) : NearT val u 0 b (heldBy val b A) (absT (heldBy val b A)) := by
  refine ⟨rfl, h, fun ix hix => ⟨Buf.read b ix, Buf.getU_read b ix (h ▸ hix), ?_⟩⟩
  simp only [absT, heldBy]
  have hix' : InBounds A.dims ix := hix
  rw [if_pos hix']
  exact near.exact u _

theorem heldBy_close [Zero F] (h0 : 0 ≤ δ) {τ : BTy} {b : Buf F τ} {A : Tensor ℝ}
    (h : StandsFor (Close val δ) b A) (ix : Idx) : |(heldBy val b A).val ix - A.val ix| ≤ δ := by
  simp only [heldBy]
  split
  · next hix => exact RelBuf.read (R := Close val δ) (A := A.val) h hix
  · simpa using h0

end

/-- Precision `δ` of arithmetic, constants and variables is enough for precision `ε` of the result. -/
def Suffices (ρ : Id → Tensor ℝ) (E : Node ℝ) (ε δ : ℝ) : Prop :=
  ∀ {F : Type} [Zero F] [One F] [Add F] [Sub F] [Mul F] [Div F] [Neg F] [ScalarFns F]
    {val : F → ℝ} {u : ℝ} {Γ : Id → BTy} {e : Node F} {τ : BTy}, Approx val u → u ≤ δ →
    ∀ d : FnImpl Γ e τ, FnImpl.Regular d → Approximates val δ e E →
    ∀ c : Ctx F Γ, CtxStandsFor (Close val δ) ρ c →
      Stays c d.fn.evaluate (fun b => StandsFor (Close val ε) b (den ρ E)) ∧
      Stays c d.fn.evaluateSpec (fun s => StandsFor (Close val ε) s.unwrap (den ρ E)) ∧
      Stays c d.fn.evaluateShape (fun s => Shp.dims τ s = (den ρ E).dims)

theorem Suffices.mono {ρ : Id → Tensor ℝ} {E : Node ℝ} {ε δ δ' : ℝ} (h : Suffices ρ E ε δ)
    (hd : δ' ≤ δ) : Suffices ρ E ε δ' :=
  fun hA hu d hr ha c hc => h hA (hu.trans hd) d hr (ha.mono hd) c
    fun i b hb => standsFor_mono (close_mono hd) (hc i b hb)

section
variable {F : Type} [Zero F] [One F] [Add F] [Sub F] [Mul F] [Div F] [Neg F] [ScalarFns F]
  {val : F → ℝ} {u : ℝ}

omit [Zero F] [One F] [Add F] [Sub F] [Mul F] [Div F] [Neg F] [ScalarFns F] in
theorem standsFor_zip' {R S : F → ℝ → Prop} {a b c : BTy} {x : Buf F a} {y : Buf F b} {r : Buf F c}
    {P : F → F → F → Prop} {A B : Tensor ℝ} {f : ℝ → ℝ → ℝ} (hx : StandsFor R x A)
    (hy : StandsFor R y B) (h : ZipRel x y P r)
    (hP : ∀ ix p q w, InBounds (Tensor.zip f A B).dims ix → InBounds B.dims (bIdx B.dims ix) →
      R p (A.val (bIdx A.dims ix)) →
      R q (B.val (bIdx B.dims ix)) → P p q w → S w ((Tensor.zip f A B).val ix)) :
    StandsFor S r (.zip f A B) := by
  obtain ⟨h1, h2⟩ := h
  rw [hx.1, hy.1] at h1 h2
  refine ⟨bcast_dims h1, fun ix hix => ?_⟩
  have hix' : InBounds (Buf.dims c r) ix := by rw [bcast_dims h1]; exact hix
  obtain ⟨p, q, w, hp, hq, hw, hpq⟩ := h2 ix hix'
  obtain ⟨p', hp', np⟩ := hx.2 _ (inBounds_bIdx_left h1 hix')
  obtain ⟨q', hq', nq⟩ := hy.2 _ (inBounds_bIdx_right h1 hix')
  rw [hp] at hp'; rw [hq] at hq'
  cases hp'; cases hq'
  exact ⟨w, hw, hP ix p q w hix (inBounds_bIdx_right h1 hix') np nq hpq⟩

omit [Zero F] [One F] [Add F] [Sub F] [Mul F] [Div F] [Neg F] [ScalarFns F] in
theorem standsFor_map' {R S : F → ℝ → Prop} {τ : BTy} {x : Buf F τ} {A : Tensor ℝ} {f : F → F}
    {g : ℝ → ℝ} (hx : StandsFor R x A)
    (h : ∀ ix w, InBounds A.dims ix → R w (A.val ix) → S (f w) (g (A.val ix))) :
    StandsFor S (Buf.mutate τ x f) (.map g A) := by
  rw [Buf.mutate_eq_map]
  refine ⟨(Buf.dims_map τ x f).trans hx.1, fun ix hix => ?_⟩
  obtain ⟨w, hw, hn⟩ := hx.2 ix hix
  exact ⟨f w, by rw [Buf.getU_map, hw]; rfl, h ix w hix hn⟩

omit [Zero F] [One F] [Add F] [Sub F] [Mul F] [Div F] [Neg F] [ScalarFns F] in
theorem relative_le {t w : ℝ} (h0 : 0 ≤ u) (h : ∃ δ, |δ| ≤ u ∧ w = t * (1 + δ)) :
    |w - t| ≤ u * (1 + |t|) := by
  obtain ⟨δ, hδ, e⟩ := h
  rw [e, show t * (1 + δ) - t = δ * t by ring, abs_mul]
  have := mul_le_mul_of_nonneg_right hδ (abs_nonneg t)
  nlinarith

omit [Zero F] [One F] [Add F] [Sub F] [Mul F] [Div F] [Neg F] [ScalarFns F] in
theorem exact_le {t w : ℝ} (h0 : 0 ≤ u) (h : w = t) : |w - t| ≤ u * (1 + |t|) := by
  rw [h, sub_self, abs_zero]; positivity

end

/-- Continuous expressions can be evaluated to any precision. -/
theorem exists_suffices {ρ : Id → Tensor ℝ} {E : Node ℝ} (hE : ContinuousFor ρ E) :
    ∀ ε, 0 < ε → ∃ δ, 0 < δ ∧ Suffices ρ E ε δ := by
  have shapes : ∀ {F : Type} {Γ : Id → BTy} {c : Ctx F Γ} {a b r : BTy} {dl dr : Dims}
      {l : EvalM F Γ (Shp a)} {m : EvalM F Γ (Shp b)}
      (z : ZipImpl a b r), Stays c l (fun s => Shp.dims a s = dl) →
      Stays c m (fun s => Shp.dims b s = dr) →
      Stays c (binM l m fun s t => Res.ofExcept (z.broadcast s t))
        (fun s => Shp.dims r s = if dl = [] then dr else dl) := by
    intro F Γ c a b r dl dr l m z hl hr
    refine hl.binM hr fun x y s hx hy h => ?_
    have := bcast_dims (broadcast_ok z x y s ((Res.ofExcept_ok_iff _ _).1 h))
    rwa [hx, hy] at this
  have three : ∀ {F : Type} [Zero F] {Γ : Id → BTy} {c : Ctx F Γ} {τ : BTy} {T : Tensor ℝ}
      {R : F → ℝ → Prop} {ms : EvalM F Γ (BSpec F τ)} {P : Prop},
      Stays c ms (fun s => StandsFor R s.unwrap T) → P →
      Stays c (ms.map BSpec.unwrap) (fun b => StandsFor R b T) ∧
        Stays c ms (fun s => StandsFor R s.unwrap T) ∧ P :=
    fun h hp => ⟨h.map fun _ h => h, h, hp⟩
  -- uniform `δ` for entrywise functions of two operands
  have zips : ∀ {A B : Tensor ℝ} {f : ℝ → ℝ → ℝ} {D : ℝ → ℝ → Prop},
      (∀ ix, InBounds B.dims (bIdx B.dims ix) →
        ContinuousAt (fun p : ℝ × ℝ => f p.1 p.2) (A.val (bIdx A.dims ix), B.val (bIdx B.dims ix)) ∧
        ∀ᶠ p in 𝓝 (A.val (bIdx A.dims ix), B.val (bIdx B.dims ix)), D p.1 p.2) → ∀ ε, 0 < ε →
      ∃ δ, 0 < δ ∧ ∀ ix, InBounds (Tensor.zip f A B).dims ix → InBounds B.dims (bIdx B.dims ix) →
        ∀ u x y w : ℝ, 0 ≤ u → u ≤ δ → |x - A.val (bIdx A.dims ix)| ≤ δ → |y - B.val (bIdx B.dims ix)| ≤ δ →
        (D x y → |w - f x y| ≤ u * (1 + |f x y|)) → |w - (Tensor.zip f A B).val ix| ≤ ε := by
    intro A B f D h ε hε
    refine uniform_delta (Q := fun ix δ => InBounds B.dims (bIdx B.dims ix) →
        ∀ u x y w : ℝ, 0 ≤ u → u ≤ δ → |x - A.val (bIdx A.dims ix)| ≤ δ → |y - B.val (bIdx B.dims ix)| ≤ δ →
        (D x y → |w - f x y| ≤ u * (1 + |f x y|)) → |w - (Tensor.zip f A B).val ix| ≤ ε)
      (fun ix δ δ' hd h hb u x y w h0 hu hx hy =>
        h hb u x y w h0 (hu.trans hd) (hx.trans hd) (hy.trans hd))
      fun ix hix => ?_
    by_cases hb : InBounds B.dims (bIdx B.dims ix)
    · obtain ⟨δ, hδ, h⟩ := step_two (h ix hb).1 (h ix hb).2 hε
      exact ⟨δ, hδ, fun _ => h⟩
    · exact ⟨1, one_pos, fun h => absurd h hb⟩
  have hmin : ∀ {a b c : ℝ}, 0 < a → 0 < b → 0 < c → 0 < min a (min b c) :=
    fun ha hb hc => lt_min ha (lt_min hb hc)
  induction E with
  | var i =>
    refine fun ε hε => ⟨ε, hε, ?_⟩
    intro F _ _ _ _ _ _ _ _ val u Γ e τ hA hu d hr ha c hc
    cases ha
    cases d with
    | var =>
    have h : Stays c (EvalM.read i : EvalM F Γ _) (fun b => StandsFor (Close val ε) b (ρ i)) :=
      ⟨(Stays.read i).1, fun b hb => hc i b ((Stays.read i).2 b hb)⟩
    exact ⟨h, h.map fun _ h => h, h.map fun _ h => h.1⟩
  | varAdj i t =>
    refine fun ε hε => ⟨ε, hε, ?_⟩
    intro F _ _ _ _ _ _ _ _ val u Γ e τ hA hu d hr ha c hc
    cases ha
    cases d with
    | varAdj _ _ k hrk =>
    have hrd : ∀ j, Stays c ((EvalM.read j : EvalM F Γ _).map (Buf.shape _))
        (fun s => Shp.dims _ s = (ρ j).dims) := fun j =>
      (Stays.read j).map fun b hb => (hc j b hb).1
    refine three ?_ ?_
    · refine ((hrd i).mapErr _).bind fun si hi => ((hrd t).mapErr _).bind fun st ht =>
        .lift fun s hs => ?_
      have hT := varAdjSpec_tensor (S := .const (ρ i).dims (0 : F)) (T := .const (ρ t).dims 0) i t k
        hi ht (fun h => by rw [h]) s hs
      refine ⟨hT.1, fun ix hix => ⟨_, hT.2 ix hix, ?_⟩⟩
      have ite : ∀ (P : Prop) [Decidable P], Close val ε (if P then 1 else 0) (if P then 1 else 0) := by
        intro P _
        split
        · rw [Close, hA.one]; simpa using hε.le
        · rw [Close, hA.zero]; simpa using hε.le
      exact ite _
    · refine ((hrd i).mapErr _).bind fun si hi => ((hrd t).mapErr _).bind fun st ht =>
        .lift fun s hs => ?_
      cases hs
      rw [concat_dims k si st, hi, ht]; rfl
  | const τ b =>
    refine fun ε hε => ⟨ε, hε, ?_⟩
    intro F _ _ _ _ _ _ _ _ val u Γ e τ hA hu d hr ha c hc
    cases ha with
    | const hb =>
    cases d with
    | const =>
    refine three (.lift fun s hs => ?_) (.lift fun s hs => ?_)
    · cases hs; exact hb
    · cases hs; exact hb.1
  | constSpec τ s =>
    refine fun ε hε => ⟨ε, hε, ?_⟩
    intro F _ _ _ _ _ _ _ _ val u Γ e τ hA hu d hr ha c hc
    cases ha with
    | constSpec hb =>
    cases d with
    | constSpec =>
    refine three (.lift fun s' hs => ?_) (.lift fun s' hs => ?_)
    · cases hs; exact hb
    · cases hs
      refine Eq.trans ?_ hb.1
      rw [Buf.dims, BSpec.shape_unwrap]
  | constAdj n t ih =>
    intro ε hε
    obtain ⟨δ, hδ, h⟩ := ih hE ε hε
    refine ⟨δ, hδ, ?_⟩
    intro F _ _ _ _ _ _ _ _ val u Γ e τ hA hu d hr ha c hc
    cases ha with
    | constAdj _ ha =>
    cases d with
    | constAdj d _ k =>
    have ih := h hA hu d hr ha c hc
    have hrd : Stays c ((EvalM.read t : EvalM F Γ _).map (Buf.shape _))
        (fun s => Shp.dims _ s = (ρ t).dims) := (Stays.read t).map fun b hb => (hc t b hb).1
    have key := (ih.2.2.mapErr EvalErr.left).bind (f := fun sn =>
        (((EvalM.read t).map (Buf.shape _)).mapErr EvalErr.right).bind fun st =>
          EvalM.lift (.ok (k.shape sn st)))
      (Q := fun s => Shp.dims _ s = (den ρ (.constAdj n t)).dims)
      fun sn hsn => (hrd.mapErr _).bind fun st ht => .lift fun s hs => by
        cases hs
        rw [concat_dims k sn st, hsn, ht]; rfl
    refine three (key.map fun s hs => standsFor_full hs fun _ _ => ?_) key
    simp only [Close, den, Tensor.const]
    rw [hA.zero]; simpa using hε.le
  | cached n i ih => exact hE.elim
  | add l r ihl ihr =>
    intro ε hε
    obtain ⟨δ, hδ, h⟩ := zips (A := den ρ l) (B := den ρ r) (f := (· + ·)) (D := fun _ _ => True)
      (fun ix _ => ⟨continuousAt_fst.add continuousAt_snd, .of_forall fun _ => trivial⟩) ε hε
    obtain ⟨δl, hl, sl⟩ := ihl hE.1 δ hδ
    obtain ⟨δr, hr, sr⟩ := ihr hE.2 δ hδ
    refine ⟨_, hmin hδ hl hr, ?_⟩
    replace sl : Suffices ρ l δ (min δ (min δl δr)) :=
      Suffices.mono sl ((min_le_right δ _).trans (min_le_left _ _))
    replace sr : Suffices ρ r δ (min δ (min δl δr)) :=
      Suffices.mono sr ((min_le_right δ _).trans (min_le_right _ _))
    intro F _ _ _ _ _ _ _ _ val u Γ e τ hA hu d hr ha c hc
    cases ha with
    | add hal har =>
    cases d with
    | add dl dr z =>
    have ihl := sl hA hu dl hr.1 hal c hc
    have ihr := sr hA hu dr hr.2 har c hc
    refine three (ihl.2.1.binM ihr.2.1 fun x y s hx hy hs => ?_) (shapes z ihl.2.2 ihr.2.2)
    refine standsFor_zip' hx hy (addSpec_rel z x y s hs) fun ix p q w hix hb hp hq hw =>
      h ix hix hb u _ _ _ hA.nonneg (hu.trans (min_le_left _ _)) hp hq fun _ => ?_
    rcases hw with rfl | rfl | ⟨h0, rfl⟩ | ⟨h0, rfl⟩
    · exact relative_le hA.nonneg (hA.add p q)
    · rw [add_comm (val p)]; exact relative_le hA.nonneg (hA.add q p)
    · exact exact_le hA.nonneg (by rw [hA.isZero _ h0, zero_add])
    · exact exact_le hA.nonneg (by rw [hA.isZero _ h0, add_zero])
  | sub l r ihl ihr =>
    intro ε hε
    obtain ⟨δ, hδ, h⟩ := zips (A := den ρ l) (B := den ρ r) (f := (· - ·)) (D := fun _ _ => True)
      (fun ix _ => ⟨continuousAt_fst.sub continuousAt_snd, .of_forall fun _ => trivial⟩) ε hε
    obtain ⟨δl, hl, sl⟩ := ihl hE.1 δ hδ
    obtain ⟨δr, hr, sr⟩ := ihr hE.2 δ hδ
    refine ⟨_, hmin hδ hl hr, ?_⟩
    replace sl : Suffices ρ l δ (min δ (min δl δr)) :=
      Suffices.mono sl ((min_le_right δ _).trans (min_le_left _ _))
    replace sr : Suffices ρ r δ (min δ (min δl δr)) :=
      Suffices.mono sr ((min_le_right δ _).trans (min_le_right _ _))
    intro F _ _ _ _ _ _ _ _ val u Γ e τ hA hu d hr ha c hc
    cases ha with
    | sub hal har =>
    cases d with
    | sub dl dr z =>
    have ihl := sl hA hu dl hr.1 hal c hc
    have ihr := sr hA hu dr hr.2.1 har c hc
    refine three (ihl.2.1.binM ihr.2.1 fun x y s hx hy hs => ?_) (shapes z ihl.2.2 ihr.2.2)
    refine standsFor_zip' hx hy (subSpec_rel z (not_swaps z hr.2.2) x y s hs)
      fun ix p q w hix hb hp hq hw =>
        h ix hix hb u _ _ _ hA.nonneg (hu.trans (min_le_left _ _)) hp hq fun _ => ?_
    rcases hw with rfl | ⟨h0, rfl⟩
    · exact relative_le hA.nonneg (hA.sub p q)
    · exact exact_le hA.nonneg (by rw [hA.isZero _ h0, sub_zero])
  | mul l r ihl ihr =>
    intro ε hε
    obtain ⟨δ, hδ, h⟩ := zips (A := den ρ l) (B := den ρ r) (f := (· * ·)) (D := fun _ _ => True)
      (fun ix _ => ⟨continuousAt_fst.mul continuousAt_snd, .of_forall fun _ => trivial⟩) ε hε
    obtain ⟨δl, hl, sl⟩ := ihl hE.1 δ hδ
    obtain ⟨δr, hr, sr⟩ := ihr hE.2 δ hδ
    refine ⟨_, hmin hδ hl hr, ?_⟩
    replace sl : Suffices ρ l δ (min δ (min δl δr)) :=
      Suffices.mono sl ((min_le_right δ _).trans (min_le_left _ _))
    replace sr : Suffices ρ r δ (min δ (min δl δr)) :=
      Suffices.mono sr ((min_le_right δ _).trans (min_le_right _ _))
    intro F _ _ _ _ _ _ _ _ val u Γ e τ hA hu d hr ha c hc
    cases ha with
    | mul hal har =>
    cases d with
    | mul dl dr z =>
    have ihl := sl hA hu dl hr.1 hal c hc
    have ihr := sr hA hu dr hr.2 har c hc
    refine three (ihl.2.1.binM ihr.2.1 fun x y s hx hy hs => ?_) (shapes z ihl.2.2 ihr.2.2)
    refine standsFor_zip' hx hy (mulSpec_rel z x y s hs) fun ix p q w hix hb hp hq hw =>
      h ix hix hb u _ _ _ hA.nonneg (hu.trans (min_le_left _ _)) hp hq fun _ => ?_
    rcases hw with rfl | rfl | ⟨h0 | h0, rfl⟩
    · exact relative_le hA.nonneg (hA.mul p q)
    · rw [mul_comm (val p)]; exact relative_le hA.nonneg (hA.mul q p)
    · exact exact_le hA.nonneg (by rw [hA.isZero _ h0, zero_mul, hA.zero])
    · exact exact_le hA.nonneg (by rw [hA.isZero _ h0, mul_zero, hA.zero])
  | div l r ihl ihr =>
    intro ε hε
    obtain ⟨δ, hδ, h⟩ := zips (A := den ρ l) (B := den ρ r) (f := (· / ·)) (D := fun _ y => y ≠ 0)
      (fun ix hb => ⟨continuousAt_fst.div continuousAt_snd (hE.2.2 _ hb),
        continuousAt_snd.eventually_ne (hE.2.2 _ hb)⟩) ε hε
    obtain ⟨δl, hl, sl⟩ := ihl hE.1 δ hδ
    obtain ⟨δr, hr, sr⟩ := ihr hE.2.1 δ hδ
    refine ⟨_, hmin hδ hl hr, ?_⟩
    replace sl : Suffices ρ l δ (min δ (min δl δr)) :=
      Suffices.mono sl ((min_le_right δ _).trans (min_le_left _ _))
    replace sr : Suffices ρ r δ (min δ (min δl δr)) :=
      Suffices.mono sr ((min_le_right δ _).trans (min_le_right _ _))
    intro F _ _ _ _ _ _ _ _ val u Γ e τ hA hu d hr ha c hc
    cases ha with
    | div hal har =>
    cases d with
    | div dl dr z =>
    have ihl := sl hA hu dl hr.1 hal c hc
    have ihr := sr hA hu dr hr.2.1 har c hc
    have hz := not_swaps z hr.2.2
    have key : Stays c (FnImpl.div dl dr z).fn.evaluate
        (fun b => StandsFor (Close val ε) b (.zip (· / ·) (den ρ l) (den ρ r))) := by
      refine ihl.1.binM ihr.1 fun x y s hx hy hs => ?_
      rw [Buf.zipMapId_eq] at hs
      refine standsFor_zip' hx hy (P := fun p q w => w = p / q)
        (zipRel_of_zipMap ((Res.ofExcept_ok_iff _ _).1 hs) fun u v _ _ => by
          rw [ZipImpl.eff_of_not_swaps z hz]) fun ix p q w hix hb hp hq hw =>
        h ix hix hb u _ _ _ hA.nonneg (hu.trans (min_le_left _ _)) hp hq fun h0 => ?_
      rw [hw]; exact relative_le hA.nonneg (hA.div p q h0)
    exact ⟨key, key.map fun _ h => h, shapes z ihl.2.2 ihr.2.2⟩
  | power l r ihl ihr =>
    intro ε hε
    obtain ⟨δ, hδ, h⟩ := step_two (f := fun x y => x ^ y) (D := fun x _ => 0 < x)
      (a := (den ρ l).val []) (b := (den ρ r).val [])
      (Real.continuousAt_rpow (_, _) (.inl hE.2.2.ne'))
      (continuousAt_fst.eventually (lt_mem_nhds hE.2.2)) hε
    obtain ⟨δl, hl, sl⟩ := ihl hE.1 δ hδ
    obtain ⟨δr, hr, sr⟩ := ihr hE.2.1 δ hδ
    refine ⟨_, hmin hδ hl hr, ?_⟩
    replace sl : Suffices ρ l δ (min δ (min δl δr)) :=
      Suffices.mono sl ((min_le_right δ _).trans (min_le_left _ _))
    replace sr : Suffices ρ r δ (min δ (min δl δr)) :=
      Suffices.mono sr ((min_le_right δ _).trans (min_le_right _ _))
    intro F _ _ _ _ _ _ _ _ val u Γ e τ hA hu d hr ha c hc
    cases ha with
    | power hal har =>
    cases d with
    | power dl dr =>
    have ihl := sl hA hu dl hr.1 hal c hc
    have ihr := sr hA hu dr hr.2 har c hc
    refine three (ihl.2.1.binM ihr.2.1 fun x y s hx hy hs => ?_) (.lift fun s _ => rfl)
    have hs := Res.ok.inj hs
    obtain ⟨_, hxv⟩ := standsFor_scalar_val hx
    obtain ⟨_, hyv⟩ := standsFor_scalar_val hy
    refine standsFor_scalar rfl (h u _ _ _ hA.nonneg (hu.trans (min_le_left _ _)) hxv hyv fun hpos => ?_)
    rw [← hs]
    have base : ∀ y : BSpec F .scalar,
        |val (BSpec.unwrap (match x with
          | .full sx fx =>
              if ScalarFns.eqb fx 1 then .full sx fx
              else if ScalarFns.eqb fx 0 then .full sx fx
              else .raw (Buf.mutate .scalar x.unwrap fun x => ScalarFns.pow x y.unwrap)
          | x => .raw (Buf.mutate .scalar x.unwrap fun x => ScalarFns.pow x y.unwrap)))
          - val x.unwrap ^ val y.unwrap| ≤ u * (1 + |val x.unwrap ^ val y.unwrap|) := by
      intro y
      cases x with
      | full t v =>
        by_cases h1 : ScalarFns.eqb v 1 = true
        · simp only [h1]
          refine exact_le hA.nonneg ?_
          have : val v = 1 := (hA.eqb _ _ h1).trans hA.one
          show val v = val v ^ _
          rw [this, Real.one_rpow]
        by_cases h0 : ScalarFns.eqb v 0 = true
        · have : val v = 0 := (hA.eqb _ _ h0).trans hA.zero
          exact absurd this (show val v ≠ 0 from ne_of_gt hpos)
        · simp only [h1, h0]
          exact hA.pow _ _ hpos
      | raw v => exact hA.pow _ _ hpos
      | diagonal t v => exact hA.pow _ _ hpos
    cases y with
    | full t v =>
      by_cases h0 : ScalarFns.eqb v 0 = true
      · simp only [powSpec, h0]
        refine exact_le hA.nonneg ?_
        have : val v = 0 := (hA.eqb _ _ h0).trans hA.zero
        show val 1 = _ ^ val v
        rw [this, Real.rpow_zero, hA.one]
      · simp only [powSpec, h0]
        exact base (.full t v)
    | raw v => exact base (.raw v)
    | diagonal t v => exact base (.diagonal t v)
  | contract k l r ihl ihr =>
    intro ε hε
    obtain ⟨δ, hδ, h⟩ := uniform_delta (ds := (den ρ (.contract k l r)).dims) (Q := fun ix δ =>
        ∀ (f g : Idx → ℝ) (u w : ℝ), (∀ ix, |f ix - (den ρ l).val ix| ≤ δ) →
          (∀ ix, |g ix - (den ρ r).val ix| ≤ δ) → 0 ≤ u → u ≤ δ →
          |w - (Tensor.contract (if (den ρ l).dims = [] ∧ (den ρ r).dims = [] then 0 else k)
            ⟨(den ρ l).dims, f⟩ ⟨(den ρ r).dims, g⟩).val ix| ≤
            ((1 + u) ^ (0 + 0 + ((den ρ r).dims.take k).prod + 3) - 1) *
            (Tensor.contract (if (den ρ l).dims = [] ∧ (den ρ r).dims = [] then 0 else k)
            ⟨(den ρ l).dims, fun ix => |f ix|⟩ ⟨(den ρ r).dims, fun ix => |g ix|⟩).val ix →
          |w - (den ρ (.contract k l r)).val ix| ≤ ε)
      (fun ix δ δ' hd h f g u w hf hg h0 hu =>
        h f g u w (fun ix => (hf ix).trans hd) (fun ix => (hg ix).trans hd) h0 (hu.trans hd))
      fun ix _ => step_sum
        ((den ρ r).dims.take (if (den ρ l).dims = [] ∧ (den ρ r).dims = [] then 0 else k))
        (fun t => ix.take ((den ρ l).dims.length -
          if (den ρ l).dims = [] ∧ (den ρ r).dims = [] then 0 else k) ++ t)
        (fun t => t ++ ix.drop ((den ρ l).dims.length -
          if (den ρ l).dims = [] ∧ (den ρ r).dims = [] then 0 else k)) _ _ _ hε
    obtain ⟨δl, hl, sl⟩ := ihl hE.1 δ hδ
    obtain ⟨δr, hr, sr⟩ := ihr hE.2 δ hδ
    refine ⟨_, hmin hδ hl hr, ?_⟩
    replace sl : Suffices ρ l δ (min δ (min δl δr)) :=
      Suffices.mono sl ((min_le_right δ _).trans (min_le_left _ _))
    replace sr : Suffices ρ r δ (min δ (min δl δr)) :=
      Suffices.mono sr ((min_le_right δ _).trans (min_le_right _ _))
    intro F _ _ _ _ _ _ _ _ val u Γ e τ hA hu d hr ha c hc
    cases ha with
    | contract _ hal har =>
    cases d with
    | contract dl dr z =>
    have ihl := sl hA hu dl hr.1 hal c hc
    have ihr := sr hA hu dr hr.2.1 har c hc
    obtain ⟨_, _, hmv, hvm⟩ := hr
    refine three (ihl.2.1.binM ihr.2.1 fun x y s hx hy hs => ?_)
      (ihl.2.2.binM ihr.2.2 fun x y s hx hy h =>
        contractShape_tensor z hmv hx hy ((Res.ofExcept_ok_iff _ _).1 h))
    have hn := nearT_contract hA.toRounding z hmv hvm (nearT_heldBy hx.1) (nearT_heldBy hy.1) hs
    refine ⟨hn.2.1, fun ix hix => ?_⟩
    obtain ⟨w, hw, hn⟩ := hn.2.2 ix hix
    exact ⟨w, hw, h ix hix _ _ u (val w) (heldBy_close hδ.le hx) (heldBy_close hδ.le hy) hA.nonneg
      (hu.trans (min_le_left _ _)) hn.2⟩
  | sum n ih =>
    intro ε hε
    obtain ⟨δ, hδ, h⟩ := step_sum (den ρ n).dims id id ((den ρ n).dims.prod + 2) (den ρ n).val
      (fun _ => 1) hε
    obtain ⟨δn, hn, sn⟩ := ih hE δ hδ
    refine ⟨min δ δn, lt_min hδ hn, ?_⟩
    replace sn : Suffices ρ n δ (min δ δn) := Suffices.mono sn (min_le_right δ _)
    intro F _ _ _ _ _ _ _ _ val u Γ e τ hA hu d hr ha c hc
    cases ha with
    | sum ha =>
    cases d with
    | sum d =>
    have ih := sn hA hu d hr ha c hc
    have key : ∀ {w : ℝ} {σ : BTy} {b : Buf F σ}, StandsFor (Close val δ) b (den ρ n) →
        near u ((den ρ n).dims.prod + 2) w (sumOver (den ρ n).dims (heldBy val b (den ρ n)).val)
          (sumOver (den ρ n).dims (absT (heldBy val b (den ρ n))).val) →
        |w - sumOver (den ρ n).dims (den ρ n).val| ≤ ε := by
      intro w σ b hb hw
      have := h _ (fun _ => 1) u w (heldBy_close hδ.le hb) (fun _ => by simpa using hδ.le) hA.nonneg
        (hu.trans (min_le_left _ _))
      simp only [id, mul_one, abs_one] at this
      exact this hw.2
    refine ⟨ih.1.map fun b hb => standsFor_scalar rfl (key hb ?_),
      ih.2.1.bind fun s hs => .lift fun s' hs' => standsFor_scalar rfl (key hs ?_),
      .lift fun _ _ => rfl⟩
    · have := nearT_sum hA.toRounding (nearT_heldBy (u := u) (val := val) hb.1)
      exact near.mono hA.nonneg this (by show 0 + (den ρ n).dims.prod ≤ _; omega)
    · have := nearT_sumSpec hA.toRounding (nearT_heldBy (u := u) (val := val) hs.1) hs'
      exact near.mono hA.nonneg this (by show 0 + (den ρ n).dims.prod + 2 ≤ _; omega)
  | un op n ih =>
    intro ε hε
    obtain ⟨δ, hδ, h⟩ := uniform_delta (ds := (den ρ n).dims) (Q := fun ix δ =>
        ∀ {F : Type} [Zero F] [One F] [Add F] [Sub F] [Mul F] [Div F] [Neg F] [ScalarFns F]
          {val : F → ℝ} {u : ℝ}, Approx val u → u ≤ δ → ∀ x, Close val δ x ((den ρ n).val ix) →
          Close val ε (op.apply x) (op.apply ((den ρ n).val ix)))
      (fun ix δ δ' hd h => by
        intro F _ _ _ _ _ _ _ _ val u hA hu x hx
        exact h hA (hu.trans hd) x (close_mono hd hx))
      fun ix hix => step_un (hE.2 ix hix) hε
    obtain ⟨δn, hn, sn⟩ := ih hE.1 δ hδ
    refine ⟨min δ δn, lt_min hδ hn, ?_⟩
    replace sn : Suffices ρ n δ (min δ δn) := Suffices.mono sn (min_le_right δ _)
    intro F _ _ _ _ _ _ _ _ val u Γ e τ hA hu d hr ha c hc
    cases ha with
    | un ha =>
    cases d with
    | un _ d =>
    have ih := sn hA hu d hr ha c hc
    have key : ∀ ix w, InBounds (den ρ n).dims ix → Close val δ w ((den ρ n).val ix) →
        Close val ε (op.apply w) (op.apply ((den ρ n).val ix)) := fun ix w hix hw =>
      h ix hix hA (hu.trans (min_le_left _ _)) w hw
    refine ⟨ih.1.map fun b hb => standsFor_map' hb key, ih.2.1.map fun s hs => ?_, ih.2.2⟩
    rw [unSpec_unwrap]
    exact standsFor_map' hs key

end Aegir
