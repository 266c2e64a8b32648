import Verif.Lemmas.Tensor
import Verif.Lemmas.Types
/-!
# Adjoints with respect to absent identifiers
-/

namespace Aegir

open Spec

variable {F : Type} {Γ : Id → BTy}

/-- All entries are zero. -/
def AllZero [Zero F] {τ : BTy} (b : Buf F τ) : Prop := Reads b (fun _ => 0)

/-- `m`, run at `c`, leaves `c` alone and only returns values satisfying `P`. -/
def At {α : Type} (c : Ctx F Γ) (m : EvalM F Γ α) (P : α → Prop) : Prop :=
  (m c).2 = c ∧ ∀ a, (m c).1 = .ok a → P a

namespace At
variable {α β γ : Type} {c : Ctx F Γ}

theorem map {m : EvalM F Γ α} {P : α → Prop} {Q : β → Prop} {f : α → β} (h : At c m P)
    (hf : ∀ a, P a → Q (f a)) : At c (m.map f) Q := by
  refine ⟨h.1, fun b hb => ?_⟩
  obtain ⟨a, ha, rfl⟩ := (Res.map_ok_iff _ _ _).1 hb
  exact hf a (h.2 a ha)

theorem mapErr {m : EvalM F Γ α} {P : α → Prop} (h : At c m P) (f : EvalErr → EvalErr) :
    At c (m.mapErr f) P := ⟨h.1, fun a ha => h.2 a ((Res.mapErr_ok_iff _ _ _).1 ha)⟩

theorem lift {r : Res EvalErr α} {P : α → Prop} (h : ∀ a, r = .ok a → P a) :
    At c (EvalM.lift r : EvalM F Γ α) P := ⟨rfl, h⟩

theorem bind {m : EvalM F Γ α} {f : α → EvalM F Γ β} {P : α → Prop} {Q : β → Prop}
    (h : At c m P) (hf : ∀ a, P a → At c (f a) Q) : At c (m.bind f) Q := by
  unfold At
  simp only [EvalM.bind]
  obtain ⟨h1, h2⟩ := h
  match hm : m c with
  | (.ok a, c') =>
    rw [hm] at h1 h2
    cases (show c' = c from h1)
    exact hf a (h2 a rfl)
  | (.err e, c') => rw [hm] at h1; exact ⟨h1, fun a ha => by cases ha⟩
  | (.panic, c') => rw [hm] at h1; exact ⟨h1, fun a ha => by cases ha⟩

theorem binM {l : EvalM F Γ α} {r : EvalM F Γ β} {k : α → β → Res IncShapes γ} {P : α → Prop}
    {Q : β → Prop} {R : γ → Prop} (hl : At c l P) (hr : At c r Q)
    (hk : ∀ x y z, P x → Q y → k x y = .ok z → R z) : At c (binM l r k) R :=
  (hl.mapErr _).bind fun x hx => (hr.mapErr _).bind fun y hy =>
    .lift fun z hz => hk x y z hx hy ((Res.mapErr_ok_iff _ _ _).1 hz)

end At

/-- Is the spec stored as a diagonal? -/
def BSpec.isDiag {τ : BTy} : BSpec F τ → Bool
  | .diagonal _ _ => true
  | _ => false

/-- Diagonal matrices are square. -/
def SqOK {τ : BTy} (s : BSpec F τ) : Prop :=
  s.isDiag = true → ∀ n m, τ = .array [n, m] → n = m

section
variable [CommRing F] [Div F] [ScalarFns F]

omit [CommRing F] [Div F] [ScalarFns F] in
theorem sqOK_of_not {τ : BTy} {s : BSpec F τ} (h : s.isDiag = false) : SqOK s := by
  intro h1; rw [h] at h1; cases h1

omit [CommRing F] [Div F] [ScalarFns F] in
theorem ofExcept_map_not_diag {α : Type} {τ : BTy} {r : Except IncShapes α} {f : α → BSpec F τ}
    (hf : ∀ x, (f x).isDiag = false) {s : BSpec F τ} (h : Res.ofExcept (r.map f) = .ok s) :
    s.isDiag = false := by
  cases r with
  | error e => cases h
  | ok x => cases h; exact hf x

omit [Div F] [ScalarFns F] in
theorem zipGeneral_not_diag {a b c : BTy} {z : ZipImpl a b c} {f : F → F → F} {x : BSpec F a}
    {y : BSpec F b} {s : BSpec F c} (h : zipGeneral z f x y = .ok s) : s.isDiag = false := by
  obtain ⟨r, _, rfl⟩ := (Res.map_ok_iff _ _ _).1 h
  rfl

omit [CommRing F] [Div F] [ScalarFns F] in
theorem concat_square {a : BTy} {n m : Nat} (k : ConcatImpl a a (.array [n, m]))
    (h : a.rank + a.rank = 2) : n = m := by
  generalize hb : (.array [n, m] : BTy) = b at k
  cases k with
  | aa ds es hl =>
    match ds, h with
    | [d], _ => simp_all
    | [], h => simp [BTy.rank] at h
    | _ :: _ :: _, h => simp [BTy.rank] at h; omega
  | _ => simp_all [BTy.rank]

omit [CommRing F] [Div F] [ScalarFns F] in
theorem binM_ok {α β γ : Type} {l : EvalM F Γ α} {r : EvalM F Γ β} {k : α → β → Res IncShapes γ}
    {c : Ctx F Γ} {z : γ} (h : (binM l r k c).1 = .ok z) :
    ∃ x y, (l c).1 = .ok x ∧ (r (l c).2).1 = .ok y ∧ k x y = .ok z := by
  simp only [binM, EvalM.bind, EvalM.mapErr] at h
  match hl : l c, h with
  | (.ok x, c'), h =>
    simp only [Res.mapErr] at h
    match hr : r c', h with
    | (.ok y, c''), h => exact ⟨x, y, rfl, by simp, (Res.mapErr_ok_iff _ _ _).1 h⟩
    | (.err e, c''), h => cases h
    | (.panic, c''), h => cases h
  | (.err e, c'), h => cases h
  | (.panic, c'), h => cases h

/-- In trees without compressed constants, compressed diagonal values are square. -/
theorem FnImpl.sqOK {e : Node F} {τ : BTy} (d : FnImpl Γ e τ) (hc : ConstSpecFree e)
    {c : Ctx F Γ} {s : BSpec F τ} (h : (d.fn.evaluateSpec c).1 = .ok s) : SqOK s := by
  cases d with
  | var i =>
    obtain ⟨b, _, rfl⟩ := (Res.map_ok_iff _ _ _).1 h
    exact sqOK_of_not rfl
  | varAdj i t k hk =>
    simp only [FnImpl.fn, Fn.ofSpec, EvalM.map, EvalM.bind, EvalM.mapErr, EvalM.read] at h
    cases hci : c i with
    | none => simp only [hci, Res.map, Res.mapErr] at h; cases h
    | some bi =>
      cases hct' : c t with
      | none => simp only [hci, hct', Res.map, Res.mapErr] at h; cases h
      | some bt =>
        simp only [hci, hct', Res.map, Res.mapErr, EvalM.lift, varAdjSpec] at h
        split at h
        · rename_i hit
          subst hit
          split at h
          · rename_i hr
            cases h
            intro _ n m hτ
            subst hτ
            exact concat_square k hr
          · obtain ⟨b, _, rfl⟩ := (Res.map_ok_iff _ _ _).1 h
            exact sqOK_of_not rfl
        · cases h
          exact sqOK_of_not rfl
  | const τ b => cases h; exact sqOK_of_not rfl
  | constSpec τ s => exact absurd (.refl _) (hc τ s)
  | constAdj d t k =>
    obtain ⟨b, _, rfl⟩ := (Res.map_ok_iff _ _ _).1 h
    exact sqOK_of_not rfl
  | cached i d =>
    obtain ⟨b, _, rfl⟩ := (Res.map_ok_iff _ _ _).1 h
    exact sqOK_of_not rfl
  | add dl dr z =>
    obtain ⟨x, y, _, _, h⟩ := binM_ok h
    refine sqOK_of_not ?_
    unfold addSpec at h
    split at h
    · exact ofExcept_map_not_diag (fun _ => rfl) h
    · split at h
      · exact ofExcept_map_not_diag (fun _ => rfl) h
      · exact zipGeneral_not_diag h
    · split at h
      · exact ofExcept_map_not_diag (fun _ => rfl) ((Res.mapErr_ok_iff _ _ _).1 h)
      · exact zipGeneral_not_diag h
    · exact zipGeneral_not_diag h
  | sub dl dr z =>
    obtain ⟨x, y, _, _, h⟩ := binM_ok h
    refine sqOK_of_not ?_
    unfold subSpec at h
    split at h
    · exact ofExcept_map_not_diag (fun _ => rfl) h
    · split at h
      · exact ofExcept_map_not_diag (fun _ => rfl) h
      · exact zipGeneral_not_diag h
    · exact zipGeneral_not_diag h
  | mul dl dr z =>
    obtain ⟨x, y, _, _, h⟩ := binM_ok h
    refine sqOK_of_not ?_
    unfold mulSpec at h
    split at h
    · exact ofExcept_map_not_diag (fun _ => rfl) h
    · split at h
      · exact ofExcept_map_not_diag (fun _ => rfl) h
      · exact zipGeneral_not_diag h
    · split at h
      · exact ofExcept_map_not_diag (fun _ => rfl) h
      · exact zipGeneral_not_diag h
    · exact zipGeneral_not_diag h
  | div dl dr z =>
    obtain ⟨b, _, rfl⟩ := (Res.map_ok_iff _ _ _).1 h
    exact sqOK_of_not rfl
  | power dl dr => intro _ n m hτ; cases hτ
  | contract dl dr z =>
    obtain ⟨x, y, _, _, h⟩ := binM_ok h
    intro hd n m hτ
    cases z with
    | mm n' k m' =>
      cases hτ
      cases x with
      | diagonal sx fx =>
        cases y with
        | diagonal sy fy =>
          simp only [BSpec.contract] at h
          split at h
          · rename_i hnm; exact hnm.2.symm
          · obtain ⟨b, _, rfl⟩ := (Res.map_ok_iff _ _ _).1 h; cases hd
        | _ => obtain ⟨b, _, rfl⟩ := (Res.map_ok_iff _ _ _).1 h; cases hd
      | full sx fx =>
        cases y <;> obtain ⟨b, _, rfl⟩ := (Res.map_ok_iff _ _ _).1 h <;> cases hd
      | raw x =>
        cases y <;> obtain ⟨b, _, rfl⟩ := (Res.map_ok_iff _ _ _).1 h <;> cases hd
    | ms0 _ _ =>
      cases x <;> cases h <;> cases hd
    | sm0 _ _ =>
      cases y <;> cases h <;> cases hd
    | vv0 _ _ =>
      cases x <;> cases y <;> simp only [BSpec.contract] at h
      all_goals first
        | (cases h; cases hd)
        | (split at h <;> cases h <;> cases hd)
    | _ => cases hτ
  | sum d => intro _ n m hτ; cases hτ
  | un op d =>
    obtain ⟨b, _, rfl⟩ := (Res.map_ok_iff _ _ _).1 h
    refine sqOK_of_not ?_
    cases b <;> rfl

end

section
variable [CommRing F]

theorem allZero_zip {a b c : BTy} {x : Buf F a} {y : Buf F b} {r : Buf F c} {f : F → F → F}
    (h : IsZip x y f r)
    (hf : ∀ ix, InBounds (Buf.dims c r) ix → ∀ u v,
      Buf.getU a x (bIdx (Buf.dims a x) ix) = some u → InBounds (Buf.dims a x) (bIdx (Buf.dims a x) ix) →
      Buf.getU b y (bIdx (Buf.dims b y) ix) = some v → InBounds (Buf.dims b y) (bIdx (Buf.dims b y) ix) →
      f u v = 0) : AllZero r := by
  intro ix hix
  obtain ⟨u, v, hu, hv, hr⟩ := h.2 ix hix
  rw [hr, hf ix hix u v hu (inBounds_bIdx_left h.1 hix) hv (inBounds_bIdx_right h.1 hix)]

theorem allZero_map {τ : BTy} {x : Buf F τ} {f : F → F} (hx : AllZero x) (hf : f 0 = 0) :
    AllZero (Buf.mutate τ x f) := by
  rw [Buf.mutate_eq_map]
  intro ix hix
  rw [Buf.dims_map] at hix
  rw [Buf.getU_map, hx ix hix]
  exact congrArg some hf

variable [Div F] [ScalarFns F] [LawfulScalar F] {c : Ctx F Γ}
variable {e l r : Node F} {a b τ : BTy}

theorem at_zero_add {dl : FnImpl Γ l a} {dr : FnImpl Γ r b} {z : ZipImpl a b τ}
    (hl : At c dl.fn.evaluateSpec (fun s => AllZero s.unwrap))
    (hr : At c dr.fn.evaluateSpec (fun s => AllZero s.unwrap)) :
    At c (FnImpl.add dl dr z).fn.evaluateSpec (fun s => AllZero s.unwrap) := by
  refine hl.binM hr fun x y s hx hy h => ?_
  have h1 := Buf.zipMap_isZip z _ _ _ _ ((addSpec_sameOk z x y s.unwrap).1 ⟨s, h, rfl⟩)
  rw [ZipImpl.eff_comm z _ (fun u v => add_comm u v)] at h1
  refine allZero_zip h1 fun ix hix u v hu hui hv hvi => ?_
  rw [hx _ hui] at hu; rw [hy _ hvi] at hv
  cases hu; cases hv; simp

omit [CommRing F] [Div F] [ScalarFns F] [LawfulScalar F] in
theorem eff_eff (z : ZipImpl a b τ) (f : F → F → F) : z.eff (z.eff f) = f := by
  unfold ZipImpl.eff
  split <;> rfl

omit [CommRing F] [Div F] [ScalarFns F] [LawfulScalar F] in
theorem swaps_scalar (z : ZipImpl a b τ) (h : z.swaps = true) : a = .scalar ∧ b ≠ .scalar := by
  cases z <;> simp_all [ZipImpl.swaps]

omit [Div F] [LawfulScalar F] in
/-- The difference of zeros is zero, whatever the operand order. -/
theorem subSpec_zero (z : ZipImpl a b τ) (x : BSpec F a) (y : BSpec F b) (s : BSpec F τ)
    (hx : AllZero x.unwrap) (hy : AllZero y.unwrap) (h : subSpec z x y = .ok s) :
    AllZero s.unwrap := by
  have gen : ∀ (u : Buf F a) (v : Buf F b) (f : F → F → F), f 0 0 = 0 → AllZero u → AllZero v →
      ∀ r, Buf.zipMap z u v f = .ok r → AllZero r := by
    intro u v f hf hu hv r hr
    refine allZero_zip (Buf.zipMap_isZip z _ _ _ _ hr) fun ix hix u' v' hu' hui hv' hvi => ?_
    rw [hu _ hui] at hu'; rw [hv _ hvi] at hv'
    cases hu'; cases hv'
    unfold ZipImpl.eff
    split <;> exact hf
  have general : zipGeneral z (· - ·) x y = .ok s → AllZero s.unwrap := by
    intro h
    exact gen _ _ _ (sub_zero 0) hx hy _
      ((zipGeneral_sameOk z (· - ·) x y s.unwrap).1 ⟨s, h, rfl⟩)
  cases x with
  | raw x =>
    cases y with
    | full sy fy =>
      simp only [subSpec] at h
      split at h
      · have h1 := Buf.zipShape_eq z x (Buf.full b sy fy)
        rw [Buf.shape_full] at h1
        rw [h1] at h
        have h2 := (Res.ofExcept_ok_iff _ _).1 h
        cases h3 : Buf.zipMap z x (Buf.full b sy fy) (z.eff fun u _ => u) with
        | error e => rw [h3] at h2; cases h2
        | ok r =>
          rw [h3] at h2
          cases h2
          refine gen x (Buf.full b sy fy) _ ?_ hx hy _ h3
          unfold ZipImpl.eff
          split <;> rfl
      · exact general h
    | raw y => exact general h
    | diagonal sy fy => exact general h
  | full sx fx =>
    cases y with
    | full sy fy =>
      have h2 := zipMap_full z sx sy fx fy (z.eff (· - ·))
      rw [eff_eff] at h2
      simp only [subSpec] at h
      cases h3 : z.broadcast sx sy with
      | error e => rw [h3] at h; cases h
      | ok sz =>
        rw [h3] at h h2
        cases h
        refine gen _ _ _ ?_ hx hy _ h2
        unfold ZipImpl.eff
        split <;> exact sub_zero 0
    | raw y => exact general h
    | diagonal sy fy => exact general h
  | diagonal sx fx => cases y <;> exact general h

omit [LawfulScalar F] in
theorem at_zero_sub {dl : FnImpl Γ l a} {dr : FnImpl Γ r b} {z : ZipImpl a b τ}
    (hl : At c dl.fn.evaluateSpec (fun s => AllZero s.unwrap))
    (hr : At c dr.fn.evaluateSpec (fun s => AllZero s.unwrap)) :
    At c (FnImpl.sub dl dr z).fn.evaluateSpec (fun s => AllZero s.unwrap) :=
  hl.binM hr fun x y s hx hy h => subSpec_zero z x y s hx hy h

theorem at_zero_mul_left {dl : FnImpl Γ l a} {dr : FnImpl Γ r b} {z : ZipImpl a b τ}
    (hl : At c dl.fn.evaluateSpec (fun s => AllZero s.unwrap))
    (hr : At c dr.fn.evaluateSpec (fun _ => True)) :
    At c (FnImpl.mul dl dr z).fn.evaluateSpec (fun s => AllZero s.unwrap) := by
  refine hl.binM hr fun x y s hx hy h => ?_
  have h1 := Buf.zipMap_isZip z _ _ _ _ ((mulSpec_sameOk z x y s.unwrap).1 ⟨s, h, rfl⟩)
  rw [ZipImpl.eff_comm z _ (fun u v => mul_comm u v)] at h1
  refine allZero_zip h1 fun ix hix u v hu hui hv hvi => ?_
  rw [hx _ hui] at hu
  cases hu; simp

theorem at_zero_mul_right {dl : FnImpl Γ l a} {dr : FnImpl Γ r b} {z : ZipImpl a b τ}
    (hl : At c dl.fn.evaluateSpec (fun _ => True))
    (hr : At c dr.fn.evaluateSpec (fun s => AllZero s.unwrap)) :
    At c (FnImpl.mul dl dr z).fn.evaluateSpec (fun s => AllZero s.unwrap) := by
  refine hl.binM hr fun x y s hx hy h => ?_
  have h1 := Buf.zipMap_isZip z _ _ _ _ ((mulSpec_sameOk z x y s.unwrap).1 ⟨s, h, rfl⟩)
  rw [ZipImpl.eff_comm z _ (fun u v => mul_comm u v)] at h1
  refine allZero_zip h1 fun ix hix u v hu hui hv hvi => ?_
  rw [hy _ hvi] at hv
  cases hv; simp

omit [LawfulScalar F] in
theorem at_zero_un {d : FnImpl Γ e τ} {op : UnOp} (hop : op.apply (0 : F) = 0)
    (h : At c d.fn.evaluateSpec (fun s => AllZero s.unwrap)) :
    At c (FnImpl.un op d).fn.evaluateSpec (fun s => AllZero s.unwrap) := by
  refine h.map fun s hs => ?_
  rw [unSpec_unwrap]
  exact allZero_map hs hop

/-- Zero divided by something without zero entries. -/
theorem at_zero_div' (hdiv : ∀ x : F, x ≠ 0 → 0 / x = 0) {dl : FnImpl Γ l a} {dr : FnImpl Γ r b}
    {z : ZipImpl a b τ} (hz : z.swaps = false)
    (hl : At c dl.fn.evaluateSpec (fun s => AllZero s.unwrap))
    (hr : At c dr.fn.evaluate
      (fun y => ∀ ix, InBounds (Buf.dims b y) ix → Buf.getU b y ix ≠ some 0)) :
    At c (FnImpl.div dl dr z).fn.evaluateSpec (fun s => AllZero s.unwrap) := by
  have hl' : At c dl.fn.evaluate (fun x => AllZero x) := by
    rw [FnImpl.evaluate_eq]
    exact hl.map fun _ h => h
  refine (hl'.binM hr (R := fun b => AllZero b) fun x y s hx hy h => ?_).map fun _ h => h
  rw [Buf.zipMapId_eq] at h
  have h1 := Buf.zipMap_isZip z _ _ _ _ ((Res.ofExcept_ok_iff _ _).1 h)
  rw [ZipImpl.eff_of_not_swaps z hz] at h1
  refine allZero_zip h1 fun ix hix u v hu hui hv hvi => ?_
  rw [hx _ hui] at hu
  cases hu
  exact hdiv v fun h0 => hy _ hvi (h0 ▸ hv)

omit [Div F] in
/-- A contraction with an all-zero operand, if it succeeds, is all zero. -/
theorem contract_zero {axes : Nat} (z : ContractImpl axes a b τ) (x : BSpec F a) (y : BSpec F b)
    (s : BSpec F τ) (sx : SqOK x) (sy : SqOK y) (h0 : AllZero x.unwrap ∨ AllZero y.unwrap)
    (h : BSpec.contract z x y = .ok s) : AllZero s.unwrap := by
  have rz : ∀ {σ : BTy} (u : Buf F σ), AllZero u → Buf.read u = fun _ => 0 := by
    intro σ u hu
    funext ix
    by_cases hb : InBounds (Buf.dims σ u) ix
    · simp [Buf.read, hu ix hb]
    · simp [Buf.read, Buf.getU_none _ u ix hb]
  by_cases hin : z.inRange
  · obtain ⟨s', hs', hu⟩ := contractSpec_eq z x y hin
    rw [h] at hs'
    cases hs'
    rw [hu, contractOut]
    intro ix hix
    rw [Buf.dims_build] at hix
    rw [Buf.getU_build _ _ _ _ hix]
    refine congrArg some ?_
    rcases h0 with h0 | h0 <;> rw [rz _ h0] <;> cases z <;> simp [ContractImpl.fn]
  · have dz : ∀ x y, BSpec.denseContract z x y ≠ (.ok s : Res IncShapes (BSpec F τ)) := by
      intro x y hd
      rw [BSpec.denseContract, contract_panic z _ _ hin] at hd
      cases hd
    have zz : ∀ sh : Shp τ, AllZero (BSpec.zeroes sh : BSpec F τ).unwrap := by
      intro sh ix hix
      exact Buf.getU_full _ _ _ _
        (by rw [BSpec.zeroes, BSpec.unwrap, Buf.dims_full] at hix; exact hix)
    cases z with
    | mv n m =>
      cases x with
      | raw x => exact absurd h (dz _ _)
      | full sx fx =>
        simp only [BSpec.contract] at h
        split at h
        · cases h; exact zz _
        · exact absurd h (dz _ _)
      | diagonal s fx => exact absurd (le_of_eq (sx rfl n m rfl).symm) hin
    | vm n m =>
      cases y with
      | raw y => cases x <;> exact absurd h (dz _ _)
      | full sy fy =>
        cases x <;>
        · simp only [BSpec.contract] at h
          split at h
          · cases h; exact zz _
          · exact absurd h (dz _ _)
      | diagonal s fx => exact absurd (le_of_eq (sy rfl n m rfl).symm) hin
    | _ => exact absurd trivial hin

theorem at_zero_contract {axes : Nat} {dl : FnImpl Γ l a} {dr : FnImpl Γ r b}
    {z : ContractImpl axes a b τ} (sl : ConstSpecFree l) (sr : ConstSpecFree r)
    (h : (At c dl.fn.evaluateSpec (fun s => AllZero s.unwrap) ∧
        At c dr.fn.evaluateSpec (fun _ => True)) ∨
      (At c dl.fn.evaluateSpec (fun _ => True) ∧
        At c dr.fn.evaluateSpec (fun s => AllZero s.unwrap))) :
    At c (FnImpl.contract dl dr z).fn.evaluateSpec (fun s => AllZero s.unwrap) := by
  rcases h with ⟨hl, hr⟩ | ⟨hl, hr⟩
  · refine At.binM (P := fun s => AllZero s.unwrap ∧ SqOK s) (Q := SqOK)
      ⟨hl.1, fun x hx => ⟨hl.2 x hx, dl.sqOK sl hx⟩⟩ ⟨hr.1, fun y hy => dr.sqOK sr hy⟩
      fun x y s hx hy h => contract_zero z x y s hx.2 hy (.inl hx.1) h
  · refine At.binM (P := SqOK) (Q := fun s => AllZero s.unwrap ∧ SqOK s)
      ⟨hl.1, fun x hx => dl.sqOK sl hx⟩ ⟨hr.1, fun y hy => ⟨hr.2 y hy, dr.sqOK sr hy⟩⟩
      fun x y s hx hy h => contract_zero z x y s hx hy.2 (.inr hy.1) h

end

section
variable [CommRing F] [Div F] [ScalarFns F] [LawfulScalar F]

omit [CommRing F] [Div F] [ScalarFns F] [LawfulScalar F] in
/-- Only trees without `Cached` are differentiable with respect to an absent identifier. -/
theorem cacheFree_of_adjoint {e e' : Node F} {t : Id} (h : e.adjoint t = some e')
    (ht : e.contains t = false) : CacheFree e := by
  induction e generalizing e' with
  | var i => simp [CacheFree]
  | varAdj i j => simp [CacheFree]
  | const τ b => simp [CacheFree]
  | constSpec | constAdj => cases h
  | cached n i =>
    simp only [Node.adjoint] at h
    split at h
    · next hti => simp [Node.contains, hti] at ht
    · cases h
  | add l r ihl ihr | sub l r ihl ihr | mul l r ihl ihr | div l r ihl ihr | power l r ihl ihr
  | contract k l r ihl ihr =>
    simp only [Node.adjoint, Option.bind_eq_some_iff, Option.map_eq_some_iff] at h
    simp only [Node.contains, Bool.or_eq_false_iff] at ht
    obtain ⟨l', hl, r', hr, rfl⟩ := h
    rw [cacheFree_iff]
    simp [children, ihl hl ht.1, ihr hr ht.2]
  | sum n ih =>
    rw [cacheFree_iff]
    simp only [Node.adjoint] at h
    simp only [Node.contains] at ht
    simp [children, ih h ht]
  | un op n ih =>
    simp only [Node.contains] at ht
    rw [cacheFree_iff]
    cases op <;> simp only [Node.adjoint, Option.map_eq_some_iff, reduceCtorEq] at h
    all_goals first
      | simp [children, ih h ht]
      | obtain ⟨n', hn, rfl⟩ := h
        simp [children, ih hn ht]

omit [LawfulScalar F] in
theorem at_true {e : Node F} {τ : BTy} (d : FnImpl Γ e τ) (hf : CacheFree e) (c : Ctx F Γ) :
    At c d.fn.evaluateSpec (fun _ => True) := ⟨(d.ctx_eq hf c).2.1, fun _ _ => trivial⟩

omit [LawfulScalar F] in
theorem at_constAdj {n : Node F} {t : Id} {σ : BTy} (da : FnImpl Γ (.constAdj n t) σ)
    (hf : CacheFree (.constAdj n t)) (c : Ctx F Γ) :
    At c da.fn.evaluateSpec (fun s => AllZero s.unwrap) := by
  refine ⟨(da.ctx_eq hf c).2.1, fun s hs ix hix => ?_⟩
  cases da with
  | constAdj d _ k =>
    obtain ⟨sh, _, rfl⟩ := (Res.map_ok_iff _ _ _).1 hs
    exact Buf.getU_full _ _ _ _ (by rw [BSpec.unwrap, Buf.dims_full] at hix; exact hix)

/-- An adjoint with respect to an identifier that does not occur evaluates to zero. -/
theorem adjoint_zero (hdiv : ∀ x : F, x ≠ 0 → 0 / x = 0) {e e' : Node F} {t : Id}
    (h : e.adjoint t = some e') (ht : e.contains t = false) (c : Ctx F Γ)
    (hden : ∀ a b, SubExpr (.div a b) e' → ∀ {β : BTy} (db : FnImpl Γ b β) (v : Buf F β),
      (db.evaluate c).1 = .ok v → ∀ ix, InBounds (Buf.dims β v) ix → Buf.getU β v ix ≠ some 0)
    {σ : BTy} (da : FnImpl Γ e' σ) :
    At c da.fn.evaluateSpec (fun s => AllZero s.unwrap) := by
  have hf := cacheFree_of_adjoint h ht
  induction e generalizing e' σ with
  | var i =>
    cases h
    have hi : i ≠ t := by simpa [Node.contains] using ht
    have hct := (FnImpl.ctx_eq da (by simp [CacheFree]) c).2.1
    refine ⟨hct, fun s hs ix hix => ?_⟩
    cases da with
    | varAdj _ _ k hk =>
      simp only [FnImpl.fn, Fn.ofSpec, EvalM.map, EvalM.bind, EvalM.mapErr, EvalM.read] at hs
      cases hci : c i with
      | none => simp only [hci, Res.map, Res.mapErr] at hs; cases hs
      | some bi =>
        cases hct' : c t with
        | none => simp only [hci, hct', Res.map, Res.mapErr] at hs; cases hs
        | some bt =>
          simp only [hci, hct', Res.map, Res.mapErr, EvalM.lift, varAdjSpec, if_neg hi] at hs
          cases hs
          exact Buf.getU_full _ _ _ _ (by rw [BSpec.zeroes, BSpec.unwrap, Buf.dims_full] at hix; exact hix)
  | varAdj i j =>
    cases h
    exact at_constAdj da (by simp [CacheFree]) c
  | const τ b =>
    cases h
    exact at_constAdj da (by simp [CacheFree]) c
  | constSpec | constAdj => cases h
  | cached n i => exact absurd (.refl _) (hf n i)
  | add l r ihl ihr =>
    simp only [Node.adjoint, Option.bind_eq_some_iff, Option.map_eq_some_iff] at h
    simp only [Node.contains, Bool.or_eq_false_iff] at ht
    obtain ⟨l', hl, r', hr', rfl⟩ := h
    have hfl := hf.child (e' := l) (by simp [children])
    have hfr := hf.child (e' := r) (by simp [children])
    cases da with
    | add dl dr z =>
      exact at_zero_add
        (ihl hl ht.1 (fun a b hs => hden a b (.step (by simp [children]) hs)) dl hfl)
        (ihr hr' ht.2 (fun a b hs => hden a b (.step (by simp [children]) hs)) dr hfr)
  | sub l r ihl ihr =>
    simp only [Node.adjoint, Option.bind_eq_some_iff, Option.map_eq_some_iff] at h
    simp only [Node.contains, Bool.or_eq_false_iff] at ht
    obtain ⟨l', hl, r', hr', rfl⟩ := h
    have hfl := hf.child (e' := l) (by simp [children])
    have hfr := hf.child (e' := r) (by simp [children])
    cases da with
    | sub dl dr z =>
      exact at_zero_sub
        (ihl hl ht.1 (fun a b hs => hden a b (.step (by simp [children]) hs)) dl hfl)
        (ihr hr' ht.2 (fun a b hs => hden a b (.step (by simp [children]) hs)) dr hfr)
  | mul l r ihl ihr =>
    simp only [Node.adjoint, Option.bind_eq_some_iff, Option.map_eq_some_iff] at h
    simp only [Node.contains, Bool.or_eq_false_iff] at ht
    obtain ⟨l', hl, r', hr', rfl⟩ := h
    have hfl := hf.child (e' := l) (by simp [children])
    have hfr := hf.child (e' := r) (by simp [children])
    cases da with
    | add d1 d2 z =>
      cases d1 with
      | mul dl1 dr1 z1 =>
        cases d2 with
        | mul dl2 dr2 z2 =>
          exact at_zero_add
            (at_zero_mul_left (ihl hl ht.1 (fun a b hs => hden a b (by simp [hs])) dl1 hfl)
              (at_true dr1 hfr c))
            (at_zero_mul_left (ihr hr' ht.2 (fun a b hs => hden a b (by simp [hs])) dl2 hfr)
              (at_true dr2 hfl c))
  | div l r ihl ihr =>
    simp only [Node.adjoint, Option.bind_eq_some_iff, Option.map_eq_some_iff] at h
    simp only [Node.contains, Bool.or_eq_false_iff] at ht
    obtain ⟨l', hl, r', hr', rfl⟩ := h
    have hfl := hf.child (e' := l) (by simp [children])
    have hfr := hf.child (e' := r) (by simp [children])
    cases da with
    | div dn dd z =>
      have hdd : CacheFree (.un .square r) := by rw [cacheFree_iff]; simp [children, hfr]
      have hz : z.swaps = false := by
        cases hs : z.swaps with
        | false => rfl
        | true =>
          obtain ⟨rfl, hb⟩ := swaps_scalar z hs
          cases dn with | sub d1 d2 z' =>
          obtain ⟨rfl, rfl⟩ := z'.scalar_out
          cases d1 with | mul d3 d4 z1 =>
          obtain ⟨rfl, rfl⟩ := z1.scalar_out
          cases dd with | un _ dd => exact absurd (dd.type_unique d3) hb
      refine at_zero_div' hdiv hz ?_
        ⟨(dd.ctx_eq hdd c).1, fun v hv => hden _ _ (.refl _) dd v hv⟩
      cases dn with
      | sub d1 d2 z' =>
        cases d1 with
        | mul dl1 dr1 z1 =>
          cases d2 with
          | mul dl2 dr2 z2 =>
            exact at_zero_sub
              (at_zero_mul_right (at_true dl1 hfr c)
                (ihl hl ht.1 (fun a b hs => hden a b (by simp [hs])) dr1 hfl))
              (at_zero_mul_right (at_true dl2 hfl c)
                (ihr hr' ht.2 (fun a b hs => hden a b (by simp [hs])) dr2 hfr))
  | power l r ihl ihr =>
    simp only [Node.adjoint, Option.bind_eq_some_iff, Option.map_eq_some_iff] at h
    simp only [Node.contains, Bool.or_eq_false_iff] at ht
    obtain ⟨l', hl, r', hr', rfl⟩ := h
    have hfl := hf.child (e' := l) (by simp [children])
    have hfr := hf.child (e' := r) (by simp [children])
    cases da with
    | mul dp da z =>
      refine at_zero_mul_right (at_true dp (by
        rw [cacheFree_iff]; simp [children, hfl, cacheFree_iff (.un _ _), hfr]) c) ?_
      cases da with
      | add d1 d2 z' =>
        cases d1 with
        | mul dl1 dr1 z1 =>
          cases d2 with
          | mul dl2 dr2 z2 =>
            exact at_zero_add
              (at_zero_mul_right (at_true dl1 hfr c)
                (ihl hl ht.1 (fun a b hs => hden a b (by simp [hs])) dr1 hfl))
              (at_zero_mul_right (at_true dl2 (by rw [cacheFree_iff]; simp [children, hfl]) c)
                (ihr hr' ht.2 (fun a b hs => hden a b (by simp [hs])) dr2 hfr))
  | contract k l r ihl ihr =>
    simp only [Node.adjoint, Option.bind_eq_some_iff, Option.map_eq_some_iff] at h
    simp only [Node.contains, Bool.or_eq_false_iff] at ht
    obtain ⟨l', hl, r', hr', rfl⟩ := h
    have hfl := hf.child (e' := l) (by simp [children])
    have hfr := hf.child (e' := r) (by simp [children])
    cases da with
    | add d1 d2 z =>
      cases d1 with
      | contract dl1 dr1 z1 =>
        cases d2 with
        | contract dl2 dr2 z2 =>
          exact at_zero_add
            (at_zero_contract (adjoint_constSpecFree hl).1 (adjoint_constSpecFree hr').2 (.inr ⟨at_true dl1 hfl c,
              ihr hr' ht.2 (fun a b hs => hden a b (by simp [hs])) dr1 hfr⟩))
            (at_zero_contract (adjoint_constSpecFree hl).2 (adjoint_constSpecFree hr').1 (.inl
              ⟨ihl hl ht.1 (fun a b hs => hden a b (by simp [hs])) dl2 hfl,
                at_true dr2 hfr c⟩))
  | sum n ih => exact ih h ht hden da (hf.child (by simp [children]))
  | un op n ih =>
    simp only [Node.contains] at ht
    have hfn := hf.child (e' := n) (by simp [children])
    have hun : ∀ op, CacheFree (.un op n) := fun op => by
      rw [cacheFree_iff]; simp [children, hfn]
    have hun2 : ∀ op op', CacheFree (.un op (.un op' n)) := fun op op' => by
      rw [cacheFree_iff]; simp [children, hun]
    cases op <;> simp only [Node.adjoint, Option.map_eq_some_iff, reduceCtorEq] at h
    case subOne | addOne => exact ih h ht hden da hfn
    case oneSub | negate =>
      obtain ⟨n', hn, rfl⟩ := h
      cases da with
      | un _ d =>
        exact at_zero_un (by simp [UnOp.apply])
          (ih hn ht (fun a b hs => hden a b (by simp [hs])) d hfn)
    case double =>
      obtain ⟨n', hn, rfl⟩ := h
      cases da with
      | un _ d =>
        exact at_zero_un (by simp [UnOp.apply])
          (ih hn ht (fun a b hs => hden a b (by simp [hs])) d hfn)
    case square | sign | abs | exp | rabbit =>
      obtain ⟨n', hn, rfl⟩ := h
      cases da with
      | mul d1 d2 z =>
        exact at_zero_mul_right (at_true d1 (by first | exact hun _ | exact hun2 _ _) c)
          (ih hn ht (fun a b hs => hden a b (by simp [hs])) d2 hfn)
    case xlnx | sigmoid | logGamma | sin =>
      obtain ⟨n', hn, rfl⟩ := h
      cases da with
      | mul d1 d2 z =>
        exact at_zero_mul_left (ih hn ht (fun a b hs => hden a b (by simp [hs])) d1 hfn)
          (at_true d2 (by first | exact hun _ | exact hun2 _ _) c)
    case ln =>
      obtain ⟨n', hn, rfl⟩ := h
      cases da with
      | div d1 d2 z =>
        have hz : z.swaps = false := by
          cases hs : z.swaps with
          | false => rfl
          | true =>
            obtain ⟨rfl, hb⟩ := swaps_scalar z hs
            exact absurd (adjoint_scalar hn d2 d1) hb
        exact at_zero_div' hdiv hz
          (ih hn ht (fun a b hs => hden a b (by simp [hs])) d1 hfn)
          ⟨(d2.ctx_eq hfn c).1, fun v hv => hden _ _ (.refl _) d2 v hv⟩
    case gamma =>
      obtain ⟨n', hn, rfl⟩ := h
      cases da with
      | mul d1 d2 z =>
        cases d1 with
        | mul d3 d4 z' =>
          exact at_zero_mul_left (at_zero_mul_left
            (ih hn ht (fun a b hs => hden a b (by simp [hs])) d3 hfn)
            (at_true d4 (hun _) c)) (at_true d2 (hun _) c)
    case cos =>
      obtain ⟨n', hn, rfl⟩ := h
      cases da with
      | un _ d =>
        cases d with
        | mul d1 d2 z =>
          exact at_zero_un (by simp [UnOp.apply])
            (at_zero_mul_left (ih hn ht (fun a b hs => hden a b (by simp [hs])) d1 hfn)
              (at_true d2 (hun _) c))

end

end Aegir
