import Verif.Lemmas.Errors
/-!
# Success of evaluation

Without any arithmetic law.
-/

namespace Aegir

open Spec

variable {F : Type} {Γ : Id → BTy}

section
variable [Zero F] [Add F]

theorem sumLoop_isSome (n : Nat) (g : Nat → Option F) (hg : ∀ k, k < n → ∃ v, g k = some v) :
    ∃ v, sumLoop n g = some v := by
  unfold sumLoop
  induction n with
  | zero => exact ⟨0, by simp⟩
  | succ n ih =>
    obtain ⟨v, hv⟩ := ih (fun k hk => hg k (by omega))
    obtain ⟨u, hu⟩ := hg n (by omega)
    exact ⟨v + u, by rw [List.range_succ, List.foldlM_append, hv]; simp [hu]⟩

end

theorem ofElemsOpt_isSome {d : Nat} (f : Fin d → Option F) (h : ∀ i, ∃ v, f i = some v) :
    ∃ a, NArr.ofElemsOpt f = some a := by
  choose g hg using h
  exact ⟨_, NArr.ofElemsOpt_some f g hg⟩

theorem mkRowsOpt_isSome {d : Nat} {ds : Dims} (f : Fin d → Option (NArr F ds))
    (h : ∀ i, ∃ v, f i = some v) : ∃ a, NArr.mkRowsOpt f = some a := by
  choose g hg using h
  exact ⟨_, NArr.mkRowsOpt_some f g hg⟩

theorem narr_getU_isSome {ds : Dims} (b : NArr F ds) (ix : Idx) (h : InBounds ds ix) :
    ∃ v, NArr.getU ds b ix = some v := Buf.getU_some (.array ds) b ix h

section
variable [Zero F] [Add F] [Mul F]

omit [Add F] [Mul F] in
theorem dot_ok (n : Nat) (x y : NArr F [n]) (f : F → F × F → F) :
    ∃ v, Buf.zipFold (.aa [n]) x y 0 f = .ok v := by
  rw [Buf.zipFold_eq]
  exact ⟨_, rfl⟩

/-- In-range contractions succeed. -/
theorem bufContract_ok {axes : Nat} {a b c : BTy} (z : ContractImpl axes a b c) (x : Buf F a)
    (y : Buf F b) (h : z.inRange) : ∃ r, Buf.contract z x y = .ok r := by
  cases z with
  | dot n => exact dot_ok n x y _
  | mv n m =>
    have h : m ≤ n := h
    obtain ⟨a, ha⟩ := ofElemsOpt_isSome (d := m) (fun i =>
        sumLoop m (fun k => (NArr.getU [n, m] x [i.val, k]).bind (fun u =>
          (NArr.getU [n] y [k]).map (fun v => u * v)))) (fun i => sumLoop_isSome m _ (fun k hk => by
      obtain ⟨u, hu⟩ := narr_getU_isSome (ds := [n, m]) x [i.val, k] (inBounds_pair' (by omega) hk)
      obtain ⟨v, hv⟩ := narr_getU_isSome (ds := [n]) y [k] (inBounds_one' (by omega))
      exact ⟨u * v, by rw [hu, hv]; rfl⟩))
    exact ⟨a, congrArg Res.ofOption ha⟩
  | vm n m =>
    have h : m ≤ n := h
    obtain ⟨a, ha⟩ := ofElemsOpt_isSome (d := m) (fun i =>
        sumLoop m (fun k => (NArr.getU [n] x [k]).bind (fun u =>
          (NArr.getU [n, m] y [k, i.val]).map (fun v => u * v)))) (fun i => sumLoop_isSome m _ (fun k hk => by
      obtain ⟨u, hu⟩ := narr_getU_isSome (ds := [n]) x [k] (inBounds_one' (by omega))
      obtain ⟨v, hv⟩ := narr_getU_isSome (ds := [n, m]) y [k, i.val]
        (inBounds_pair' (by omega) i.isLt)
      exact ⟨u * v, by rw [hu, hv]; rfl⟩))
    exact ⟨a, congrArg Res.ofOption ha⟩
  | mm n z m =>
    obtain ⟨a, ha⟩ := mkRowsOpt_isSome (d := n) (ds := [m]) (fun i =>
        NArr.ofElemsOpt (d := m) (fun j =>
          sumLoop z (fun k => (NArr.getU [n, z] x [i.val, k]).bind (fun u =>
            (NArr.getU [z, m] y [k, j.val]).map (fun v => u * v)))))
      (fun i => ofElemsOpt_isSome _ (fun j => sumLoop_isSome z _ (fun k hk => by
        obtain ⟨u, hu⟩ := narr_getU_isSome (ds := [n, z]) x [i.val, k] (inBounds_pair' i.isLt hk)
        obtain ⟨v, hv⟩ := narr_getU_isSome (ds := [z, m]) y [k, j.val] (inBounds_pair' hk j.isLt)
        exact ⟨u * v, by rw [hu, hv]; rfl⟩)))
    exact ⟨a, congrArg Res.ofOption ha⟩
  | _ => exact ⟨_, rfl⟩

theorem denseContract_ok {axes : Nat} {a b c : BTy} (z : ContractImpl axes a b c) (x : BSpec F a)
    (y : BSpec F b) (h : z.inRange) : ∃ r, BSpec.denseContract z x y = .ok r := by
  obtain ⟨r, hr⟩ := bufContract_ok z x.unwrap y.unwrap h
  exact ⟨.raw r, by rw [BSpec.denseContract, hr]; rfl⟩

variable [ScalarFns F]

theorem specContract_ok (hU : ∀ n, (ScalarFns.fromUsize n : Option F) ≠ none) {axes : Nat}
    {a b c : BTy} (z : ContractImpl axes a b c) (x : BSpec F a) (y : BSpec F b) (h : z.inRange) :
    ∃ r, BSpec.contract z x y = .ok r := by
  have key : ∀ {δ : Type} (n : Nat) (g : F → δ), ∃ r,
      (Res.ofOption (ScalarFns.fromUsize n)).map g = (.ok r : Res IncShapes δ) := by
    intro δ n g
    cases hn : (ScalarFns.fromUsize n : Option F) with
    | none => exact absurd hn (hU n)
    | some k => exact ⟨_, rfl⟩
  have fold : ∀ (n : Nat) (x y : NArr F [n]) (f : F → F × F → F), ∃ r,
      (Buf.zipFold (.aa [n]) x y 0 f).map BSpec.raw = (.ok r : Res IncShapes (BSpec F .scalar)) := by
    intro n x y f
    obtain ⟨v, hv⟩ := dot_ok n x y f
    exact ⟨.raw v, by rw [hv]; rfl⟩
  cases z <;> cases x <;> cases y <;> simp only [BSpec.contract] <;>
    first
      | exact denseContract_ok _ _ _ h
      | exact key _ _
      | exact fold _ _ _ _
      | exact ⟨_, rfl⟩
      | (split <;> first | exact denseContract_ok _ _ _ h | exact ⟨_, rfl⟩)

end

theorem zip_ne_vec {a b c : BTy} (z : ZipImpl a b c) (ha : a ≠ .vec) (hb : b ≠ .vec) :
    c ≠ .vec := by cases z <;> first | exact ha | exact hb

theorem broadcast_fixed {a b c : BTy} (z : ZipImpl a b c) (ha : a ≠ .vec) (s : Shp a) (t : Shp b)
    (hb : b ≠ .vec) : ∃ r, z.broadcast s t = .ok r := by
  cases z with
  | vv => exact absurd rfl ha
  | vs => exact absurd rfl ha
  | sv => exact absurd rfl hb
  | _ => exact ⟨_, rfl⟩

theorem Spec.FixedSize.child {e e' : Node F} (h : FixedSize Γ e) (hc : e' ∈ children e) :
    FixedSize Γ e' := by
  refine ⟨fun i hi => h.1 i ?_, fun τ b hs => h.2.1 τ b (.step hc hs),
    fun τ s hs => h.2.2 τ s (.step hc hs)⟩
  cases e <;> simp only [children, List.mem_cons, List.not_mem_nil, or_false] at hc
  case constAdj => subst hc; simp [Node.contains, hi]
  case cached => subst hc; simp [Node.contains, hi]
  case sum => subst hc; simp [Node.contains, hi]
  case un => subst hc; simp [Node.contains, hi]
  all_goals rcases hc with rfl | rfl <;> simp [Node.contains, hi]

theorem FnImpl.ne_vec {e : Node F} {τ : BTy} (d : FnImpl Γ e τ) (h : FixedSize Γ e) : τ ≠ .vec := by
  induction d with
  | var i => exact h.1 i (by simp [Node.contains])
  | varAdj i t k _ => exact concat_ne_vec k
  | const τ b => exact h.2.1 τ b (.refl _)
  | constSpec τ s => exact h.2.2 τ s (.refl _)
  | constAdj d t k ih => exact concat_ne_vec k
  | cached i d ih => exact ih (h.child (by simp [children]))
  | add dl dr z ihl ihr | sub dl dr z ihl ihr | mul dl dr z ihl ihr | div dl dr z ihl ihr =>
    exact zip_ne_vec z (ihl (h.child (by simp [children]))) (ihr (h.child (by simp [children])))
  | power dl dr _ _ => simp
  | contract dl dr z _ _ => exact contract_ne_vec z
  | sum d _ => simp
  | un op d ih => exact ih (h.child (by simp [children]))

/-- `m` succeeds from every context where the identifiers in `P` are defined. -/
def Total {α : Type} (P : Id → Prop) (m : EvalM F Γ α) : Prop :=
  ∀ c : Ctx F Γ, (∀ i, P i → c i ≠ none) → ∃ v c', m c = (.ok v, c')

namespace Total
variable {P : Id → Prop} {α β γ : Type}

theorem map {m : EvalM F Γ α} (h : Total P m) (f : α → β) : Total P (m.map f) := by
  intro c hc
  obtain ⟨v, c', hv⟩ := h c hc
  exact ⟨f v, c', (EvalM.map_ok_iff _ _ _ _ _).2 ⟨v, hv, rfl⟩⟩

theorem mapErr {m : EvalM F Γ α} (h : Total P m) (f : EvalErr → EvalErr) :
    Total P (m.mapErr f) := by
  intro c hc
  obtain ⟨v, c', hv⟩ := h c hc
  exact ⟨v, c', (EvalM.mapErr_ok_iff _ _ _ _ _).2 hv⟩

theorem read {i : Id} (hi : P i) : Total P (EvalM.read i : EvalM F Γ _) := by
  intro c hc
  cases h : c i with
  | none => exact absurd h (hc i hi)
  | some v => exact ⟨v, c, (EvalM.read_ok_iff _ _ _ _).2 ⟨h, rfl⟩⟩

theorem ok (v : α) : Total P (EvalM.lift (.ok v) : EvalM F Γ α) := fun c _ => ⟨v, c, rfl⟩

theorem lift {r : Res EvalErr α} (h : ∃ v, r = .ok v) : Total P (EvalM.lift r : EvalM F Γ α) := by
  obtain ⟨v, rfl⟩ := h
  exact ok v

theorem bind {m : EvalM F Γ α} {f : α → EvalM F Γ β} {Q : Id → Prop} (hQ : Frame Q m)
    (h : Total P m) (hf : ∀ a, Total P (f a)) : Total P (m.bind f) := by
  intro c hc
  obtain ⟨v, c', hv⟩ := h c hc
  obtain ⟨w, c'', hw⟩ := hf v c' (fun i hi => hQ.some_of_some hv i (hc i hi))
  exact ⟨w, c'', (EvalM.bind_ok_iff _ _ _ _ _).2 ⟨v, c', hv, hw⟩⟩

theorem binM {l : EvalM F Γ α} {r : EvalM F Γ β} {k : α → β → Res IncShapes γ} {Q : Id → Prop}
    (hl : Total P l) (hr : Total P r) (hQl : Frame Q l) (hQr : Frame Q r)
    (hk : ∀ x y, ∃ v, k x y = .ok v) : Total P (binM l r k) := by
  refine bind (hQl.mapErr _) (hl.mapErr _) (fun x => bind (hQr.mapErr _) (hr.mapErr _) (fun y => ?_))
  obtain ⟨v, hv⟩ := hk x y
  exact lift ⟨v, by rw [hv]; rfl⟩

theorem cached {i : Id} {m : EvalM F Γ (Buf F (Γ i))} (h : Total P m) :
    Total P (fun c => match c i with
        | some v => (.ok v, c)
        | none =>
            match m c with
            | (.ok v, c') => (.ok v, c'.write i v)
            | (.err e, c') => (.err e, c')
            | (.panic, c') => (.panic, c')) := by
  intro c hc
  match hi : c i with
  | some v => exact ⟨v, c, by simp [hi]⟩
  | none =>
    obtain ⟨v, c', hv⟩ := h c hc
    exact ⟨v, c'.write i v, by simp [hi, hv]⟩

end Total

section
variable [Zero F] [One F] [Add F] [Sub F] [Mul F] [Div F] [Neg F] [ScalarFns F]

/-- The `where` conditions of `ProductsInRange` say that the impl is in range. -/
theorem inRange_of {axes : Nat} {a b c : BTy} (z : ContractImpl axes a b c)
    (h1 : ∀ n m, a = .array [n, m] → b = .array [n] → c = .array [m] → m ≤ n)
    (h2 : ∀ n m, a = .array [n] → b = .array [n, m] → c = .array [m] → m ≤ n) : z.inRange := by
  cases z with
  | mv n m => exact h1 n m rfl rfl rfl
  | vm n m => exact h2 n m rfl rfl rfl
  | _ => trivial

omit [One F] [Sub F] [Div F] [Neg F] in
theorem sumSpec_ok (hU : ∀ n, (ScalarFns.fromUsize n : Option F) ≠ none) {τ : BTy}
    (x : BSpec F τ) : ∃ s, sumSpec x = .ok s := by
  cases x with
  | full s v =>
    simp only [sumSpec]
    cases hn : (ScalarFns.fromUsize (Shape.cardinality (Shp.dims τ s)) : Option F) with
    | none => exact absurd hn (hU _)
    | some k => exact ⟨_, rfl⟩
  | _ => exact ⟨_, rfl⟩

theorem FnImpl.total (hU : ∀ n, (ScalarFns.fromUsize n : Option F) ≠ none) {e : Node F} {τ : BTy}
    (d : FnImpl Γ e τ) (hf : FixedSize Γ e) (hp : FnImpl.ProductsInRange d) {P : Id → Prop}
    (hP : ∀ i, NeedsId e i → P i) :
    Total P d.fn.evaluate ∧ Total P d.fn.evaluateSpec ∧ Total P d.fn.evaluateShape := by
  have spec : ∀ {τ : BTy} {m : EvalM F Γ (BSpec F τ)} {s : EvalM F Γ (Shp τ)}, Total P m →
      Total P s → Total P (m.map BSpec.unwrap) ∧ Total P m ∧ Total P s :=
    fun h1 h2 => ⟨h1.map _, h1, h2⟩
  have zip : ∀ {e l r : Node F} {a b c : BTy} (dl : FnImpl Γ l a) (dr : FnImpl Γ r b)
      (z : ZipImpl a b c) (k : BSpec F a → BSpec F b → Res IncShapes (BSpec F c))
      (_ : ∀ x y, FollowsShape (k x y) (z.broadcast x.shape y.shape))
      (_ : a ≠ .vec) (_ : b ≠ .vec) (_ : Total P dl.fn.evaluateSpec ∧ Total P dl.fn.evaluateShape)
      (_ : Total P dr.fn.evaluateSpec ∧ Total P dr.fn.evaluateShape),
      Total P (binM dl.fn.evaluateSpec dr.fn.evaluateSpec k) ∧
      Total P (binM dl.fn.evaluateShape dr.fn.evaluateShape fun s t =>
        Res.ofExcept (z.broadcast s t)) := by
    intro e l r a b c dl dr z k hk ha hb hl hr
    have fl := dl.frame (P := fun _ => True) (fun _ _ => trivial)
    have fr := dr.frame (P := fun _ => True) (fun _ _ => trivial)
    refine ⟨.binM hl.1 hr.1 fl.2.1 fr.2.1 (fun x y => ?_),
      .binM hl.2 hr.2 fl.2.2 fr.2.2 (fun x y => ?_)⟩
    · obtain ⟨s, hs⟩ := broadcast_fixed z ha x.shape y.shape hb
      obtain ⟨t, ht, _⟩ := (hk x y).of_ok hs
      exact ⟨t, ht⟩
    · obtain ⟨s, hs⟩ := broadcast_fixed z ha x y hb
      exact ⟨s, by rw [hs]; rfl⟩
  induction d with
  | var i =>
    have hi : P i := hP i (.inl (.refl _))
    exact ⟨.read hi, (Total.read hi).map _, (Total.read hi).map _⟩
  | varAdj i t k h =>
    have hi : P i := hP i (.inr (.inl ⟨t, .refl _⟩))
    have ht : P t := hP t (.inr (.inr (.inl ⟨i, .refl _⟩)))
    have two : ∀ {α : Type} (f : Shp (Γ i) → Shp (Γ t) → Res EvalErr α)
        (_ : ∀ si st, ∃ v, f si st = .ok v),
        Total P ((((EvalM.read i).map (Buf.shape _)).mapErr EvalErr.left).bind fun si =>
          (((EvalM.read t).map (Buf.shape _)).mapErr EvalErr.right).bind fun st =>
            (EvalM.lift (f si st) : EvalM F Γ α)) := fun f hf =>
      .bind (Q := fun _ => True) (((Frame.read _).map _).mapErr _) (((Total.read hi).map _).mapErr _) (fun si =>
        .bind (Q := fun _ => True) (((Frame.read _).map _).mapErr _) (((Total.read ht).map _).mapErr _) (fun st =>
          .lift (hf si st)))
    refine spec (two _ (fun si st => ?_)) (two _ (fun si st => ⟨_, rfl⟩))
    obtain ⟨s, hs, _⟩ := varAdjSpec_ok (F := F) i t k si st
    exact ⟨s, hs⟩
  | const τ b => exact spec (.ok _) (.ok _)
  | constSpec τ s => exact spec (.ok _) (.ok _)
  | constAdj d t k ih =>
    rename_i n _ _
    have ih := ih (hf.child (by simp [children])) hp (fun i hi => hP i (hi.child (by simp [children])))
    have ht : P t := hP t (.inr (.inr (.inr ⟨n, .refl _⟩)))
    have fd := d.frame (P := fun _ => True) (fun _ _ => trivial)
    have hs : Total P ((FnImpl.constAdj d t k).fn.evaluateShape) :=
      .bind (Q := fun _ => True) (fd.2.2.mapErr _) (ih.2.2.mapErr _) (fun si =>
        .bind (Q := fun _ => True) (((Frame.read _).map _).mapErr _) (((Total.read ht).map _).mapErr _)
          (fun st => .ok _))
    exact spec (hs.map _) hs
  | cached i d ih =>
    have ih := ih (hf.child (by simp [children])) hp (fun i hi => hP i (hi.child (by simp [children])))
    have hc := Total.cached ih.1
    exact ⟨hc, hc.map _, hc.map _⟩
  | add dl dr z ihl ihr =>
    have fl := hf.child (e' := _) (show _ ∈ children _ from List.mem_cons_self ..)
    have fr := hf.child (e' := _) (show _ ∈ children _ from List.mem_cons_of_mem _ (List.mem_cons_self ..))
    have ihl := ihl fl hp.1 (fun i hi => hP i (hi.child (by simp [children])))
    have ihr := ihr fr hp.2 (fun i hi => hP i (hi.child (by simp [children])))
    have h := zip (e := .var 0) dl dr z _ (addSpec_follows z) (dl.ne_vec fl) (dr.ne_vec fr) ihl.2 ihr.2
    exact spec h.1 h.2
  | sub dl dr z ihl ihr =>
    have fl := hf.child (e' := _) (show _ ∈ children _ from List.mem_cons_self ..)
    have fr := hf.child (e' := _) (show _ ∈ children _ from List.mem_cons_of_mem _ (List.mem_cons_self ..))
    have ihl := ihl fl hp.1 (fun i hi => hP i (hi.child (by simp [children])))
    have ihr := ihr fr hp.2 (fun i hi => hP i (hi.child (by simp [children])))
    have h := zip (e := .var 0) dl dr z _ (subSpec_follows z) (dl.ne_vec fl) (dr.ne_vec fr) ihl.2 ihr.2
    exact spec h.1 h.2
  | mul dl dr z ihl ihr =>
    have fl := hf.child (e' := _) (show _ ∈ children _ from List.mem_cons_self ..)
    have fr := hf.child (e' := _) (show _ ∈ children _ from List.mem_cons_of_mem _ (List.mem_cons_self ..))
    have ihl := ihl fl hp.1 (fun i hi => hP i (hi.child (by simp [children])))
    have ihr := ihr fr hp.2 (fun i hi => hP i (hi.child (by simp [children])))
    have h := zip (e := .var 0) dl dr z _ (mulSpec_follows z) (dl.ne_vec fl) (dr.ne_vec fr) ihl.2 ihr.2
    exact spec h.1 h.2
  | div dl dr z ihl ihr =>
    have fl := hf.child (e' := _) (show _ ∈ children _ from List.mem_cons_self ..)
    have fr := hf.child (e' := _) (show _ ∈ children _ from List.mem_cons_of_mem _ (List.mem_cons_self ..))
    have ihl := ihl fl hp.1 (fun i hi => hP i (hi.child (by simp [children])))
    have ihr := ihr fr hp.2 (fun i hi => hP i (hi.child (by simp [children])))
    have h := zip (e := .var 0) dl dr z _ (mulSpec_follows z) (dl.ne_vec fl) (dr.ne_vec fr) ihl.2 ihr.2
    have ffl := dl.frame (P := fun _ => True) (fun _ _ => trivial)
    have ffr := dr.frame (P := fun _ => True) (fun _ _ => trivial)
    have he : Total P (FnImpl.div dl dr z).fn.evaluate := .binM ihl.1 ihr.1 ffl.1 ffr.1 (fun x y => by
      obtain ⟨s, hs⟩ := broadcast_fixed z (dl.ne_vec fl) (Buf.shape _ x) (Buf.shape _ y) (dr.ne_vec fr)
      rw [Buf.zipMapId_eq]
      rw [Buf.broadcast_eq z x y (· / ·)] at hs
      cases hz : Buf.zipMap z x y (· / ·) with
      | ok r => exact ⟨r, rfl⟩
      | error e => rw [hz] at hs; cases hs)
    exact ⟨he, he.map _, h.2⟩
  | power dl dr ihl ihr =>
    have ihl := ihl (hf.child (by simp [children])) hp.1 (fun i hi => hP i (hi.child (by simp [children])))
    have ihr := ihr (hf.child (by simp [children])) hp.2 (fun i hi => hP i (hi.child (by simp [children])))
    have ffl := dl.frame (P := fun _ => True) (fun _ _ => trivial)
    have ffr := dr.frame (P := fun _ => True) (fun _ _ => trivial)
    exact spec (.binM ihl.2.1 ihr.2.1 ffl.2.1 ffr.2.1 (fun x y => ⟨_, rfl⟩)) (.ok _)
  | contract dl dr z ihl ihr =>
    obtain ⟨hpl, hpr, h1, h2⟩ := hp
    have ihl := ihl (hf.child (by simp [children])) hpl (fun i hi => hP i (hi.child (by simp [children])))
    have ihr := ihr (hf.child (by simp [children])) hpr (fun i hi => hP i (hi.child (by simp [children])))
    have ffl := dl.frame (P := fun _ => True) (fun _ _ => trivial)
    have ffr := dr.frame (P := fun _ => True) (fun _ _ => trivial)
    refine spec (.binM ihl.2.1 ihr.2.1 ffl.2.1 ffr.2.1 (fun x y =>
      specContract_ok hU z x y (inRange_of z h1 h2)))
      (.binM ihl.2.2 ihr.2.2 ffl.2.2 ffr.2.2 (fun x y => ?_))
    exact ⟨z.outShape, by rw [contractShape_ok z x y z.outShape]; rfl⟩
  | sum d ih =>
    have ih := ih (hf.child (by simp [children])) hp (fun i hi => hP i (hi.child (by simp [children])))
    have fd := d.frame (P := fun _ => True) (fun _ _ => trivial)
    exact ⟨ih.1.map _, .bind fd.2.1 ih.2.1 (fun x => .lift (sumSpec_ok hU x)), .ok _⟩
  | un op d ih =>
    have ih := ih (hf.child (by simp [children])) hp (fun i hi => hP i (hi.child (by simp [children])))
    exact ⟨ih.1.map _, ih.2.1.map _, ih.2.2⟩

/-- Without arithmetic laws `evaluate` and `evaluate_spec` still agree on success, errors, panics,
the shape of the value and the context left behind (given that `from_usize` is total). -/
theorem FnImpl.same_shape (hU : ∀ n, (ScalarFns.fromUsize n : Option F) ≠ none) {e : Node F}
    {τ : BTy} (d : FnImpl Γ e τ) :
    d.fn.evaluate.map (Buf.shape τ) = d.fn.evaluateSpec.map BSpec.shape := by
  have ofSpec : ∀ {τ : BTy} (m : EvalM F Γ (BSpec F τ)),
      (m.map BSpec.unwrap).map (Buf.shape τ) = m.map BSpec.shape := by
    intro τ m
    rw [EvalM.map_map]
    exact congrArg (fun f => EvalM.map f m) (funext fun s => BSpec.shape_unwrap s)
  have ofEval : ∀ {τ : BTy} (m : EvalM F Γ (Buf F τ)),
      m.map (Buf.shape τ) = (m.map BSpec.raw).map BSpec.shape :=
    fun m => (EvalM.map_map BSpec.raw BSpec.shape m).symm
  induction d with
  | var i => exact ofEval _
  | varAdj i t k h => exact ofSpec _
  | const τ b => exact ofSpec _
  | constSpec τ s => exact ofSpec _
  | constAdj d t k ih => exact ofSpec _
  | cached i d ih => exact ofEval _
  | add dl dr z _ _ => exact ofSpec _
  | sub dl dr z _ _ => exact ofSpec _
  | mul dl dr z _ _ => exact ofSpec _
  | div dl dr z _ _ => exact ofEval _
  | power dl dr _ _ => exact ofSpec _
  | contract dl dr z _ _ => exact ofSpec _
  | sum d ih =>
    have h : ∀ {σ : BTy} (m : EvalM F Γ (BSpec F σ)), (m.bind fun s => EvalM.lift (sumSpec s)).map BSpec.shape =
        (m.map BSpec.shape).map (fun _ => ()) := by
      intro σ m
      rw [EvalM.map_bind, EvalM.map_map, ← EvalM.bind_lift_ok]
      congr 1
      funext s
      obtain ⟨t, ht⟩ := sumSpec_ok hU s
      rw [ht]; rfl
    refine Eq.trans ?_ (h _).symm
    rw [← ih]
    simp only [FnImpl.fn, EvalM.map_map]
  | un op d ih =>
    refine (EvalM.map_map _ _ _).trans (Eq.trans ?_ (EvalM.map_map _ _ _).symm)
    rename_i a
    have h1 : (fun b : Buf F a => Buf.shape a (Buf.mutate a b op.apply)) = Buf.shape a := by
      funext b; rw [Buf.mutate_eq_map, Buf.shape_map]
    have h2 : (fun s : BSpec F a => (unSpec op.apply s).shape) = BSpec.shape :=
      funext fun s => unSpec_shape _ s
    rw [h1, h2]; exact ih

theorem FnImpl.spec_of_evaluate (hU : ∀ n, (ScalarFns.fromUsize n : Option F) ≠ none) {e : Node F}
    {τ : BTy} (d : FnImpl Γ e τ) {c c' : Ctx F Γ} {v : Buf F τ}
    (h : d.fn.evaluate c = (.ok v, c')) :
    ∃ s, d.fn.evaluateSpec c = (.ok s, c') ∧ s.shape = Buf.shape τ v := by
  have h1 := (EvalM.map_ok_iff d.fn.evaluate (Buf.shape τ) c c' _).2 ⟨v, h, rfl⟩
  rw [d.same_shape hU] at h1
  exact (EvalM.map_ok_iff _ _ _ _ _).1 h1

end

end Aegir
