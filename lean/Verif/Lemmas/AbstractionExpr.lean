import Verif.Lemmas.Abstraction
/-!
# Evaluation of expressions respects what scalars stand for
-/

namespace Aegir

open Spec

section
variable {F G : Type} {R : F → G → Prop}

theorem standsFor_same {τ : BTy} {b : Buf F τ} {S T : Tensor G} (h : StandsFor R b S)
    (hs : S.Same T) : StandsFor R b T :=
  ⟨h.1.trans hs.1, fun ix hix => (hs.2 ix hix) ▸ h.2 ix (hs.1 ▸ hix)⟩

theorem standsFor_full {τ : BTy} [Zero F] {s : Shp τ} {x : F} {T : Tensor G}
    (hd : Shp.dims τ s = T.dims) (h : ∀ ix, InBounds T.dims ix → R x (T.val ix)) :
    StandsFor R (Buf.full τ s x) T :=
  ⟨(Buf.dims_full τ s x).trans hd, fun ix hix =>
    ⟨x, Buf.getU_full τ s x ix (hd ▸ hix), h ix hix⟩⟩

theorem standsFor_zip {a b c : BTy} {x : Buf F a} {y : Buf F b} {r : Buf F c} {P : F → F → F → Prop}
    {A B : Tensor G} {f : G → G → G} (hx : StandsFor R x A) (hy : StandsFor R y B)
    (h : ZipRel x y P r) (hP : ∀ p q w p' q', R p p' → R q q' → P p q w → R w (f p' q')) :
    StandsFor R r (.zip f A B) := by
  obtain ⟨h1, h2⟩ := h
  rw [hx.1, hy.1] at h1 h2
  refine ⟨bcast_dims h1, fun ix hix => ?_⟩
  have hix : InBounds (Buf.dims c r) ix := by rw [bcast_dims h1]; exact hix
  obtain ⟨p, q, w, hp, hq, hw, hpq⟩ := h2 ix hix
  obtain ⟨p', hp', np⟩ := hx.2 _ (inBounds_bIdx_left h1 hix)
  obtain ⟨q', hq', nq⟩ := hy.2 _ (inBounds_bIdx_right h1 hix)
  rw [hp] at hp'; rw [hq] at hq'
  cases hp'; cases hq'
  exact ⟨w, hw, hP p q w _ _ np nq hpq⟩

theorem standsFor_map {τ : BTy} {x : Buf F τ} {A : Tensor G} {f : F → F} {g : G → G}
    (hx : StandsFor R x A) (h : ∀ {w a}, R w a → R (f w) (g a)) :
    StandsFor R (Buf.mutate τ x f) (.map g A) := by
  rw [Buf.mutate_eq_map]
  refine ⟨(Buf.dims_map τ x f).trans hx.1, fun ix hix => ?_⟩
  obtain ⟨w, hw, hn⟩ := hx.2 ix hix
  exact ⟨f w, by rw [Buf.getU_map, hw]; rfl, h hn⟩

theorem standsFor_scalar {x : Buf F .scalar} {T : Tensor G} (hd : T.dims = [])
    (h : R x (T.val [])) : StandsFor R x T := by
  refine ⟨hd.symm, fun ix hix => ?_⟩
  rw [hd] at hix
  cases hix
  exact ⟨x, rfl, h⟩

theorem standsFor_scalar_val {x : Buf F .scalar} {T : Tensor G} (h : StandsFor R x T) :
    T.dims = [] ∧ R x (T.val []) := by
  have hd : T.dims = [] := h.1.symm
  obtain ⟨w, hw, hn⟩ := h.2 [] (by rw [hd]; exact .nil)
  cases hw
  exact ⟨hd, hn⟩

end

section
variable {F G : Type} [Zero F] [One F] [Add F] [Sub F] [Mul F] [ScalarFns F] [CommRing G]
variable {R : F → G → Prop}

theorem standsFor_delta (hR : Sound R) {τ : BTy} {x : Buf F τ} {same : Bool} {S T : Tensor F}
    {A B : Tensor G} (hA : A.dims = S.dims) (hB : B.dims = T.dims)
    (h : IsTensor x (.delta same S T)) : StandsFor R x (.delta same A B) := by
  refine ⟨h.1.trans (by simp only [Tensor.delta, hA, hB]),
    fun ix hix => ⟨_, h.2 ix (by simpa only [Tensor.delta, hA, hB] using hix), ?_⟩⟩
  simp only [Tensor.delta, hA]
  split
  · exact hR.one
  · exact hR.zero

theorem foldl_rel (hR : Sound R) (g : Idx → Option F) (A : Idx → G) (is : List Idx)
    (xs : List F) (hg : is.map g = xs.map some)
    (hn : ∀ ix ∈ is, ∃ x, g ix = some x ∧ R x (A ix)) (acc : F) (a : G) (ha : R acc a) :
    R (xs.foldl (· + ·) acc) (a + (is.map A).sum) := by
  induction is generalizing xs acc a with
  | nil =>
    cases xs with
    | nil => simpa using ha
    | cons _ _ => cases hg
  | cons i is ih =>
    cases xs with
    | nil => cases hg
    | cons x xs =>
      simp only [List.map_cons, List.cons.injEq] at hg
      obtain ⟨x', hx', hn'⟩ := hn i List.mem_cons_self
      rw [hg.1] at hx'
      cases hx'
      have := ih xs hg.2 (fun ix hix => hn ix (List.mem_cons_of_mem _ hix)) (acc + x) _
        (hR.add ha hn')
      simp only [List.foldl_cons, List.map_cons, List.sum_cons]
      rwa [← add_assoc a]

theorem standsFor_sum (hR : Sound R) {τ : BTy} {x : Buf F τ} {A : Tensor G}
    (hx : StandsFor R x A) : R (Buf.sum τ x) (sumOver A.dims A.val) := by
  have h1 : Buf.sum τ x = (Buf.entries τ x).foldl (· + ·) 0 := Buf.fold_eq_foldl τ x 0 _
  have h2 := Buf.entries_spec τ x
  rw [hx.1] at h2
  have := foldl_rel hR (Buf.getU τ x) A.val (Shape.indices A.dims) (Buf.entries τ x) h2
    (fun ix hix => hx.2 ix (mem_indices.1 hix)) 0 0 hR.zero
  rw [zero_add, sumOver_indices] at this
  rw [h1]
  exact this

theorem standsFor_sumSpec (hR : Sound R) {τ : BTy} {x : BSpec F τ} {A : Tensor G}
    (hx : StandsFor R x.unwrap A) {s : BSpec F .scalar} (h : sumSpec x = .ok s) :
    R s.unwrap (sumOver A.dims A.val) := by
  cases x with
  | raw b => cases h; exact standsFor_sum hR hx
  | diagonal t w => cases h; exact standsFor_sum hR hx
  | full t w =>
    obtain ⟨K, hK, rfl⟩ := (Res.map_ok_iff _ _ _).1 h
    have hK : (ScalarFns.fromUsize (Shape.cardinality (Shp.dims τ t)) : Option F) = some K := by
      cases hh : (ScalarFns.fromUsize (Shape.cardinality (Shp.dims τ t)) : Option F) with
      | none => rw [hh] at hK; cases hK
      | some K' => rw [hh] at hK; cases hK; rfl
    have hd : A.dims = Shp.dims τ t := hx.1.symm.trans (Buf.dims_full τ t w)
    have hl : (Shape.indices A.dims).length = Shape.cardinality (Shp.dims τ t) := by
      rw [length_indices, hd]
    have hs : sumOver A.dims A.val = ∑ i ∈ Finset.range (Shape.cardinality (Shp.dims τ t)),
        ((Shape.indices A.dims).map A.val).getD i 0 := by
      rw [← sumOver_indices, ← hl]
      conv_lhs => rw [← List.ofFn_getElem (xs := (Shape.indices A.dims).map A.val)]
      rw [List.sum_ofFn, ← List.length_map (f := A.val), Finset.sum_range]
      exact Finset.sum_congr rfl fun i _ => by
        have hi : i.val < (Shape.indices A.dims).length := by simpa using i.isLt
        simp [hi]
    rw [hs]
    refine hR.times hK fun i hi => ?_
    rw [← hl] at hi
    have e : ((Shape.indices A.dims).map A.val).getD i 0 = A.val ((Shape.indices A.dims)[i]) := by
      simp [hi]
    rw [e]
    exact RelBuf.full hx (mem_indices.1 (List.getElem_mem hi))

variable {axes : ℕ} {a b c : BTy}

theorem standsFor_contract (hR : Sound R) (z : ContractImpl axes a b c)
    (hmv : ∀ n m, axes = 1 → a = .array [n, m] → b = .array [n] → n = m)
    (hvm : ∀ n m, axes = 1 → a = .array [n] → b = .array [n, m] → n = m)
    {x : BSpec F a} {y : BSpec F b} {A B : Tensor G} (hx : StandsFor R x.unwrap A)
    (hy : StandsFor R y.unwrap B) {s : BSpec F c} (h : BSpec.contract z x y = .ok s) :
    StandsFor R s.unwrap (.contract (if A.dims = [] ∧ B.dims = [] then 0 else axes) A B) := by
  have hin : z.inRange := by
    cases z with
    | mv n m => have := hmv n m rfl rfl rfl; show m ≤ n; omega
    | vm n m => have := hvm n m rfl rfl rfl; show m ≤ n; omega
    | _ => trivial
  have h1 : RelBuf R s.unwrap (Shp.dims c z.outShape) (z.fn A.val B.val) := by
    refine relContract hR z hin ?_ ?_ h
    · exact ⟨rfl, fun ix hix => hx.2 ix (hx.1 ▸ hix)⟩
    · exact ⟨rfl, fun ix hix => hy.2 ix (hy.1 ▸ hix)⟩
  exact standsFor_same (S := ⟨_, _⟩) ⟨h1.1, h1.2⟩ (contract_fn z hmv hvm hx.1 hy.1).symm

end

/-! ### Hoare-style reasoning -/

/-- From a context standing for `ρ`, `m` leads to such a context and returns only values satisfying
`P`. -/
def PostR {F G : Type} {Γ : Id → BTy} (R : F → G → Prop) (ρ : Id → Tensor G) {α : Type}
    (m : EvalM F Γ α) (P : α → Prop) : Prop :=
  ∀ c, CtxStandsFor R ρ c → CtxStandsFor R ρ (m c).2 ∧ ∀ a, (m c).1 = .ok a → P a

namespace PostR
variable {F G : Type} {Γ : Id → BTy} {R : F → G → Prop} {ρ : Id → Tensor G} {α β γ : Type}

theorem map {m : EvalM F Γ α} {P : α → Prop} {Q : β → Prop} {f : α → β} (h : PostR R ρ m P)
    (hf : ∀ a, P a → Q (f a)) : PostR R ρ (m.map f) Q := by
  intro c hc
  refine ⟨(h c hc).1, fun b hb => ?_⟩
  obtain ⟨a, ha, rfl⟩ := (Res.map_ok_iff _ _ _).1 hb
  exact hf a ((h c hc).2 a ha)

theorem mapErr {m : EvalM F Γ α} {P : α → Prop} (h : PostR R ρ m P) (f : EvalErr → EvalErr) :
    PostR R ρ (m.mapErr f) P :=
  fun c hc => ⟨(h c hc).1, fun a ha => (h c hc).2 a ((Res.mapErr_ok_iff _ _ _).1 ha)⟩

theorem lift {r : Res EvalErr α} {P : α → Prop} (h : ∀ a, r = .ok a → P a) :
    PostR R ρ (EvalM.lift r : EvalM F Γ α) P := fun _ hc => ⟨hc, h⟩

theorem read (i : Id) :
    PostR R ρ (EvalM.read i : EvalM F Γ _) (fun b => StandsFor R b (ρ i)) := by
  intro c hc
  simp only [EvalM.read]
  cases h : c i with
  | some b =>
    refine ⟨hc, fun a ha => ?_⟩
    cases ha
    exact hc i b h
  | none => exact ⟨hc, fun a ha => by cases ha⟩

theorem bind {m : EvalM F Γ α} {f : α → EvalM F Γ β} {P : α → Prop} {Q : β → Prop}
    (h : PostR R ρ m P) (hf : ∀ a, P a → PostR R ρ (f a) Q) : PostR R ρ (m.bind f) Q := by
  intro c hc
  have h1 := h c hc
  simp only [EvalM.bind]
  match hm : m c with
  | (.ok a, c') =>
    rw [hm] at h1
    exact hf a (h1.2 a rfl) c' h1.1
  | (.err e, c') => rw [hm] at h1; exact ⟨h1.1, fun a ha => by cases ha⟩
  | (.panic, c') => rw [hm] at h1; exact ⟨h1.1, fun a ha => by cases ha⟩

theorem binM {l : EvalM F Γ α} {r : EvalM F Γ β} {k : α → β → Res IncShapes γ} {P : α → Prop}
    {Q : β → Prop} {W : γ → Prop} (hl : PostR R ρ l P) (hr : PostR R ρ r Q)
    (hk : ∀ x y z, P x → Q y → k x y = .ok z → W z) : PostR R ρ (binM l r k) W :=
  (hl.mapErr _).bind fun x hx => (hr.mapErr _).bind fun y hy =>
    .lift fun z hz => hk x y z hx hy ((Res.mapErr_ok_iff _ _ _).1 hz)

end PostR

section
variable {F G : Type} {Γ : Id → BTy} [Zero F] [One F] [Add F] [Sub F] [Mul F] [Div F] [Neg F]
  [ScalarFns F] [CommRing G] [Div G] [ScalarFns G] {R : F → G → Prop}

theorem FnImpl.abstract_spec (hR : Sound R) {ρ : Id → Tensor G} {e : Node F} {τ : BTy}
    (d : FnImpl Γ e τ) {e' : Node G} (ha : Abstracts R e e') (hn : NamesCaches ρ e')
    (hr : FnImpl.Regular d) :
    PostR R ρ d.fn.evaluate (fun b => StandsFor R b (den ρ e')) ∧
      PostR R ρ d.fn.evaluateSpec (fun s => StandsFor R s.unwrap (den ρ e')) ∧
      PostR R ρ d.fn.evaluateShape (fun s => Shp.dims τ s = (den ρ e').dims) := by
  have three : ∀ {τ : BTy} {T : Tensor G} {ms : EvalM F Γ (BSpec F τ)} {P : Prop},
      PostR R ρ ms (fun s => StandsFor R s.unwrap T) → P →
      PostR R ρ (ms.map BSpec.unwrap) (fun b => StandsFor R b T) ∧
        PostR R ρ ms (fun s => StandsFor R s.unwrap T) ∧ P :=
    fun h hp => ⟨h.map fun _ h => h, h, hp⟩
  have shapes : ∀ {a b c : BTy} {dl dr : Dims} {l : EvalM F Γ (Shp a)} {r : EvalM F Γ (Shp b)}
      (z : ZipImpl a b c), PostR R ρ l (fun s => Shp.dims a s = dl) →
      PostR R ρ r (fun s => Shp.dims b s = dr) →
      PostR R ρ (binM l r fun s t => Res.ofExcept (z.broadcast s t))
        (fun s => Shp.dims c s = if dl = [] then dr else dl) := by
    intro a b c dl dr l r z hl hr
    refine hl.binM hr fun x y s hx hy h => ?_
    have := bcast_dims (broadcast_ok z x y s ((Res.ofExcept_ok_iff _ _).1 h))
    rwa [hx, hy] at this
  have hnc : ∀ {e' n : Node G}, NamesCaches ρ e' → n ∈ children e' → NamesCaches ρ n :=
    fun hn he' m i hs => hn m i (.step he' hs)
  induction d generalizing e' with
  | var i =>
    cases ha
    exact ⟨PostR.read i, (PostR.read i).map fun _ h => h, (PostR.read i).map fun _ h => h.1⟩
  | varAdj i t k hrk =>
    cases ha
    refine three ?_ ?_
    · refine (((PostR.read i).map (Q := fun s => Shp.dims _ s = (ρ i).dims)
        fun _ h => h.1).mapErr _).bind fun si hi => (((PostR.read t).map
          (Q := fun s => Shp.dims _ s = (ρ t).dims) fun _ h => h.1).mapErr _).bind fun st ht =>
          .lift fun s hs => ?_
      exact standsFor_delta hR (S := .const (ρ i).dims 0) (T := .const (ρ t).dims 0) rfl rfl
        (varAdjSpec_tensor (S := .const (ρ i).dims (0 : F)) (T := .const (ρ t).dims 0) i t k hi ht
          (fun h => by rw [h]) s hs)
    · refine (((PostR.read i).map (Q := fun s => Shp.dims _ s = (ρ i).dims)
        fun _ h => h.1).mapErr _).bind fun si hi => (((PostR.read t).map
          (Q := fun s => Shp.dims _ s = (ρ t).dims) fun _ h => h.1).mapErr _).bind fun st ht =>
          .lift fun s hs => ?_
      cases hs
      rw [concat_dims k si st, hi, ht]; rfl
  | const τ b =>
    cases ha with
    | const hb =>
    refine three (.lift fun s hs => ?_) (.lift fun s hs => ?_)
    · cases hs; exact hb
    · cases hs; exact hb.1
  | constSpec τ s =>
    cases ha with
    | constSpec hb =>
    refine three (.lift fun s' hs => ?_) (.lift fun s' hs => ?_)
    · cases hs; exact hb
    · cases hs
      refine Eq.trans ?_ hb.1
      rw [Buf.dims, BSpec.shape_unwrap]
  | constAdj d t k ih =>
    cases ha with
    | constAdj _ ha =>
    have ih := ih ha (hnc hn (by simp [children])) hr
    have key := (ih.2.2.mapErr EvalErr.left).bind (f := fun sn =>
        (((EvalM.read t).map (Buf.shape _)).mapErr EvalErr.right).bind fun st =>
          EvalM.lift (.ok (k.shape sn st)))
      (Q := fun s => Shp.dims _ s = (den ρ (.constAdj _ t)).dims)
      fun sn hsn => (((PostR.read t).map
          (Q := fun s => Shp.dims _ s = (ρ t).dims) fun _ h => h.1).mapErr _).bind fun st ht =>
          .lift fun s hs => by
            cases hs
            rw [concat_dims k sn st, hsn, ht]; rfl
    exact three (key.map fun s hs => standsFor_full hs fun _ _ => hR.zero) key
  | cached i d ih =>
    cases ha with
    | cached _ ha =>
    rename_i n n'
    have ih := ih ha (hnc hn (by simp [children])) hr
    have hi := hn _ i (.refl _)
    have he := ih.1
    have key : PostR R ρ (FnImpl.cached i d).fn.evaluate (fun b => StandsFor R b (den ρ n')) := by
      intro c hc
      simp only [FnImpl.fn]
      cases hci : c i with
      | some v =>
        refine ⟨hc, fun a ha => ?_⟩
        cases ha
        exact standsFor_same (hc i v hci) hi
      | none =>
        simp only []
        have h1 := he c hc
        rcases hd : d.fn.evaluate c with ⟨x | e | _, c1⟩
        · rw [hd] at h1
          have hx := h1.2 x rfl
          refine ⟨?_, fun a ha => by cases ha; exact hx⟩
          intro j b hb
          by_cases hj : j = i
          · subst hj
            have : x = b := by simpa [Ctx.write] using hb
            exact this ▸ standsFor_same hx hi.symm
          · exact h1.1 j b (by simpa [Ctx.write, hj] using hb)
        · rw [hd] at h1; exact ⟨h1.1, fun a ha => by cases ha⟩
        · rw [hd] at h1; exact ⟨h1.1, fun a ha => by cases ha⟩
    exact ⟨key, key.map fun _ h => h, key.map fun _ h => h.1⟩
  | sum d ih =>
    cases ha with
    | sum ha =>
    have ih := ih ha (hnc hn (by simp [children])) hr
    refine ⟨ih.1.map fun b hb => standsFor_scalar rfl (standsFor_sum hR hb),
      ih.2.1.bind fun s hs => .lift fun s' hs' => ?_, .lift fun _ _ => rfl⟩
    exact standsFor_scalar rfl (standsFor_sumSpec hR hs hs')
  | un op d ih =>
    cases ha with
    | un hop ha =>
    have ih := ih ha (hnc hn (by simp [children])) hr
    refine ⟨ih.1.map fun b hb => standsFor_map hb hop, ih.2.1.map fun s hs => ?_, ih.2.2⟩
    rw [unSpec_unwrap]
    exact standsFor_map hs hop
  | add dl dr z ihl ihr =>
    cases ha with
    | add hal har =>
    have ihl := ihl hal (hnc hn (by simp [children])) hr.1
    have ihr := ihr har (hnc hn (by simp [children])) hr.2
    refine three (ihl.2.1.binM ihr.2.1 fun x y s hx hy h => ?_) (shapes z ihl.2.2 ihr.2.2)
    refine standsFor_zip hx hy (addSpec_rel z x y s h) fun p q w p' q' hp hq hw => ?_
    rcases hw with rfl | rfl | ⟨h0, rfl⟩ | ⟨h0, rfl⟩
    · exact hR.add hp hq
    · rw [add_comm]; exact hR.add hq hp
    · exact hR.zero_add h0 hp hq
    · exact hR.add_zero h0 hp hq
  | mul dl dr z ihl ihr =>
    cases ha with
    | mul hal har =>
    have ihl := ihl hal (hnc hn (by simp [children])) hr.1
    have ihr := ihr har (hnc hn (by simp [children])) hr.2
    refine three (ihl.2.1.binM ihr.2.1 fun x y s hx hy h => ?_) (shapes z ihl.2.2 ihr.2.2)
    refine standsFor_zip hx hy (mulSpec_rel z x y s h) fun p q w p' q' hp hq hw => ?_
    rcases hw with rfl | rfl | ⟨h0 | h0, rfl⟩
    · exact hR.mul hp hq
    · rw [mul_comm]; exact hR.mul hq hp
    · exact hR.zero_mul h0 hp hq
    · exact hR.mul_zero h0 hp hq
  | sub dl dr z ihl ihr =>
    cases ha with
    | sub hal har =>
    have ihl := ihl hal (hnc hn (by simp [children])) hr.1
    have ihr := ihr har (hnc hn (by simp [children])) hr.2.1
    have hz := not_swaps z hr.2.2
    refine three (ihl.2.1.binM ihr.2.1 fun x y s hx hy h => ?_) (shapes z ihl.2.2 ihr.2.2)
    refine standsFor_zip hx hy (subSpec_rel z hz x y s h) fun p q w p' q' hp hq hw => ?_
    rcases hw with rfl | ⟨h0, rfl⟩
    · exact hR.sub hp hq
    · exact hR.sub_zero h0 hp hq
  | div dl dr z ihl ihr =>
    cases ha with
    | div hdiv hal har =>
    have ihl := ihl hal (hnc hn (by simp [children])) hr.1
    have ihr := ihr har (hnc hn (by simp [children])) hr.2.1
    have hz := not_swaps z hr.2.2
    rename_i l' r'
    have key : PostR R ρ (FnImpl.div dl dr z).fn.evaluate
        (fun b => StandsFor R b (.zip (· / ·) (den ρ l') (den ρ r'))) := by
      refine ihl.1.binM ihr.1 fun x y s hx hy h => ?_
      rw [Buf.zipMapId_eq] at h
      refine standsFor_zip hx hy (P := fun p q w => w = p / q)
        (zipRel_of_zipMap ((Res.ofExcept_ok_iff _ _).1 h) fun u v _ _ => by
          rw [ZipImpl.eff_of_not_swaps z hz]) fun p q w p' q' hp hq hw => ?_
      rw [hw]; exact hdiv hp hq
    exact ⟨key, key.map fun _ h => h, shapes z ihl.2.2 ihr.2.2⟩
  | power dl dr ihl ihr =>
    cases ha with
    | power he hpow hone hal har =>
    have ihl := ihl hal (hnc hn (by simp [children])) hr.1
    have ihr := ihr har (hnc hn (by simp [children])) hr.2
    rename_i l' r'
    have ihl' : PostR R ρ dl.fn.evaluateSpec (fun s => StandsFor R s.unwrap (den ρ l') ∧
        ∃ b, s = .raw b) := fun c hc =>
      ⟨(ihl.2.1 c hc).1, fun a ha => ⟨(ihl.2.1 c hc).2 a ha, raw_of_explicit dl he c a ha⟩⟩
    refine three (ihl'.binM ihr.2.1 fun x y s hx hy h => ?_) (.lift fun s _ => rfl)
    have h := Res.ok.inj h
    obtain ⟨hx, b, rfl⟩ := hx
    obtain ⟨_, hxv⟩ := standsFor_scalar_val hx
    obtain ⟨_, hyv⟩ := standsFor_scalar_val hy
    refine standsFor_scalar rfl ?_
    rw [← h]
    cases y with
    | full t v =>
      by_cases h0 : ScalarFns.eqb v 0 = true
      · simp only [powSpec, h0]
        exact hone h0 hxv hyv
      · simp only [powSpec, h0]
        exact hpow hxv hyv
    | raw v => exact hpow hxv hyv
    | diagonal t v => exact hpow hxv hyv
  | contract dl dr z ihl ihr =>
    cases ha with
    | contract _ hal har =>
    have ihl := ihl hal (hnc hn (by simp [children])) hr.1
    have ihr := ihr har (hnc hn (by simp [children])) hr.2.1
    obtain ⟨_, _, hmv, hvm⟩ := hr
    exact three (ihl.2.1.binM ihr.2.1 fun x y s hx hy h => standsFor_contract hR z hmv hvm hx hy h)
      (ihl.2.2.binM ihr.2.2 fun x y s hx hy h =>
        contractShape_tensor z hmv hx hy ((Res.ofExcept_ok_iff _ _).1 h))

end

section
variable {F G : Type} {Γ : Id → BTy} [Zero F] [One F] [Add F] [Sub F] [Mul F] [Div F] [Neg F]
  [ScalarFns F] [CommRing G] [Div G] [ScalarFns G] {R : F → G → Prop}

omit [Zero F] [One F] [Add F] [Sub F] [Mul F] [Div F] [Neg F] [ScalarFns F] [CommRing G] [Div G]
  [ScalarFns G] in
theorem PostR.and {ρ : Id → Tensor G} {α : Type} {m : EvalM F Γ α} {P Q : α → Prop}
    (h : PostR R ρ m P) (h' : PostR R ρ m Q) : PostR R ρ m (fun a => P a ∧ Q a) :=
  fun c hc => ⟨(h c hc).1, fun a ha => ⟨(h c hc).2 a ha, (h' c hc).2 a ha⟩⟩

/-- What evaluates is well-shaped. -/
theorem FnImpl.abstract_compat (hR : Sound R) {ρ : Id → Tensor G} {e : Node F} {τ : BTy}
    (d : FnImpl Γ e τ) {e' : Node G} (ha : Abstracts R e e') (hf : CacheFree e')
    (hr : FnImpl.Regular d) :
    PostR R ρ d.fn.evaluate (fun _ => Compat ρ e') ∧
      PostR R ρ d.fn.evaluateSpec (fun _ => Compat ρ e') := by
  have hfc : ∀ {e' n : Node G}, CacheFree e' → n ∈ children e' → CacheFree n :=
    fun hf he' m i hs => hf m i (.step he' hs)
  have two : ∀ {τ : BTy} {ms : EvalM F Γ (BSpec F τ)} {P : Prop},
      PostR R ρ ms (fun _ => P) →
      PostR R ρ (ms.map BSpec.unwrap) (fun _ => P) ∧ PostR R ρ ms (fun _ => P) :=
    fun h => ⟨h.map fun _ h => h, h⟩
  have spec : ∀ {e : Node F} {τ : BTy} (d : FnImpl Γ e τ) {e' : Node G}, Abstracts R e e' →
      CacheFree e' → FnImpl.Regular d →
      PostR R ρ d.fn.evaluate (fun b => StandsFor R b (den ρ e')) ∧
      PostR R ρ d.fn.evaluateSpec (fun s => StandsFor R s.unwrap (den ρ e')) := by
    intro e τ d e' ha hf hr
    have := d.abstract_spec hR (ρ := ρ) ha (fun n i hs => absurd hs (hf n i)) hr
    exact ⟨this.1, this.2.1⟩
  have fits : ∀ {a b c : BTy} {x : Buf F a} {y : Buf F b} {r : Buf F c} {P : F → F → F → Prop}
      {A B : Tensor G}, StandsFor R x A → StandsFor R y B → ZipRel x y P r →
      A.dims = [] ∨ B.dims = [] ∨ A.dims = B.dims := by
    intro a b c x y r P A B hx hy h
    have := bcast_cases h.1
    rwa [hx.1, hy.1] at this
  have triv : ∀ {α : Type} {m : EvalM F Γ α} {P : α → Prop} {Q : Prop}, Q → PostR R ρ m P →
      PostR R ρ m (fun _ => Q) := fun hq h c hc => ⟨(h c hc).1, fun _ _ => hq⟩
  induction d generalizing e' with
  | var i =>
    have hs := spec (.var i) ha hf hr
    cases ha
    exact ⟨triv trivial hs.1, triv trivial hs.2⟩
  | varAdj i t k hrk =>
    have hs := spec (.varAdj i t k hrk) ha hf hr
    cases ha
    exact ⟨triv trivial hs.1, triv trivial hs.2⟩
  | const τ b =>
    have hs := spec (.const τ b) ha hf hr
    cases ha
    exact ⟨triv trivial hs.1, triv trivial hs.2⟩
  | constSpec τ s =>
    have hs := spec (.constSpec τ s) ha hf hr
    cases ha
    exact ⟨triv trivial hs.1, triv trivial hs.2⟩
  | constAdj d t k ih =>
    have hs := spec (.constAdj d t k) ha hf hr
    cases ha
    exact ⟨triv trivial hs.1, triv trivial hs.2⟩
  | cached i d ih =>
    cases ha
    exact absurd (.refl _) (hf _ i)
  | sum d ih =>
    cases ha with
    | sum ha =>
    have ih := ih ha (hfc hf (by simp [children])) hr
    exact ⟨ih.1.map fun _ h => h, ih.2.bind fun _ h => .lift fun _ _ => h⟩
  | un op d ih =>
    cases ha with
    | un hop ha =>
    have ih := ih ha (hfc hf (by simp [children])) hr
    exact ⟨ih.1.map fun _ h => h, ih.2.map fun _ h => h⟩
  | add dl dr z ihl ihr =>
    cases ha with
    | add hal har =>
    have hl := hfc hf (n := _) (by simp [children]; exact .inl rfl)
    have hr' := hfc hf (n := _) (by simp [children]; exact .inr rfl)
    exact two (((ihl hal hl hr.1).2.and (spec dl hal hl hr.1).2).binM
      ((ihr har hr' hr.2).2.and (spec dr har hr' hr.2).2) fun x y s hx hy h =>
        ⟨hx.1, hy.1, fits hx.2 hy.2 (addSpec_rel z x y s h)⟩)
  | mul dl dr z ihl ihr =>
    cases ha with
    | mul hal har =>
    have hl := hfc hf (n := _) (by simp [children]; exact .inl rfl)
    have hr' := hfc hf (n := _) (by simp [children]; exact .inr rfl)
    exact two (((ihl hal hl hr.1).2.and (spec dl hal hl hr.1).2).binM
      ((ihr har hr' hr.2).2.and (spec dr har hr' hr.2).2) fun x y s hx hy h =>
        ⟨hx.1, hy.1, fits hx.2 hy.2 (mulSpec_rel z x y s h)⟩)
  | sub dl dr z ihl ihr =>
    cases ha with
    | sub hal har =>
    have hz := not_swaps z hr.2.2
    have hl := hfc hf (n := _) (by simp [children]; exact .inl rfl)
    have hr' := hfc hf (n := _) (by simp [children]; exact .inr rfl)
    exact two (((ihl hal hl hr.1).2.and (spec dl hal hl hr.1).2).binM
      ((ihr har hr' hr.2.1).2.and (spec dr har hr' hr.2.1).2) fun x y s hx hy h =>
        ⟨hx.1, hy.1, fits hx.2 hy.2 (subSpec_rel z hz x y s h)⟩)
  | div dl dr z ihl ihr =>
    cases ha with
    | div hdiv hal har =>
    have hl := hfc hf (n := _) (by simp [children]; exact .inl rfl)
    have hr' := hfc hf (n := _) (by simp [children]; exact .inr rfl)
    rename_i l' r'
    have key : PostR R ρ (FnImpl.div dl dr z).fn.evaluate (fun _ => Compat ρ (.div l' r')) := by
      refine ((ihl hal hl hr.1).1.and (spec dl hal hl hr.1).1).binM
        ((ihr har hr' hr.2.1).1.and (spec dr har hr' hr.2.1).1) fun x y s hx hy h =>
          ⟨hx.1, hy.1, ?_⟩
      rw [Buf.zipMapId_eq] at h
      exact fits (P := fun _ _ _ => True) hx.2 hy.2
        (zipRel_of_zipMap ((Res.ofExcept_ok_iff _ _).1 h) fun u v _ _ => trivial)
    exact ⟨key, key.map fun _ h => h⟩
  | power dl dr ihl ihr =>
    cases ha with
    | power he hpow hone hal har =>
    have hl := hfc hf (n := _) (by simp [children]; exact .inl rfl)
    have hr' := hfc hf (n := _) (by simp [children]; exact .inr rfl)
    exact two (((ihl hal hl hr.1).2.and (spec dl hal hl hr.1).2).binM
      ((ihr har hr' hr.2).2.and (spec dr har hr' hr.2).2) fun x y s hx hy h =>
        ⟨hx.1, hy.1, hx.2.1.symm, hy.2.1.symm⟩)
  | contract dl dr z ihl ihr =>
    cases ha with
    | contract k hal har =>
    have hl := hfc hf (n := _) (by simp [children]; exact .inl rfl)
    have hr' := hfc hf (n := _) (by simp [children]; exact .inr rfl)
    refine two (((ihl hal hl hr.1).2.and (spec dl hal hl hr.1).2).binM
      ((ihr har hr' hr.2.1).2.and (spec dr har hr' hr.2.1).2) fun x y s hx hy h =>
        ⟨hx.1, hy.1, ?_⟩)
    rw [← hx.2.1, ← hy.2.1]
    have hmv := hr.2.2.1
    have hvm := hr.2.2.2
    cases z with
    | ss0 | ss1 => exact .inl ⟨rfl, rfl⟩
    | vs0 | sv0 | ms0 | vv0 | sm0 => exact .inr ⟨_, [], _, rfl, (List.append_nil _).symm, rfl⟩
    | dot n => exact .inr ⟨[], [n], [], rfl, rfl, rfl⟩
    | mv n m => have := hmv n m rfl rfl rfl; subst this; exact .inr ⟨[n], [n], [], rfl, rfl, rfl⟩
    | mm n k m => exact .inr ⟨[n], [k], [m], rfl, rfl, rfl⟩
    | vm n m => exact .inr ⟨[], [n], [m], rfl, rfl, rfl⟩

omit [CommRing G] in
/-- Differentiation respects what scalars stand for. -/
theorem Spec.Abstracts.adjoint [CommRing G] (hR : Sound R)
    (hneg : ∀ {x a}, R x a → R (-x) (-a)) {e f : Node F} {e' : Node G} {t : Id} (he : RingExpr e)
    (ha : Abstracts R e e') (h : e.adjoint t = some f) :
    ∃ f', e'.adjoint t = some f' ∧ Abstracts R f f' := by
  have hdbl : ∀ {x a}, R x a → R (UnOp.double.apply x) (UnOp.double.apply a) := fun hx =>
    hR.mul (hR.add hR.one hR.one) hx
  have hone : ∀ {x a}, R x a → R (UnOp.oneSub.apply x) (UnOp.oneSub.apply a) := fun hx =>
    hR.sub hR.one hx
  induction e generalizing e' f with
  | var i => cases ha; cases h; exact ⟨_, rfl, .varAdj _ _⟩
  | varAdj i j => cases ha; cases h; exact ⟨_, rfl, .constAdj _ (.varAdj _ _)⟩
  | const τ b =>
    cases h
    cases ha with
    | const hb => exact ⟨_, rfl, .constAdj _ (.const hb)⟩
  | constSpec τ s => cases h
  | constAdj n t => cases h
  | cached n i ih => exact he.elim
  | div l r ihl ihr => exact he.elim
  | power l r ihl ihr => exact he.elim
  | add l r ihl ihr =>
    simp only [Node.adjoint, Option.bind_eq_some_iff, Option.map_eq_some_iff] at h
    obtain ⟨l1, hl, r1, hr, rfl⟩ := h
    cases ha with
    | add hal har =>
    obtain ⟨l2, el, al⟩ := ihl he.1 hal hl
    obtain ⟨r2, er, ar⟩ := ihr he.2 har hr
    exact ⟨.add l2 r2, by simp [Node.adjoint, el, er], .add al ar⟩
  | sub l r ihl ihr =>
    simp only [Node.adjoint, Option.bind_eq_some_iff, Option.map_eq_some_iff] at h
    obtain ⟨l1, hl, r1, hr, rfl⟩ := h
    cases ha with
    | sub hal har =>
    obtain ⟨l2, el, al⟩ := ihl he.1 hal hl
    obtain ⟨r2, er, ar⟩ := ihr he.2 har hr
    exact ⟨.sub l2 r2, by simp [Node.adjoint, el, er], .sub al ar⟩
  | mul l r ihl ihr =>
    simp only [Node.adjoint, Option.bind_eq_some_iff, Option.map_eq_some_iff] at h
    obtain ⟨l1, hl, r1, hr, rfl⟩ := h
    cases ha with
    | mul hal har =>
    obtain ⟨l2, el, al⟩ := ihl he.1 hal hl
    obtain ⟨r2, er, ar⟩ := ihr he.2 har hr
    exact ⟨_, by simp [Node.adjoint, el, er], .add (.mul al har) (.mul ar hal)⟩
  | contract k l r ihl ihr =>
    simp only [Node.adjoint, Option.bind_eq_some_iff, Option.map_eq_some_iff] at h
    obtain ⟨l1, hl, r1, hr, rfl⟩ := h
    cases ha with
    | contract _ hal har =>
    obtain ⟨l2, el, al⟩ := ihl he.1 hal hl
    obtain ⟨r2, er, ar⟩ := ihr he.2 har hr
    exact ⟨_, by simp [Node.adjoint, el, er], .add (.contract _ hal ar) (.contract _ al har)⟩
  | sum n ih =>
    cases ha with
    | sum ha =>
    obtain ⟨n2, en, an⟩ := ih he ha h
    exact ⟨n2, en, an⟩
  | un op n ih =>
    cases ha with
    | un hop ha =>
    have hm := he.1
    simp only [List.mem_cons, List.not_mem_nil, or_false] at hm
    rcases hm with rfl | rfl | rfl | rfl | rfl | rfl | rfl
    all_goals simp only [Node.adjoint, Option.map_eq_some_iff] at h
    · obtain ⟨n2, en, an⟩ := ih he.2 ha h
      exact ⟨n2, en, an⟩
    · obtain ⟨n1, hn, rfl⟩ := h
      obtain ⟨n2, en, an⟩ := ih he.2 ha hn
      exact ⟨_, by simp [Node.adjoint, en], .un hneg an⟩
    · obtain ⟨n2, en, an⟩ := ih he.2 ha h
      exact ⟨n2, en, an⟩
    · obtain ⟨n1, hn, rfl⟩ := h
      obtain ⟨n2, en, an⟩ := ih he.2 ha hn
      exact ⟨_, by simp [Node.adjoint, en], .mul (.un hdbl ha) an⟩
    · obtain ⟨n1, hn, rfl⟩ := h
      obtain ⟨n2, en, an⟩ := ih he.2 ha hn
      exact ⟨_, by simp [Node.adjoint, en], .un hdbl an⟩
    · obtain ⟨n1, hn, rfl⟩ := h
      obtain ⟨n2, en, an⟩ := ih he.2 ha hn
      exact ⟨_, by simp [Node.adjoint, en], .un hneg an⟩
    · obtain ⟨n1, hn, rfl⟩ := h
      obtain ⟨n2, en, an⟩ := ih he.2 ha hn
      exact ⟨_, by simp [Node.adjoint, en], .mul (.un hone (.un hdbl ha)) an⟩

end

end Aegir
