import Verif.Spec.Convert
import Verif.Lemmas.RoundingExpr
import Verif.Lemmas.Resolve
/-!
# Evaluation commutes with conversions of scalars
-/

namespace Aegir

open Spec

variable {F G : Type}

/-! ## Arrays -/

namespace NArr

theorem map_mkRows {d : Nat} {ds : Dims} (g : Fin d → NArr F ds) (f : F → G) :
    map (d :: ds) (mkRows g) f = mkRows fun i => map ds (g i) f := by
  rw [map]; simp only [row_mkRows]

theorem map_row {d : Nat} {ds : Dims} (a : NArr F (d :: ds)) (f : F → G) (i : Fin d) :
    (map (d :: ds) a f).row i = map ds (a.row i) f := by
  rw [map]; simp only [row_mkRows]

theorem map_zipMapSelf {ds : Dims} (f : F → G) (h : F → F → F) (h' : G → G → G)
    (hh : ∀ x y, f (h x y) = h' (f x) (f y)) (a b : NArr F ds) :
    zipMapSelf ds (map ds a f) (map ds b f) h' = map ds (zipMapSelf ds a b h) f := by
  induction ds with
  | nil => exact (hh a b).symm
  | cons d ds ih =>
    rw [zipMapSelf, zipMapSelf, map_mkRows]
    congr 1; funext i
    rw [map_row, map_row, ih]

theorem map_map' {ds : Dims} {H : Type} (a : NArr F ds) (f : F → G) (g : G → H) :
    map ds (map ds a f) g = map ds a fun x => g (f x) :=
  Buf.map_map (.array ds) a f g

theorem map_setRow {d : Nat} {ds : Dims} (a : NArr F (d :: ds)) (f : F → G) (i : Fin d)
    (x : NArr F ds) : (map (d :: ds) a f).setRow i (map ds x f) = map (d :: ds) (a.setRow i x) f := by
  apply ext_rows
  intro j
  rw [row_setRow, map_row, map_row, row_setRow]
  split <;> rfl

theorem map_setU {ds : Dims} (a : NArr F ds) (f : F → G) (ix : Idx) (v : F) :
    setU ds (map ds a f) ix (f v) = (setU ds a ix v).map fun b => map ds b f := by
  induction ds generalizing ix with
  | nil => cases ix <;> rfl
  | cons d ds ih =>
    cases ix with
    | nil => rfl
    | cons i ix =>
      rw [setU, setU]
      split
      · rw [map_row, ih, Option.map_map, Option.map_map]
        congr 1; funext x
        exact map_setRow a f _ x
      · rfl

theorem map_buildSubset {ds : Dims} (f : F → G) (base : F) (ixs : List Idx) (active : Idx → F) :
    buildSubset ds (f base) ixs (fun ix => f (active ix))
      = (buildSubset ds base ixs active).map fun b => map ds b f := by
  have : ∀ (a : NArr F ds), ixs.foldlM (fun buf ix => setU ds buf ix (f (active ix))) (map ds a f)
      = (ixs.foldlM (fun buf ix => setU ds buf ix (active ix)) a).map fun b => map ds b f := by
    induction ixs with
    | nil => intro a; rfl
    | cons ix ixs ih =>
      intro a
      rw [List.foldlM_cons, List.foldlM_cons, map_setU]
      cases setU ds a ix (active ix) with
      | none => rfl
      | some b => exact ih b
  rw [buildSubset, buildSubset, ← this]
  congr 1
  exact (Buf.map_full (.array ds) () base f).symm

theorem map_mkRowsOpt {d : Nat} {ds : Dims} (f : F → G) (g : Fin d → Option (NArr F ds)) :
    mkRowsOpt (fun i => (g i).map fun b => map ds b f)
      = (mkRowsOpt g).map fun b => map (d :: ds) b f := by
  by_cases h : ∀ i, (g i).isSome
  · choose k hk using fun i => Option.isSome_iff_exists.1 (h i)
    rw [mkRowsOpt_some g k hk, mkRowsOpt_some _ (fun i => map ds (k i) f) (by intro i; rw [hk]; rfl),
      Option.map_some, map_mkRows]
  · push Not at h
    obtain ⟨i, hi⟩ := h
    have hi : g i = none := by simpa using hi
    rw [mkRowsOpt_none g i hi, mkRowsOpt_none _ i (by rw [hi]; rfl)]
    rfl

theorem map_ofElemsOpt {d : Nat} (f : F → G) (g : Fin d → Option F) :
    ofElemsOpt (fun i => (g i).map f) = (ofElemsOpt g).map fun b => map [d] b f :=
  map_mkRowsOpt (ds := []) f g

theorem elem_map {d : Nat} (a : NArr F [d]) (f : F → G) (i : Fin d) :
    elem (map [d] a f) i = f (elem a i) := map_row (ds := []) a f i

theorem map_ofElems {d : Nat} (g : Fin d → F) (f : F → G) :
    map [d] (ofElems g) f = ofElems fun i => f (g i) := map_mkRows (ds := []) g f

end NArr

/-! ## Buffers -/

theorem foldlM_conv {α A B : Type} (k : A → B) (l : List α) (g : A → α → Option A)
    (g' : B → α → Option B) (h : ∀ a x, g' (k a) x = (g a x).map k) (a : A) :
    l.foldlM g' (k a) = (l.foldlM g a).map k := by
  induction l generalizing a with
  | nil => rfl
  | cons x l ih =>
    rw [List.foldlM_cons, List.foldlM_cons, h]
    cases g a x with
    | none => rfl
    | some b => exact ih b

theorem Buf.fold_conv {A B : Type} {τ : BTy} (f : F → G) (k : A → B) (g : A → F → A)
    (g' : B → G → B) (h : ∀ a x, g' (k a) (f x) = k (g a x)) (b : Buf F τ) (a : A) :
    Buf.fold τ (Buf.map τ b f) (k a) g' = k (Buf.fold τ b a g) := by
  rw [Buf.fold_eq_foldl, Buf.fold_eq_foldl, Buf.entries_map]
  generalize Buf.entries τ b = l
  induction l generalizing a with
  | nil => rfl
  | cons x l ih => rw [List.map_cons, List.foldl_cons, List.foldl_cons, h, ih]

theorem Buf.buildSubset_conv {τ : BTy} (f : F → G) (s : Shp τ) (base : F) (ixs : List Idx)
    (active : Idx → F) :
    Buf.buildSubset τ s (f base) ixs (fun ix => f (active ix))
      = (Buf.buildSubset τ s base ixs active).map fun b => Buf.map τ b f := by
  cases τ with
  | scalar => cases ixs <;> rfl
  | array ds => exact NArr.map_buildSubset f base ixs active
  | tuple =>
    simp only [Buf.buildSubset, Option.map_some, Option.some.injEq]
    have : ∀ a : F × F, ixs.foldl (Buf.tupleStep fun ix => f (active ix)) (f a.1, f a.2)
        = Buf.map .tuple (ixs.foldl (Buf.tupleStep active) a) f := by
      induction ixs with
      | nil => intro a; rfl
      | cons ix ixs ih =>
        intro a
        rw [List.foldl_cons, List.foldl_cons, ← ih]
        congr 1
        unfold Buf.tupleStep
        split
        · rfl
        · split <;> rfl
    exact this (base, base)
  | vec =>
    simp only [Buf.buildSubset]
    rw [← Buf.map_full .vec s base f]
    refine foldlM_conv (fun b : List F => b.map f) ixs _ _ ?_ _
    intro a ix
    match ix with
    | [] => rfl
    | [i] =>
      simp only [List.length_map]
      split
      · simp [List.map_set]
      · rfl
    | _ :: _ :: _ => rfl

theorem Except.map_map' {ε α β γ : Type} (f : α → β) (g : β → γ) (x : Except ε α) :
    (x.map f).map g = x.map fun a => g (f a) := by cases x <;> rfl

theorem Buf.zipMap_conv {a b c : BTy} (z : ZipImpl a b c) (f : F → G) (h : F → F → F)
    (h' : G → G → G) (hh : ∀ x y, f (h x y) = h' (f x) (f y)) (x : Buf F a) (y : Buf F b) :
    Buf.zipMap z (Buf.map a x f) (Buf.map b y f) h'
      = (Buf.zipMap z x y h).map fun v => Buf.map c v f := by
  cases z with
  | ss => simp only [Buf.zipMap, Buf.map, Except.map, hh]
  | tt => simp only [Buf.zipMap, Buf.map, Except.map, hh]
  | vv =>
    rw [Buf.zipMap_vv, Buf.zipMap_vv]
    simp only [Buf.map, List.length_map]
    split
    · rfl
    · simp only [Except.map, Except.ok.injEq]
      rw [List.zip_map, List.map_map, List.map_map]
      congr 1; funext p
      simp [hh]
  | vs =>
    simp only [Buf.zipMap, Buf.map, Except.map, Except.ok.injEq, List.map_map]
    congr 1; funext p
    simp [hh]
  | sv =>
    simp only [Buf.zipMap, Buf.map, Except.map, Except.ok.injEq, List.map_map]
    congr 1; funext p
    simp [hh]
  | aa ds => exact congrArg Except.ok (NArr.map_zipMapSelf f h h' hh x y)
  | as ds =>
    refine congrArg Except.ok ?_
    rw [NArr.zipMapFieldR_eq_map, NArr.zipMapFieldR_eq_map]
    simp only [Buf.map, NArr.map_map', hh]
  | sa ds =>
    refine congrArg Except.ok ?_
    rcases Nat.lt_or_ge ds.length 2 with hl | hl
    · rw [NArr.zipMapFieldL_rank1 (by omega), NArr.zipMapFieldL_rank1 (by omega)]
      simp only [Buf.map, NArr.map_map', hh]
    · rw [NArr.zipMapFieldL_rank2 hl, NArr.zipMapFieldL_rank2 hl]
      simp only [Buf.map, NArr.map_map', hh]

theorem Buf.zipMapId_conv {a b c : BTy} (z : ZipImpl a b c) (f : F → G) (h : F → F → F)
    (h' : G → G → G) (hh : ∀ x y, f (h x y) = h' (f x) (f y)) (x : Buf F a) (y : Buf F b) :
    Buf.zipMapId z (Buf.map a x f) (Buf.map b y f) h'
      = (Buf.zipMapId z x y h).map fun v => Buf.map c v f := by
  rw [Buf.zipMapId_eq, Buf.zipMapId_eq, Buf.zipMap_conv z f h h' hh]

theorem Buf.zipShape_conv {a b c : BTy} (z : ZipImpl a b c) (f : F → G) (x : Buf F a) (s : Shp b) :
    Buf.zipShape z (Buf.map a x f) s = (Buf.zipShape z x s).map fun v => Buf.map c v f := by
  cases z with
  | ss => rfl
  | tt => rfl
  | vv =>
    simp only [Buf.zipShape, Buf.map, List.length_map]
    split <;> rfl
  | vs => rfl
  | sv => exact congrArg Except.ok (Buf.map_full .vec s x f).symm
  | aa ds => rfl
  | as ds => rfl
  | sa ds => exact congrArg Except.ok (Buf.map_full (.array ds) s x f).symm

theorem NArr.getU_conv {ds : Dims} (f : F → G) (a : NArr F ds) (ix : Idx) :
    NArr.getU ds (NArr.map ds a f) ix = (NArr.getU ds a ix).map f := NArr.getU_map a f ix

section
variable [Zero F] [One F] [Add F] [Sub F] [Mul F] [Div F] [Neg F] [ScalarFns F]
  [Zero G] [One G] [Add G] [Sub G] [Mul G] [Div G] [Neg G] [ScalarFns G]
variable {f : F → G}

omit [One F] [Sub F] [Mul F] [Div F] [Neg F] [ScalarFns F] [One G] [Sub G] [Mul G] [Div G] [Neg G]
  [ScalarFns G] in
theorem sumLoop_conv (h0 : f 0 = 0) (ha : ∀ x y, f (x + y) = f x + f y) (n : Nat)
    (g : Nat → Option F) : sumLoop n (fun k => (g k).map f) = (sumLoop n g).map f := by
  unfold sumLoop
  conv_lhs => rw [← h0]
  refine foldlM_conv f _ _ _ ?_ _
  intro a k
  beta_reduce
  cases g k with
  | none => rfl
  | some x => simp [ha]

theorem Res.ofOption_map {ε α β : Type} (k : α → β) (x : Option α) :
    (Res.ofOption (x.map k) : Res ε β) = (Res.ofOption x).map k := by cases x <;> rfl

theorem Res.ofExcept_map {ε α β : Type} (k : α → β) (x : Except ε α) :
    Res.ofExcept (x.map k) = (Res.ofExcept x).map k := by cases x <;> rfl

theorem Res.unwrap_map {ε ε' α β : Type} (k : α → β) (x : Res ε α) :
    ((x.map k).unwrap : Res ε' β) = (x.unwrap).map k := by cases x <;> rfl

omit [Div F] [Neg F] [Div G] [Neg G] in
theorem Buf.contract_conv (hf : ScalarMap f) {k : Nat} {a b c : BTy} (z : ContractImpl k a b c)
    (x : Buf F a) (y : Buf F b) :
    Buf.contract z (Buf.map a x f) (Buf.map b y f)
      = (Buf.contract z x y).map fun v => Buf.map c v f := by
  have upd : ∀ {ds : Dims} (a : NArr F ds) (g : F → F) (g' : G → G), (∀ x, f (g x) = g' (f x)) →
      NArr.mutate ds (NArr.map ds a f) g' = NArr.map ds (NArr.mutate ds a g) f := by
    intro ds a g g' hg
    rw [NArr.mutate_eq_map, NArr.mutate_eq_map, NArr.map_map', NArr.map_map']
    simp only [hg]
  have two : ∀ (p q : Option F), ((p.map f).bind fun u => (q.map f).map fun v => u * v)
      = (p.bind fun u => q.map fun v => u * v).map f := by
    intro p q
    cases p <;> cases q <;> simp [hf.mul]
  cases z with
  | ss0 => exact congrArg Res.ok (hf.mul _ _).symm
  | ss1 => exact congrArg Res.ok (hf.mul _ _).symm
  | vs0 n => exact congrArg Res.ok (upd (ds := [n]) x _ _ fun _ => hf.mul _ _)
  | sv0 n => exact congrArg Res.ok (upd (ds := [n]) y _ _ fun _ => hf.mul _ _)
  | ms0 n m => exact congrArg Res.ok (upd (ds := [n, m]) x _ _ fun _ => hf.mul _ _)
  | sm0 n m => exact congrArg Res.ok (upd (ds := [n, m]) y _ _ fun _ => hf.mul _ _)
  | vv0 n m =>
    refine congrArg Res.ok ?_
    refine Eq.trans ?_ (NArr.map_mkRows _ f).symm
    congr 1; funext i
    simp only [Buf.map]
    rw [NArr.map_map', NArr.map_map']
    simp only [NArr.elem_map, hf.mul]
  | dot n =>
    simp only [Buf.contract, Buf.zipFold, Buf.map, NArr.zipFoldSelf]
    rw [← Res.ofOption_map]
    congr 1
    conv_lhs => rw [← hf.zero]
    refine foldlM_conv f _ _ _ ?_ _
    intro a ix
    rw [NArr.getU_conv, NArr.getU_conv]
    cases NArr.getU [n] x ix <;> cases NArr.getU [n] y ix <;> simp [hf.mul, hf.add]
  | mv n m =>
    simp only [Buf.contract, Buf.map, NArr.getU_conv, two]
    simp only [sumLoop_conv hf.zero hf.add]
    rw [NArr.map_ofElemsOpt, Res.ofOption_map]
  | mm n z m =>
    simp only [Buf.contract, Buf.map, NArr.getU_conv, two]
    simp only [sumLoop_conv hf.zero hf.add, NArr.map_ofElemsOpt]
    rw [NArr.map_mkRowsOpt, Res.ofOption_map]
  | vm n m =>
    simp only [Buf.contract, Buf.map, NArr.getU_conv, two]
    simp only [sumLoop_conv hf.zero hf.add]
    rw [NArr.map_ofElemsOpt, Res.ofOption_map]

omit [One F] [Add F] [Sub F] [Mul F] [Div F] [Neg F] [ScalarFns F]
  [One G] [Add G] [Sub G] [Mul G] [Div G] [Neg G] [ScalarFns G] in
theorem unwrap_conv (h0 : f 0 = 0) {τ : BTy} (s : BSpec F τ) :
    (convSpec f s).unwrap = Buf.map τ s.unwrap f := by
  cases s with
  | raw b => rfl
  | full s x => exact (Buf.map_full τ s x f).symm
  | diagonal s x =>
    simp only [convSpec, BSpec.unwrap, Buf.diagonal, Buf.map_build]
    congr 1; funext ix
    split <;> simp [h0]

omit [Zero F] [One F] [Add F] [Sub F] [Mul F] [Div F] [Neg F] [ScalarFns F]
  [Zero G] [One G] [Add G] [Sub G] [Mul G] [Div G] [Neg G] [ScalarFns G] in
theorem shape_conv {τ : BTy} (s : BSpec F τ) : (convSpec f s).shape = s.shape := by
  cases s with
  | raw b => exact Buf.shape_map τ b f
  | full s x => rfl
  | diagonal s x => rfl

omit [Div F] [Neg F] [Div G] [Neg G] in
theorem denseContract_conv (hf : ScalarMap f) {k : Nat} {a b c : BTy} (z : ContractImpl k a b c)
    (x : BSpec F a) (y : BSpec F b) :
    BSpec.denseContract z (convSpec f x) (convSpec f y)
      = (BSpec.denseContract z x y).map (convSpec f) := by
  unfold BSpec.denseContract
  rw [unwrap_conv hf.zero, unwrap_conv hf.zero, Buf.contract_conv hf, Res.map_map, Res.map_map]
  rfl

omit [Zero F] [One F] [Add F] [Sub F] [Mul F] [Div F] [Neg F] [ScalarFns F]
  [Zero G] [One G] [Add G] [Sub G] [Mul G] [Div G] [Neg G] [ScalarFns G] in
theorem convSpec_full {τ : BTy} (s : Shp τ) (x : F) : convSpec f (.full s x) = .full s (f x) := rfl

omit [Div F] [Neg F] [Div G] [Neg G] in
theorem contractSpec_conv (hf : ScalarMap f) {k : Nat} {a b c : BTy} (z : ContractImpl k a b c)
    (x : BSpec F a) (y : BSpec F b) :
    BSpec.contract z (convSpec f x) (convSpec f y) = (BSpec.contract z x y).map (convSpec f) := by
  have hd := denseContract_conv hf z x y
  have hz : ∀ {τ : BTy} (s : Shp τ), (BSpec.zeroes s : BSpec G τ) = convSpec f (BSpec.zeroes s) :=
    fun s => congrArg (BSpec.full s) hf.zero.symm
  have upd : ∀ {ds : Dims} (a : NArr F ds) (g : F → F) (g' : G → G), (∀ x, f (g x) = g' (f x)) →
      NArr.mutate ds (NArr.map ds a f) g' = NArr.map ds (NArr.mutate ds a g) f := by
    intro ds a g g' hg
    rw [NArr.mutate_eq_map, NArr.mutate_eq_map, NArr.map_map', NArr.map_map']
    simp only [hg]
  have hu : ∀ {τ : BTy} (s : BSpec F τ), (convSpec f s).unwrap = Buf.map τ s.unwrap f :=
    fun s => unwrap_conv hf.zero s
  cases z with
  | ss0 =>
    simp only [convSpec_full, BSpec.contract, hu, Buf.map, Res.map_ok, hf.mul]
  | ss1 =>
    simp only [convSpec_full, BSpec.contract, hu, Buf.map, Res.map_ok, hf.mul]
  | vs0 n =>
    cases x with
    | full s v => simp only [convSpec_full, BSpec.contract, hu, Buf.map, Res.map_ok, hf.mul]
    | raw b => exact hd
    | diagonal s v => exact hd
  | sv0 n =>
    cases y with
    | full s v => simp only [convSpec_full, BSpec.contract, hu, Buf.map, Res.map_ok, hf.mul]
    | raw b => exact hd
    | diagonal s v => exact hd
  | ms0 n m =>
    cases x with
    | full s v => simp only [convSpec_full, BSpec.contract, hu, Buf.map, Res.map_ok, hf.mul]
    | raw b => exact hd
    | diagonal s v => exact hd
  | sm0 n m =>
    cases y with
    | full s v => simp only [convSpec_full, BSpec.contract, hu, Buf.map, Res.map_ok, hf.mul]
    | raw b => exact hd
    | diagonal s v => exact hd
  | vv0 n m =>
    have left : ∀ (s : Shp (.array [n])) (v : F) (y : BSpec F (.array [m])),
        (if ScalarFns.isZero (f v) = true then (Res.ok (BSpec.zeroes ()) : Res IncShapes (BSpec G _))
          else .ok (.raw (NArr.mkRows (d := n) (ds := [m])
            (fun _ => NArr.map [m] (convSpec f y).unwrap (fun yj => f v * yj)))))
        = (if ScalarFns.isZero v = true then (Res.ok (BSpec.zeroes ()) :
            Res IncShapes (BSpec F (.array [n, m])))
          else .ok (.raw (NArr.mkRows (d := n) (ds := [m])
            (fun _ => NArr.map [m] y.unwrap (fun yj => v * yj))))).map (convSpec f) := by
      intro s v y
      rw [hf.isZero]
      split
      · exact congrArg Res.ok (hz _)
      · refine congrArg Res.ok (congrArg BSpec.raw ?_)
        refine Eq.trans ?_ (NArr.map_mkRows _ f).symm
        congr 1; funext i
        rw [hu]
        simp only [Buf.map]
        rw [NArr.map_map', NArr.map_map']
        simp only [hf.mul]
    have right : ∀ (s : Shp (.array [m])) (v : F) (x : BSpec F (.array [n])),
        (if ScalarFns.isZero (f v) = true then (Res.ok (BSpec.zeroes ()) : Res IncShapes (BSpec G _))
          else .ok (.raw (NArr.mkRows (d := n) (ds := [m])
            (fun i => NArr.ofElems (d := m) (fun _ => NArr.elem (convSpec f x).unwrap i * f v)))))
        = (if ScalarFns.isZero v = true then (Res.ok (BSpec.zeroes ()) :
            Res IncShapes (BSpec F (.array [n, m])))
          else .ok (.raw (NArr.mkRows (d := n) (ds := [m])
            (fun i => NArr.ofElems (d := m) (fun _ => NArr.elem x.unwrap i * v))))).map
              (convSpec f) := by
      intro s v x
      rw [hf.isZero]
      split
      · exact congrArg Res.ok (hz _)
      · refine congrArg Res.ok (congrArg BSpec.raw ?_)
        refine Eq.trans ?_ (NArr.map_mkRows _ f).symm
        congr 1; funext i
        rw [hu, NArr.map_ofElems]
        simp only [Buf.map, NArr.elem_map, hf.mul]
    cases x with
    | full s v =>
      cases y with
      | full s' w => simp only [BSpec.contract, Res.map_ok, convSpec, hf.mul]
      | raw b => exact left s v (.raw b)
      | diagonal s' w => exact left s v (.diagonal s' w)
    | raw b =>
      cases y with
      | full s' w => exact right s' w (.raw b)
      | raw b => exact hd
      | diagonal s' w => exact hd
    | diagonal s v =>
      cases y with
      | full s' w => exact right s' w (.diagonal s v)
      | raw b => exact hd
      | diagonal s' w => exact hd
  | dot n =>
    have count : ∀ v w : F, ((Res.ofOption (ScalarFns.fromUsize n)).map
        (fun k => BSpec.full () (k * f v * f w)) : Res IncShapes (BSpec G .scalar))
        = ((Res.ofOption (ScalarFns.fromUsize n)).map
          (fun k => (BSpec.full () (k * v * w) : BSpec F .scalar))).map (convSpec f) := by
      intro v w
      rw [hf.fromUsize, Res.ofOption_map, Res.map_map, Res.map_map]
      simp only [convSpec, hf.mul]
    have fold : ∀ (y : BSpec F (.array [n])) (g : F → F) (g' : G → G), (∀ x, f (g x) = g' (f x)) →
        NArr.fold [n] (convSpec f y).unwrap 0 (fun acc yi => acc + g' yi)
          = f (NArr.fold [n] y.unwrap 0 (fun acc yi => acc + g yi)) := by
      intro y g g' hg
      have := Buf.fold_conv (τ := .array [n]) f f (fun acc yi => acc + g yi)
        (fun acc yi => acc + g' yi) (fun a x => by rw [hf.add, hg]) y.unwrap 0
      rw [hf.zero] at this
      rw [hu]
      exact this
    have general : ∀ x y : BSpec F (.array [n]),
        (Buf.zipFold (.aa [n]) (convSpec f x).unwrap (convSpec f y).unwrap 0
            (fun acc p => acc + p.1 * p.2)).map (BSpec.raw (τ := .scalar))
          = ((Buf.zipFold (.aa [n]) x.unwrap y.unwrap 0 (fun acc p => acc + p.1 * p.2)).map
            (BSpec.raw (τ := .scalar))).map (convSpec f) := by
      intro x y
      have := Buf.contract_conv hf (.dot n) x.unwrap y.unwrap
      rw [← hu, ← hu] at this
      exact (congrArg (Res.map (BSpec.raw (τ := .scalar))) this).trans
        (by rw [Res.map_map, Res.map_map]; rfl)
    cases x with
    | full s v =>
      cases y with
      | full s' w => exact count v w
      | raw b =>
        exact congrArg (fun x => Res.ok (BSpec.full (τ := .scalar) () x)) (fold (.raw b) _ _ fun _ => hf.mul _ _)
      | diagonal s' w =>
        exact congrArg (fun x => Res.ok (BSpec.full (τ := .scalar) () x))
          (fold (.diagonal s' w) _ _ fun _ => hf.mul _ _)
    | raw b =>
      cases y with
      | full s' w =>
        exact congrArg (fun x => Res.ok (BSpec.full (τ := .scalar) () x))
          (fold (.raw b) (fun x => x * w) (fun x => x * f w) fun _ => hf.mul _ _)
      | raw b' => exact general (.raw b) (.raw b')
      | diagonal s' w => exact general (.raw b) (.diagonal s' w)
    | diagonal s v =>
      cases y with
      | full s' w =>
        exact congrArg (fun x => Res.ok (BSpec.full (τ := .scalar) () x))
          (fold (.diagonal s v) (fun x => x * w) (fun x => x * f w) fun _ => hf.mul _ _)
      | raw b' => exact general (.diagonal s v) (.raw b')
      | diagonal s' w => exact general (.diagonal s v) (.diagonal s' w)
  | mv n m =>
    have zero : ∀ (s : Shp (.array [n, m])) (v : F) (y : BSpec F (.array [n])),
        BSpec.denseContract (.mv n m) (convSpec f (.full s v)) (convSpec f y)
          = (BSpec.denseContract (.mv n m) (.full s v) y).map (convSpec f) →
        (if ScalarFns.isZero (f v) = true then (Res.ok (BSpec.zeroes ()) : Res IncShapes (BSpec G _))
          else BSpec.denseContract (.mv n m) (.full s (f v)) (convSpec f y))
        = (if ScalarFns.isZero v = true then (Res.ok (BSpec.zeroes ()) : Res IncShapes (BSpec F _))
          else BSpec.denseContract (.mv n m) (.full s v) y).map (convSpec f) := by
      intro s v y hd
      rw [hf.isZero]
      split
      · exact congrArg Res.ok (hz _)
      · exact hd
    have diag : ∀ (s : Shp (.array [n, m])) (v : F) (y : BSpec F (.array [n])),
        BSpec.denseContract (.mv n m) (convSpec f (.diagonal s v)) (convSpec f y)
          = (BSpec.denseContract (.mv n m) (.diagonal s v) y).map (convSpec f) →
        (if h : m = n then (.ok (.raw (h ▸ NArr.mutate [n] (convSpec f y).unwrap
            (fun yi => f v * yi))) : Res IncShapes (BSpec G (.array [m])))
          else BSpec.denseContract (.mv n m) (.diagonal s (f v)) (convSpec f y))
        = (if h : m = n then (.ok (.raw (h ▸ NArr.mutate [n] y.unwrap (fun yi => v * yi))) :
            Res IncShapes (BSpec F (.array [m])))
          else BSpec.denseContract (.mv n m) (.diagonal s v) y).map (convSpec f) := by
      intro s v y hd
      by_cases h : m = n
      · subst h
        simp only [dite_true]
        rw [hu]
        exact congrArg (fun x => Res.ok (BSpec.raw x)) (upd (ds := [m]) _ _ _ fun _ => hf.mul _ _)
      · simp only [h, dite_false]
        exact hd
    cases x with
    | full s v => exact zero s v y hd
    | raw b => exact hd
    | diagonal s v =>
      cases y with
      | full s' w => simp only [BSpec.contract, Res.map_ok, convSpec, hf.mul]
      | raw b => exact diag s v _ hd
      | diagonal s' w => exact diag s v _ hd
  | mm n z m =>
    have count : ∀ v w : F, ((Res.ofOption (ScalarFns.fromUsize z)).map
        (fun k => BSpec.full () (k * f v * f w)) : Res IncShapes (BSpec G (.array [n, m])))
        = ((Res.ofOption (ScalarFns.fromUsize z)).map
          (fun k => (BSpec.full () (k * v * w) : BSpec F (.array [n, m])))).map (convSpec f) := by
      intro v w
      rw [hf.fromUsize, Res.ofOption_map, Res.map_map, Res.map_map]
      simp only [convSpec, hf.mul]
    cases x with
    | full s v =>
      cases y with
      | full s' w => exact count v w
      | raw b => exact hd
      | diagonal s' w => exact hd
    | raw b => cases y <;> exact hd
    | diagonal s v =>
      cases y with
      | full s' w => exact hd
      | raw b => exact hd
      | diagonal s' w =>
        simp only [BSpec.contract, convSpec]
        split
        · simp only [Res.map_ok, convSpec, hf.mul]
        · exact hd
  | vm n m =>
    have zero : ∀ (s : Shp (.array [n, m])) (v : F) (x : BSpec F (.array [n])),
        BSpec.denseContract (.vm n m) (convSpec f x) (convSpec f (.full s v))
          = (BSpec.denseContract (.vm n m) x (.full s v)).map (convSpec f) →
        (if ScalarFns.isZero (f v) = true then (Res.ok (BSpec.zeroes ()) : Res IncShapes (BSpec G _))
          else BSpec.denseContract (.vm n m) (convSpec f x) (.full s (f v)))
        = (if ScalarFns.isZero v = true then (Res.ok (BSpec.zeroes ()) : Res IncShapes (BSpec F _))
          else BSpec.denseContract (.vm n m) x (.full s v)).map (convSpec f) := by
      intro s v x hd
      rw [hf.isZero]
      split
      · exact congrArg Res.ok (hz _)
      · exact hd
    have diag : ∀ (s : Shp (.array [n, m])) (v : F) (x : BSpec F (.array [n])),
        BSpec.denseContract (.vm n m) (convSpec f x) (convSpec f (.diagonal s v))
          = (BSpec.denseContract (.vm n m) x (.diagonal s v)).map (convSpec f) →
        (if h : m = n then (.ok (.raw (h ▸ NArr.mutate [n] (convSpec f x).unwrap
            (fun xi => xi * f v))) : Res IncShapes (BSpec G (.array [m])))
          else BSpec.denseContract (.vm n m) (convSpec f x) (.diagonal s (f v)))
        = (if h : m = n then (.ok (.raw (h ▸ NArr.mutate [n] x.unwrap (fun xi => xi * v))) :
            Res IncShapes (BSpec F (.array [m])))
          else BSpec.denseContract (.vm n m) x (.diagonal s v)).map (convSpec f) := by
      intro s v x hd
      by_cases h : m = n
      · subst h
        simp only [dite_true]
        rw [hu]
        exact congrArg (fun x => Res.ok (BSpec.raw x)) (upd (ds := [m]) _ (fun x => x * v)
          (fun x => x * f v) fun _ => hf.mul _ _)
      · simp only [h, dite_false]
        exact hd
    cases y with
    | full s v =>
      cases x <;> exact zero s v _ hd
    | raw b => cases x <;> exact hd
    | diagonal s v =>
      cases x with
      | full s' w => simp only [BSpec.contract, Res.map_ok, convSpec, hf.mul]
      | raw b => exact diag s v _ hd
      | diagonal s' w => exact diag s v _ hd

/-! ## Operators on compressed buffers -/

omit [One F] [Add F] [Sub F] [Mul F] [Div F] [Neg F] [ScalarFns F]
  [One G] [Add G] [Sub G] [Mul G] [Div G] [Neg G] [ScalarFns G] in
theorem zipGeneral_conv (h0 : f 0 = 0) {a b c : BTy} (z : ZipImpl a b c) (h : F → F → F)
    (h' : G → G → G) (hh : ∀ x y, f (h x y) = h' (f x) (f y)) (x : BSpec F a) (y : BSpec F b) :
    zipGeneral z h' (convSpec f x) (convSpec f y) = (zipGeneral z h x y).map (convSpec f) := by
  unfold zipGeneral
  rw [unwrap_conv h0, unwrap_conv h0, Buf.zipMapId_conv z f h h' hh, Res.ofExcept_map,
    Res.unwrap_map, Res.map_map, Res.map_map]
  rfl

omit [Zero F] [One F] [Add F] [Sub F] [Mul F] [Div F] [Neg F] [ScalarFns F]
  [Zero G] [One G] [Add G] [Sub G] [Mul G] [Div G] [Neg G] [ScalarFns G] in
theorem broadcast_conv {a b c : BTy} (z : ZipImpl a b c) (s : Shp a) (t : Shp b) (v : F) (w : G)
    (h : w = f v) : (Res.ofExcept ((z.broadcast s t).map fun sz => BSpec.full sz w)) =
      (Res.ofExcept ((z.broadcast s t).map fun sz => BSpec.full sz v)).map (convSpec f) := by
  subst h
  cases z.broadcast s t <;> rfl

omit [Div F] [Neg F] [Div G] [Neg G] in
theorem addSpec_conv (hf : ScalarMap f) {a b c : BTy} (z : ZipImpl a b c) (x : BSpec F a)
    (y : BSpec F b) : addSpec z (convSpec f x) (convSpec f y) = (addSpec z x y).map (convSpec f) := by
  have hg := zipGeneral_conv hf.zero z (· + ·) (· + ·) hf.add x y
  cases x with
  | raw b =>
    cases y with
    | raw b' => exact hg
    | diagonal s v => exact hg
    | full s v =>
      simp only [convSpec, addSpec, hf.isZero]
      split
      · rw [Buf.zipShape_conv, ← Res.ofExcept_map, Except.map_map', Except.map_map']
        rfl
      · exact hg
  | full s v =>
    cases y with
    | raw b =>
      simp only [convSpec, addSpec, hf.isZero]
      split
      · rw [Buf.zipShape_conv, ← Res.mapErr_map, ← Res.ofExcept_map, Except.map_map',
          Except.map_map']
        rfl
      · exact hg
    | diagonal s v => exact hg
    | full s' w => exact broadcast_conv z s s' (v + w) _ (hf.add _ _).symm
  | diagonal s v => cases y <;> exact hg

omit [Div F] [Neg F] [Div G] [Neg G] in
theorem subSpec_conv (hf : ScalarMap f) {a b c : BTy} (z : ZipImpl a b c) (x : BSpec F a)
    (y : BSpec F b) : subSpec z (convSpec f x) (convSpec f y) = (subSpec z x y).map (convSpec f) := by
  have hg := zipGeneral_conv hf.zero z (· - ·) (· - ·) hf.sub x y
  cases x with
  | raw b =>
    cases y with
    | raw b' => exact hg
    | diagonal s v => exact hg
    | full s v =>
      simp only [convSpec, subSpec, hf.isZero]
      split
      · rw [Buf.zipShape_conv, ← Res.ofExcept_map, Except.map_map', Except.map_map']
        rfl
      · exact hg
  | full s v =>
    cases y with
    | raw b => exact hg
    | diagonal s v => exact hg
    | full s' w => exact broadcast_conv z s s' (v - w) _ (hf.sub _ _).symm
  | diagonal s v => cases y <;> exact hg

omit [Div F] [Neg F] [Div G] [Neg G] in
theorem mulSpec_conv (hf : ScalarMap f) {a b c : BTy} (z : ZipImpl a b c) (x : BSpec F a)
    (y : BSpec F b) : mulSpec z (convSpec f x) (convSpec f y) = (mulSpec z x y).map (convSpec f) := by
  have hg := zipGeneral_conv hf.zero z (· * ·) (· * ·) hf.mul x y
  have hl : ∀ (s : Shp a) (v : F), x = .full s v →
      (if ScalarFns.isZero (f v) = true then
        Res.ofExcept ((z.broadcast s (convSpec f y).shape).map fun sz => BSpec.zeroes sz)
      else zipGeneral z (· * ·) (.full s (f v)) (convSpec f y))
      = (if ScalarFns.isZero v = true then
          Res.ofExcept ((z.broadcast s y.shape).map fun sz => BSpec.zeroes sz)
        else zipGeneral z (· * ·) (.full s v) y).map (convSpec f) := by
    rintro s v rfl
    rw [hf.isZero, shape_conv]
    split
    · exact broadcast_conv z s _ 0 _ hf.zero.symm
    · exact hg
  have hr : ∀ (s : Shp b) (v : F), y = .full s v →
      (if ScalarFns.isZero (f v) = true then
        Res.ofExcept ((z.broadcast (convSpec f x).shape s).map fun sz => BSpec.zeroes sz)
      else zipGeneral z (· * ·) (convSpec f x) (.full s (f v)))
      = (if ScalarFns.isZero v = true then
          Res.ofExcept ((z.broadcast x.shape s).map fun sz => BSpec.zeroes sz)
        else zipGeneral z (· * ·) x (.full s v)).map (convSpec f) := by
    rintro s v rfl
    rw [hf.isZero, shape_conv]
    split
    · exact broadcast_conv z _ s 0 _ hf.zero.symm
    · exact hg
  cases x with
  | raw b =>
    cases y with
    | raw b' => exact hg
    | diagonal s v => exact hg
    | full s v => exact hr s v rfl
  | full s v =>
    cases y with
    | raw b => exact hl s v rfl
    | diagonal s' w => exact hl s v rfl
    | full s' w => exact broadcast_conv z s s' (v * w) _ (hf.mul _ _).symm
  | diagonal s v =>
    cases y with
    | raw b' => exact hg
    | diagonal s' w => exact hg
    | full s' w => exact hr s' w rfl

omit [Div F] [Neg F] [Div G] [Neg G] in
theorem powSpec_conv (hf : ScalarMap f)
    (hp : ∀ x y, f (ScalarFns.pow x y) = ScalarFns.pow (f x) (f y))
    (he : ∀ x y, ScalarFns.eqb (f x) (f y) = ScalarFns.eqb x y) (b e : BSpec F .scalar) :
    powSpec (convSpec f b) (convSpec f e) = convSpec f (powSpec b e) := by
  have general : ∀ b e : BSpec F .scalar,
      (BSpec.raw (Buf.mutate .scalar (convSpec f b).unwrap
        fun x => ScalarFns.pow x (convSpec f e).unwrap) : BSpec G .scalar)
      = convSpec f (.raw (Buf.mutate .scalar b.unwrap fun x => ScalarFns.pow x e.unwrap)) := by
    intro b e
    rw [unwrap_conv hf.zero, unwrap_conv hf.zero]
    simp only [Buf.map, Buf.mutate, convSpec, hp]
  have e1 : ∀ x, ScalarFns.eqb (f x) 1 = ScalarFns.eqb x 1 := fun x => by rw [← hf.one, he]
  have e0 : ∀ x, ScalarFns.eqb (f x) 0 = ScalarFns.eqb x 0 := fun x => by rw [← hf.zero, he]
  have arms : ∀ b e : BSpec F .scalar,
      (match convSpec f b with
        | .full sx fx =>
            if ScalarFns.eqb fx 1 then .full sx fx
            else if ScalarFns.eqb fx 0 then .full sx fx
            else .raw (Buf.mutate .scalar (convSpec f b).unwrap
              fun x => ScalarFns.pow x (convSpec f e).unwrap)
        | b => (.raw (Buf.mutate .scalar b.unwrap
              fun x => ScalarFns.pow x (convSpec f e).unwrap) : BSpec G .scalar))
      = convSpec f (match b with
        | .full sx fx =>
            if ScalarFns.eqb fx 1 then .full sx fx
            else if ScalarFns.eqb fx 0 then .full sx fx
            else .raw (Buf.mutate .scalar b.unwrap fun x => ScalarFns.pow x e.unwrap)
        | b => .raw (Buf.mutate .scalar b.unwrap fun x => ScalarFns.pow x e.unwrap)) := by
    intro b e
    have hg := general b e
    cases b with
    | raw b => exact hg
    | diagonal s v => exact hg
    | full s v =>
      simp only [convSpec_full, e1, e0]
      split
      · rfl
      · split
        · rfl
        · exact hg
  cases e with
  | raw e => exact arms b (.raw e)
  | diagonal s v => exact arms b (.diagonal s v)
  | full s v =>
    unfold powSpec
    simp only [convSpec_full, e0]
    split
    · rw [shape_conv]
      exact congrArg (BSpec.full _) hf.one.symm
    · exact arms b (.full s v)

omit [One F] [Add F] [Sub F] [Mul F] [Div F] [Neg F] [ScalarFns F]
  [One G] [Add G] [Sub G] [Mul G] [Div G] [Neg G] [ScalarFns G] in
theorem unSpec_conv (h0 : f 0 = 0) (h : F → F) (h' : G → G) (hh : ∀ x, f (h x) = h' (f x)) {τ : BTy}
    (x : BSpec F τ) : unSpec h' (convSpec f x) = convSpec f (unSpec h x) := by
  have general : (BSpec.raw (Buf.mutate τ (convSpec f x).unwrap h') : BSpec G τ)
      = convSpec f (.raw (Buf.mutate τ x.unwrap h)) := by
    rw [unwrap_conv h0, Buf.mutate_eq_map, Buf.mutate_eq_map, Buf.map_map]
    simp only [convSpec]
    rw [Buf.map_map]
    congr 2; funext x
    exact (hh x).symm
  cases x with
  | raw b => exact general
  | diagonal s v => exact general
  | full s v => exact congrArg (BSpec.full s) (hh v).symm

omit [One F] [Sub F] [Mul F] [Div F] [Neg F] [ScalarFns F]
  [One G] [Sub G] [Mul G] [Div G] [Neg G] [ScalarFns G] in
theorem sum_conv (h0 : f 0 = 0) (ha : ∀ x y, f (x + y) = f x + f y) {τ : BTy} (b : Buf F τ) :
    Buf.sum τ (Buf.map τ b f) = f (Buf.sum τ b) := by
  have := Buf.fold_conv f f (fun a x : F => a + x) (fun a x : G => a + x)
    (fun a x => (ha a x).symm) b 0
  rw [h0] at this
  exact this

omit [Div F] [Neg F] [Div G] [Neg G] in
theorem sumSpec_conv (hf : ScalarMap f) {τ : BTy} (x : BSpec F τ) :
    sumSpec (convSpec f x) = (sumSpec x).map (convSpec f) := by
  have general : (BSpec.raw (Buf.sum τ (convSpec f x).unwrap) : BSpec G .scalar)
      = convSpec f (.raw (Buf.sum (F := F) τ x.unwrap)) := by
    rw [unwrap_conv hf.zero, sum_conv hf.zero hf.add]
    rfl
  cases x with
  | raw b => exact congrArg Res.ok general
  | diagonal s v => exact congrArg Res.ok general
  | full s v =>
    simp only [convSpec_full, sumSpec]
    rw [hf.fromUsize, Res.ofOption_map, Res.map_map, Res.map_map]
    simp only [convSpec_full, hf.mul]

omit [Div F] [Neg F] [Div G] [Neg G] in
theorem varAdjSpec_conv (hf : ScalarMap f) (i t : Id) {a b c : BTy} (k : ConcatImpl a b c)
    (si : Shp a) (st : Shp b) :
    (varAdjSpec i t k si st : Res EvalErr (BSpec G c)) = (varAdjSpec i t k si st).map (convSpec f) := by
  unfold varAdjSpec
  simp only
  split
  · split
    · exact congrArg (fun x => Res.ok (BSpec.diagonal _ x)) hf.one.symm
    · have := Buf.buildSubset_conv f (k.shape si st) 0
        (((Shape.indices (Shp.dims a si)).zip (Shape.indices (Shp.dims b st))).map
          (fun p => Shape.concatIndices p.1 p.2)) (fun _ => 1)
      rw [hf.zero, hf.one] at this
      rw [this, Res.ofOption_map, Res.map_map, Res.map_map]
      rfl
  · exact congrArg (fun x => Res.ok (BSpec.full _ x)) hf.zero.symm

/-! ## Evaluation -/

variable {Γ : Id → BTy}

/-- `m'` does in the converted context what `m` does, up to conversion of the result by `g`. -/
def Commutes (f : F → G) {α β : Type} (g : α → β) (m : EvalM F Γ α) (m' : EvalM G Γ β) : Prop :=
  ∀ c, m' (convCtx f c) = ((m c).1.map g, convCtx f (m c).2)

section
omit [Zero F] [One F] [Add F] [Sub F] [Mul F] [Div F] [Neg F] [ScalarFns F]
  [Zero G] [One G] [Add G] [Sub G] [Mul G] [Div G] [Neg G] [ScalarFns G]
namespace Commutes
variable {α β γ δ : Type} {g : α → β} {m : EvalM F Γ α} {m' : EvalM G Γ β}

theorem map (h : Commutes f g m m') (k : α → γ) (k' : β → δ) (g' : γ → δ)
    (hk : ∀ x, k' (g x) = g' (k x)) : Commutes f g' (m.map k) (m'.map k') := by
  intro c
  simp only [EvalM.map, h c, Res.map_map, hk]

theorem mapErr (h : Commutes f g m m') (k : EvalErr → EvalErr) :
    Commutes f g (m.mapErr k) (m'.mapErr k) := by
  intro c
  simp only [EvalM.mapErr, h c, Res.mapErr_map]

theorem bind (h : Commutes f g m m') {k : α → EvalM F Γ γ} {k' : β → EvalM G Γ δ} {g' : γ → δ}
    (hk : ∀ x, Commutes f g' (k x) (k' (g x))) : Commutes f g' (m.bind k) (m'.bind k') := by
  intro c
  simp only [EvalM.bind, h c]
  match hm : m c with
  | (.ok a, c') => simp only [Res.map_ok]; exact hk a c'
  | (.err e, c') => rfl
  | (.panic, c') => rfl

theorem lift {r : Res EvalErr α} {r' : Res EvalErr β} (h : r' = r.map g) :
    Commutes (Γ := Γ) f g (EvalM.lift r) (EvalM.lift r') := by
  intro c
  simp only [EvalM.lift, h]

theorem read (i : Id) : Commutes (Γ := Γ) f (fun b => Buf.map (Γ i) b f) (EvalM.read i)
    (EvalM.read i) := by
  intro c
  unfold EvalM.read convCtx
  cases h : c i with
  | none => simp only [Option.map_none, Res.map_err]
  | some b => simp only [Option.map_some, Res.map_ok]

theorem readShape (i : Id) : Commutes (Γ := Γ) f (fun s => s)
    ((EvalM.read i).map (Buf.shape _)) ((EvalM.read (F := G) i).map (Buf.shape _)) :=
  (read i).map _ _ _ fun b => Buf.shape_map _ b f

theorem bin {α' β' : Type} {g₂ : γ → δ} {l : EvalM F Γ γ} {l' : EvalM G Γ δ}
    (h₁ : Commutes f g m m') (h₂ : Commutes f g₂ l l') {g' : α' → β'}
    {k : α → γ → Res IncShapes α'} {k' : β → δ → Res IncShapes β'}
    (hk : ∀ x y, k' (g x) (g₂ y) = (k x y).map g') :
    Commutes f g' (binM m l k) (binM m' l' k') := by
  refine (h₁.mapErr _).bind fun x => (h₂.mapErr _).bind fun y => lift ?_
  rw [hk, Res.mapErr_map]

end Commutes

/-- The same derivation for the converted expression. -/
def _root_.Aegir.FnImpl.conv (f : F → G) : {e : Node F} → {τ : BTy} → FnImpl Γ e τ →
    FnImpl Γ (conv f e) τ
  | _, _, .var i => .var i
  | _, _, .varAdj i t k h => .varAdj i t k h
  | _, _, .const τ b => .const τ _
  | _, _, .constSpec τ s => .constSpec τ _
  | _, _, .constAdj d t k => .constAdj (FnImpl.conv f d) t k
  | _, _, .cached i d => .cached i (FnImpl.conv f d)
  | _, _, .add dl dr z => .add (FnImpl.conv f dl) (FnImpl.conv f dr) z
  | _, _, .sub dl dr z => .sub (FnImpl.conv f dl) (FnImpl.conv f dr) z
  | _, _, .mul dl dr z => .mul (FnImpl.conv f dl) (FnImpl.conv f dr) z
  | _, _, .div dl dr z => .div (FnImpl.conv f dl) (FnImpl.conv f dr) z
  | _, _, .power dl dr => .power (FnImpl.conv f dl) (FnImpl.conv f dr)
  | _, _, .contract dl dr z => .contract (FnImpl.conv f dl) (FnImpl.conv f dr) z
  | _, _, .sum d => .sum (FnImpl.conv f d)
  | _, _, .un op d => .un op (FnImpl.conv f d)

end

omit [Zero F] [One F] [Add F] [Sub F] [Mul F] [Div F] [Neg F] [ScalarFns F]
  [Zero G] [One G] [Add G] [Sub G] [Mul G] [Div G] [Neg G] [ScalarFns G] in
theorem convCtx_write (c : Ctx F Γ) (i : Id) (v : Buf F (Γ i)) :
    convCtx f (c.write i v) = (convCtx f c).write i (Buf.map (Γ i) v f) := by
  funext j
  unfold convCtx Ctx.write
  by_cases h : j = i
  · subst h; simp
  · simp [h]

/-- Everything a derivation computes, in the converted context. -/
def CommutesAll (f : F → G) {τ : BTy} (φ : Fn F Γ τ) (φ' : Fn G Γ τ) : Prop :=
  Commutes f (fun b => Buf.map τ b f) φ.evaluate φ'.evaluate ∧
    Commutes f (convSpec f) φ.evaluateSpec φ'.evaluateSpec ∧
    Commutes f (fun s => s) φ.evaluateShape φ'.evaluateShape

omit [One F] [Add F] [Sub F] [Mul F] [Div F] [Neg F] [ScalarFns F]
  [One G] [Add G] [Sub G] [Mul G] [Div G] [Neg G] [ScalarFns G] in
theorem CommutesAll.ofSpec (h0 : f 0 = 0) {τ : BTy} {m : EvalM F Γ (BSpec F τ)}
    {m' : EvalM G Γ (BSpec G τ)} {s : EvalM F Γ (Shp τ)} {s' : EvalM G Γ (Shp τ)}
    (h : Commutes f (convSpec f) m m') (hs : Commutes f (fun s => s) s s') :
    CommutesAll f (Fn.ofSpec m s) (Fn.ofSpec m' s') :=
  ⟨h.map _ _ _ fun x => unwrap_conv h0 x, h, hs⟩

theorem FnImpl.fn_conv (hf : ScalarMap f) {e : Node F} {τ : BTy} (d : FnImpl Γ e τ)
    (he : Respects f e) : CommutesAll f d.fn (d.conv f).fn := by
  have shp : ∀ {a b c : BTy} (z : ZipImpl a b c) (x : Shp a) (y : Shp b),
      Res.ofExcept (z.broadcast x y) = (Res.ofExcept (z.broadcast x y)).map fun s => s :=
    fun z x y => (Res.map_id' _).symm
  induction d with
  | var i =>
    exact ⟨.read i, (Commutes.read i).map _ _ _ fun _ => rfl, .readShape i⟩
  | varAdj i t k h =>
    refine .ofSpec hf.zero ?_ ?_
    · exact ((Commutes.readShape i).mapErr _).bind fun si =>
        ((Commutes.readShape t).mapErr _).bind fun st => .lift (varAdjSpec_conv hf i t k si st)
    · exact ((Commutes.readShape i).mapErr _).bind fun si =>
        ((Commutes.readShape t).mapErr _).bind fun st => .lift rfl
  | const τ b =>
    exact .ofSpec hf.zero (.lift rfl) (.lift (congrArg Res.ok (Buf.shape_map τ b f)))
  | constSpec τ s =>
    exact .ofSpec hf.zero (.lift rfl) (.lift (congrArg Res.ok (shape_conv s)))
  | constAdj d t k ih =>
    have hs := ((ih he).2.2.mapErr .left).bind fun sn =>
        ((Commutes.readShape (f := f) t).mapErr .right).bind fun st =>
          Commutes.lift (g := fun s => s) (r := .ok (k.shape sn st)) rfl
    exact .ofSpec hf.zero (hs.map _ _ _ fun s => congrArg (BSpec.full s) hf.zero.symm) hs
  | cached i d ih =>
    have hd := (ih he).1
    have : Commutes f (fun b => Buf.map (Γ i) b f) (FnImpl.cached i d).fn.evaluate
        ((FnImpl.cached i d).conv f).fn.evaluate := by
      intro c
      have := hd c
      simp only [FnImpl.conv, FnImpl.fn]
      cases hc : c i with
      | some v =>
        have h2 : convCtx f c i = some (Buf.map (Γ i) v f) := by simp [convCtx, hc]
        simp only [h2, Res.map_ok]
      | none =>
        have h2 : convCtx f c i = none := by simp [convCtx, hc]
        simp only [h2, this]
        match hm : d.fn.evaluate c with
        | (.ok v, c') => simp only [Res.map_ok, convCtx_write]
        | (.err e, c') => rfl
        | (.panic, c') => rfl
    exact ⟨this, this.map _ _ _ fun _ => rfl, this.map _ _ _ fun b => Buf.shape_map _ b f⟩
  | add dl dr z ihl ihr =>
    exact .ofSpec hf.zero ((ihl he.1).2.1.bin (ihr he.2).2.1 fun x y => addSpec_conv hf z x y)
      ((ihl he.1).2.2.bin (ihr he.2).2.2 fun x y => shp z x y)
  | sub dl dr z ihl ihr =>
    exact .ofSpec hf.zero ((ihl he.1).2.1.bin (ihr he.2).2.1 fun x y => subSpec_conv hf z x y)
      ((ihl he.1).2.2.bin (ihr he.2).2.2 fun x y => shp z x y)
  | mul dl dr z ihl ihr =>
    exact .ofSpec hf.zero ((ihl he.1).2.1.bin (ihr he.2).2.1 fun x y => mulSpec_conv hf z x y)
      ((ihl he.1).2.2.bin (ihr he.2).2.2 fun x y => shp z x y)
  | div dl dr z ihl ihr =>
    obtain ⟨hd, hl, hr⟩ := he
    have := (ihl hl).1.bin (ihr hr).1 (g' := fun v => Buf.map _ v f)
      (k := fun x y => Res.ofExcept (Buf.zipMapId z x y (· / ·)))
      (k' := fun x y => Res.ofExcept (Buf.zipMapId z x y (· / ·))) fun x y => by
        rw [Buf.zipMapId_conv z f (· / ·) (· / ·) hd, Res.ofExcept_map]
    exact ⟨this, this.map _ _ _ fun _ => rfl, (ihl hl).2.2.bin (ihr hr).2.2 fun x y => shp z x y⟩
  | power dl dr ihl ihr =>
    obtain ⟨hp, hq, hl, hr⟩ := he
    exact .ofSpec hf.zero ((ihl hl).2.1.bin (ihr hr).2.1 fun x y =>
      congrArg Res.ok (powSpec_conv hf hp hq x y)) (.lift rfl)
  | contract dl dr z ihl ihr =>
    exact .ofSpec hf.zero ((ihl he.1).2.1.bin (ihr he.2).2.1 fun x y => contractSpec_conv hf z x y)
      ((ihl he.1).2.2.bin (ihr he.2).2.2 fun x y => (Res.map_id' _).symm)
  | sum d ih =>
    exact ⟨(ih he).1.map _ _ _ fun b => sum_conv hf.zero hf.add b,
      (ih he).2.1.bind fun s => .lift (sumSpec_conv hf s), .lift rfl⟩
  | un op d ih =>
    obtain ⟨ho, hn⟩ := he
    refine ⟨(ih hn).1.map _ _ _ fun b => ?_, (ih hn).2.1.map _ _ _ fun s =>
      unSpec_conv hf.zero _ _ ho s, (ih hn).2.2⟩
    rw [Buf.mutate_eq_map, Buf.mutate_eq_map, Buf.map_map, Buf.map_map]
    congr 1; funext x
    exact (ho x).symm

end

end Aegir
